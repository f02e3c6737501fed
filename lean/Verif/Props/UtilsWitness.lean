import Verif.Props.Kl

/-!
# Instances of the theorems of C36, C40 and C41

Concrete two-dimensional inputs that meet the hypotheses of the theorems in `Props/Utils.lean` and `Props/GaussSB.lean`.
-/

open Matrix

namespace Fbs
namespace Props

open Utils Spec

local notation "M2" => Matrix (Fin 2) (Fin 2) ℝ

private theorem posDef_smul_one {c : ℝ} (hc : 0 < c) : (c • (1 : M2)).PosDef := PosDef.one.smul hc

/-- C40: a shear `x' = v`, `dv = dW`; the noise covariance is singular and the integrated covariance is positive
semidefinite and symmetric. -/
example : (discretiseLtiSde (!![0, 1; 0, 0] : M2) !![0, 0; 0, 1] 3).2.PosSemidef ∧
    (discretiseLtiSde (!![0, 1; 0, 0] : M2) !![0, 0; 0, 1] 3).2.IsSymm := by
  have h : (!![0, 0; 0, 1] : M2).PosSemidef := by
    have := PosSemidef.diagonal (R := ℝ) (d := ![0, 1]) (fun i => by fin_cases i <;> simp)
    convert this using 1
    ext i j; fin_cases i <;> fin_cases j <;> simp
  exact ⟨C40_posSemidef _ _ h (by norm_num), C40_symm _ _ (by ext i j; fin_cases i <;> fin_cases j <;> simp) 3⟩

/-- C40: with no drift the covariance after time `t` is `t` times the noise covariance. -/
example (gamma : M2) (t : ℝ) : (discretiseLtiSde (0 : M2) gamma t).2 = t • gamma := by
  refine (C40_unique (0 : M2) gamma (S := fun t => t • gamma) (by simp) (fun t => ?_) t).symm
  intro i j
  simpa using (hasDerivAt_id t).mul_const (gamma i j)

/-- C41: the square root of `4 I` is `2 I`. -/
example : ∃ eigh : M2 → (Fin 2 → ℝ) × M2, IsEigh eigh ∧ sqrtm eigh ((4 : ℝ) • 1) = (2 : ℝ) • 1 := by
  obtain ⟨eigh, he⟩ := exists_isEigh (n := Fin 2)
  refine ⟨eigh, he, C41_sqrtm_unique he (posDef_smul_one (by norm_num)).posSemidef ?_⟩
  rw [smul_mul_smul_comm, Matrix.mul_one]; norm_num

/-- C41: the distance between `N(0, I)` and `N(0, 2 I)` is positive, and the same from either side. -/
example : ∃ eigh : M2 → (Fin 2 → ℝ) × M2, IsEigh eigh ∧ 0 < buresDist eigh 0 1 0 ((2 : ℝ) • 1) ∧
    buresDist eigh 0 1 0 ((2 : ℝ) • 1) = buresDist eigh 0 ((2 : ℝ) • 1) 0 1 := by
  obtain ⟨eigh, he⟩ := exists_isEigh (n := Fin 2)
  have hB := (posDef_smul_one (c := 2) (by norm_num)).posSemidef
  refine ⟨eigh, he, lt_of_le_of_ne (C41_bures_nonneg he 0 0 PosSemidef.one hB) fun h => ?_,
    C41_bures_symm he 0 0 PosSemidef.one hB⟩
  have := congrFun (congrFun ((C41_bures_zero he 0 0 PosSemidef.one hB).1 h.symm).2 0) 0
  norm_num at this

/-- C36: bridge from `N(0, I)` to `N(0, 6 I)` with unit reference; the coupling solves `C² + C = 6 I`, the covariance at
half time is positive definite and obeys its equation. -/
example : ∃ (eigh : M2 → (Fin 2 → ℝ) × M2) (cho : M2 → M2), IsEigh eigh ∧ IsChol cho ∧
    (makeGaussianBwSb eigh cho 0 1 0 ((6 : ℝ) • 1) 1).C * (makeGaussianBwSb eigh cho 0 1 0 ((6 : ℝ) • 1) 1).C
      + (makeGaussianBwSb eigh cho 0 1 0 ((6 : ℝ) • 1) 1).C = (6 : ℝ) • 1 ∧
    ((makeGaussianBwSb eigh cho 0 1 0 ((6 : ℝ) • 1) 1).cov (1 / 2)).PosDef ∧
    ∃ (A : M2) (c : Fin 2 → ℝ),
      (∀ x, (makeGaussianBwSb eigh cho 0 1 0 ((6 : ℝ) • 1) 1).drift x (1 / 2) = A *ᵥ x + c) ∧
      MDeriv (fun t => (makeGaussianBwSb eigh cho 0 1 0 ((6 : ℝ) • 1) 1).cov t)
        (A * (makeGaussianBwSb eigh cho 0 1 0 ((6 : ℝ) • 1) 1).cov (1 / 2)
          + (makeGaussianBwSb eigh cho 0 1 0 ((6 : ℝ) • 1) 1).cov (1 / 2) * Aᵀ + (1 : ℝ) ^ 2 • 1) (1 / 2) := by
  obtain ⟨eigh, he⟩ := exists_isEigh (n := Fin 2)
  obtain ⟨cho, hc⟩ := exists_isChol 2
  have h1 := posDef_smul_one (c := 6) (by norm_num)
  refine ⟨eigh, cho, he, hc, ?_, C36_cov_posDef he PosDef.one h1 (by norm_num) (by norm_num),
    C36_cov_ode he hc PosDef.one h1 (by norm_num) (by norm_num)⟩
  simpa using C36_coupling (cho := cho) (mean0 := 0) (mean1 := 0) (sig := 1) he PosDef.one h1

end Props
end Fbs
