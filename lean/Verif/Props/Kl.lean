import Verif.Props.GaussSB
import Verif.Lemmas.GaussKl
import Mathlib.Analysis.Matrix.LDL

/-!
# C42: `kl` and the Kullback-Leibler divergence

`InformationTheory.klDiv` is Mathlib's divergence of measures and `multivariateGaussian` its Gaussian measure; neither
refers to the model.
-/

open Matrix MeasureTheory ProbabilityTheory WithLp
open scoped ENNReal

namespace Fbs
namespace Props

open Utils Spec

/-- A Cholesky factorisation satisfying the contract exists. -/
theorem exists_isChol (k : ℕ) : ∃ cho : Matrix (Fin k) (Fin k) ℝ → Matrix (Fin k) (Fin k) ℝ, IsChol cho := by
  have h : ∀ M : Matrix (Fin k) (Fin k) ℝ, ∃ U : Matrix (Fin k) (Fin k) ℝ, M.PosDef →
      (∀ i j, j < i → U i j = 0) ∧ Uᵀ * U = M := by
    intro M
    by_cases hM : M.PosDef
    · have hdiag : ∀ i, 0 ≤ LDL.diagEntries hM i := by
        intro i
        have h1 : (LDL.diag hM).PosSemidef := by
          rw [LDL.diag_eq_lowerInv_conj]
          exact hM.posSemidef.mul_mul_conjTranspose_same _
        have := h1.diag_nonneg (i := i)
        simpa [LDL.diag] using this
      refine ⟨diagonal (fun i => Real.sqrt (LDL.diagEntries hM i)) * (LDL.lower hM)ᵀ, fun _ => ⟨?_, ?_⟩⟩
      · intro i j hij
        rw [diagonal_mul, transpose_apply]
        have htri : BlockTriangular (LDL.lowerInv hM) OrderDual.toDual := fun i j hij =>
          LDL.lowerInv_triangular hM hij
        have : BlockTriangular (LDL.lower hM) OrderDual.toDual := by
          let : Invertible (LDL.lowerInv hM) := LDL.invertibleLowerInv hM
          exact blockTriangular_inv_of_blockTriangular htri
        rw [this hij, mul_zero]
      · rw [transpose_mul, transpose_transpose, diagonal_transpose]
        have h2 := LDL.lower_conj_diag hM
        rw [conjTranspose_eq_transpose_of_trivial] at h2
        refine Eq.trans ?_ h2
        rw [Matrix.mul_assoc, ← Matrix.mul_assoc (diagonal _) (diagonal _), diagonal_mul_diagonal, LDL.diag,
          ← Matrix.mul_assoc]
        simp only [Real.mul_self_sqrt (hdiag _)]
    · exact ⟨0, fun h => absurd h hM⟩
  choose cho hcho using h
  exact ⟨cho, hcho⟩

variable {n : Type} [Fintype n] [LinearOrder n]
  {cho : Matrix n n ℝ → Matrix n n ℝ} {m0 m1 : n → ℝ} {cov0 cov1 : Matrix n n ℝ}

/-- `_log_det` of a Cholesky factor is the log-determinant. -/
theorem C42_log_det (hc : IsChol cho) {M : Matrix n n ℝ} (hM : M.PosDef) : logDet (cho M) = Real.log M.det := by
  obtain ⟨htri, hmul⟩ := hc M hM
  have hdet : (cho M).det = ∏ i, cho M i i := det_of_isUpperTriangular fun i j hij => htri i j hij
  have hne : (cho M).det ≠ 0 := by
    intro h
    have := congrArg det hmul
    rw [det_mul, h, mul_zero] at this
    exact hM.det_pos.ne this
  have hne' : ∀ i ∈ Finset.univ, cho M i i ≠ 0 := by
    rw [hdet] at hne
    exact Finset.prod_ne_zero_iff.1 hne
  have : Real.log M.det = 2 * Real.log (cho M).det := by
    conv_lhs => rw [← hmul]
    rw [det_mul, det_transpose, ← pow_two, Real.log_pow]; norm_num
  rw [this, hdet, Real.log_prod hne', logDet]
  simp only [Real.log_abs]

/-- The value returned is twice the Kullback-Leibler divergence (which is finite).  The property asks for the divergence
itself. -/
theorem C42_twice_divergence_partial (hc : IsChol cho) (h0 : cov0.PosDef) (h1 : cov1.PosDef) :
    InformationTheory.klDiv (multivariateGaussian (toLp 2 m0) cov0) (multivariateGaussian (toLp 2 m1) cov1) ≠ ∞ ∧
    kl cho m0 cov0 m1 cov1 = 2 * (InformationTheory.klDiv (multivariateGaussian (toLp 2 m0) cov0)
      (multivariateGaussian (toLp 2 m1) cov1)).toReal := by
  obtain ⟨hne, hkl⟩ := GaussKl.klDiv_mvg (toLp 2 m0) (toLp 2 m1) h0 h1
  refine ⟨hne, ?_⟩
  rw [hkl]
  simp only [kl, choSolve, choSolveVec, C42_log_det hc h0, C42_log_det hc h1, (hc cov1 h1).2, GaussKl.quad]
  have : (m1 - m0) ⬝ᵥ cov1⁻¹ *ᵥ (m1 - m0) = (m0 - m1) ⬝ᵥ cov1⁻¹ *ᵥ (m0 - m1) := by
    rw [← neg_sub m0 m1, mulVec_neg, neg_dotProduct_neg]
  rw [this]; ring

/-- **C42, sign.** -/
theorem C42_nonneg (hc : IsChol cho) (h0 : cov0.PosDef) (h1 : cov1.PosDef) : 0 ≤ kl cho m0 cov0 m1 cov1 := by
  rw [(C42_twice_divergence_partial hc h0 h1).2]
  positivity

/-- Zero exactly when the Gaussians, equivalently their parameters, coincide. -/
theorem C42_zero (hc : IsChol cho) (h0 : cov0.PosDef) (h1 : cov1.PosDef) :
    kl cho m0 cov0 m1 cov1 = 0 ↔ m0 = m1 ∧ cov0 = cov1 := by
  obtain ⟨hne, e⟩ := C42_twice_divergence_partial (m0 := m0) (m1 := m1) hc h0 h1
  rw [e]
  constructor
  · intro h
    have hz : InformationTheory.klDiv (multivariateGaussian (toLp 2 m0) cov0)
        (multivariateGaussian (toLp 2 m1) cov1) = 0 := by
      have h2 : (InformationTheory.klDiv (multivariateGaussian (toLp 2 m0) cov0)
        (multivariateGaussian (toLp 2 m1) cov1)).toReal = 0 := by linarith
      exact ((ENNReal.toReal_eq_zero_iff _).1 h2).resolve_right hne
    have hm := InformationTheory.klDiv_eq_zero_iff.1 hz
    constructor
    · funext i
      have a := GaussKl.integral_coord (toLp 2 m0) cov0 i
      rw [hm, GaussKl.integral_coord] at a
      exact a.symm
    · ext i j
      have a := covariance_eval_multivariateGaussian (μ := toLp 2 m0) h0.posSemidef i j
      rw [hm, covariance_eval_multivariateGaussian h1.posSemidef] at a
      exact a.symm
  · rintro ⟨rfl, rfl⟩
    rw [InformationTheory.klDiv_self]; simp

/-- The scale is wrong: on the unit Gaussians with means `0` and `1` the function returns `1`, twice the divergence. -/
theorem C42_scale_counterexample {cho : Matrix (Fin 1) (Fin 1) ℝ → Matrix (Fin 1) (Fin 1) ℝ} (hc : IsChol cho) :
    kl cho 0 1 1 1 = 1 ∧
    (InformationTheory.klDiv (multivariateGaussian (toLp 2 (0 : Fin 1 → ℝ)) 1)
      (multivariateGaussian (toLp 2 (1 : Fin 1 → ℝ)) 1)).toReal = 1 / 2 := by
  have h1 : (1 : Matrix (Fin 1) (Fin 1) ℝ).PosDef := PosDef.one
  have : kl cho 0 1 1 1 = 1 := by
    simp [kl, choSolve, choSolveVec, (hc 1 h1).2]
  refine ⟨this, ?_⟩
  have h2 := (C42_twice_divergence_partial (m0 := (0 : Fin 1 → ℝ)) (m1 := 1) hc h1 h1).2
  rw [this] at h2
  linarith

/-- The hypotheses of C36 and C42 are met in every dimension by non-trivial parameters. -/
example : ∃ (eigh : Matrix (Fin 3) (Fin 3) ℝ → (Fin 3 → ℝ) × Matrix (Fin 3) (Fin 3) ℝ)
    (cho : Matrix (Fin 3) (Fin 3) ℝ → Matrix (Fin 3) (Fin 3) ℝ) (cov0 cov1 : Matrix (Fin 3) (Fin 3) ℝ),
    IsEigh eigh ∧ IsChol cho ∧ cov0.PosDef ∧ cov1.PosDef ∧ cov0 ≠ cov1 := by
  obtain ⟨eigh, he⟩ := exists_isEigh (n := Fin 3)
  obtain ⟨cho, hc⟩ := exists_isChol 3
  refine ⟨eigh, cho, 1, (2 : ℝ) • 1, he, hc, PosDef.one, PosDef.one.smul two_pos, ?_⟩
  intro h
  have := congrFun (congrFun h 0) 0
  simp at this

end Props
end Fbs
