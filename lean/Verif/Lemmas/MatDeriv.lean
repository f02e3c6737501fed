import Mathlib.Analysis.Normed.Algebra.MatrixExponential
import Mathlib.Analysis.SpecialFunctions.Exponential
import Mathlib.Analysis.Calculus.Deriv.Mul
import Mathlib.Analysis.Calculus.Deriv.Add
import Mathlib.Analysis.Calculus.MeanValue
import Mathlib.Analysis.Normed.Module.FiniteDimension

/-!
# Entrywise derivatives of matrix valued functions
-/

open Matrix

namespace Fbs
namespace Spec

/-- `X` has derivative `X'` at `t`, entry by entry. -/
def MDeriv {m n : Type} (X : ℝ → Matrix m n ℝ) (X' : Matrix m n ℝ) (t : ℝ) : Prop :=
  ∀ i j, HasDerivAt (fun t => X t i j) (X' i j) t

end Spec

open Spec

namespace MatDeriv

variable {l m n : Type}

theorem congr {X : ℝ → Matrix m n ℝ} {X' Y' : Matrix m n ℝ} {t : ℝ} (h : MDeriv X X' t) (e : X' = Y') :
    MDeriv X Y' t := e ▸ h

theorem const (X : Matrix m n ℝ) (t : ℝ) : MDeriv (fun _ => X) 0 t := fun _ _ => hasDerivAt_const _ _

theorem add {X Y : ℝ → Matrix m n ℝ} {X' Y' : Matrix m n ℝ} {t : ℝ} (hX : MDeriv X X' t) (hY : MDeriv Y Y' t) :
    MDeriv (fun t => X t + Y t) (X' + Y') t := fun i j => (hX i j).add (hY i j)

theorem sub {X Y : ℝ → Matrix m n ℝ} {X' Y' : Matrix m n ℝ} {t : ℝ} (hX : MDeriv X X' t) (hY : MDeriv Y Y' t) :
    MDeriv (fun t => X t - Y t) (X' - Y') t := fun i j => (hX i j).sub (hY i j)

theorem transpose {X : ℝ → Matrix m n ℝ} {X' : Matrix m n ℝ} {t : ℝ} (hX : MDeriv X X' t) :
    MDeriv (fun t => (X t)ᵀ) X'ᵀ t := fun i j => hX j i

theorem smul {f : ℝ → ℝ} {f' : ℝ} {t : ℝ} (hf : HasDerivAt f f' t) (X : Matrix m n ℝ) :
    MDeriv (fun t => f t • X) (f' • X) t := fun i j => hf.mul_const (X i j)

theorem mul [Fintype m] {X : ℝ → Matrix l m ℝ} {X' : Matrix l m ℝ} {Y : ℝ → Matrix m n ℝ} {Y' : Matrix m n ℝ} {t : ℝ}
    (hX : MDeriv X X' t) (hY : MDeriv Y Y' t) : MDeriv (fun t => X t * Y t) (X' * Y t + X t * Y') t := by
  intro i j
  simp only [Matrix.mul_apply, Matrix.add_apply]
  rw [← Finset.sum_add_distrib]
  exact HasDerivAt.fun_sum fun k _ => (hX i k).mul (hY k j)

theorem const_mul [Fintype m] (A : Matrix l m ℝ) {Y : ℝ → Matrix m n ℝ} {Y' : Matrix m n ℝ} {t : ℝ}
    (hY : MDeriv Y Y' t) : MDeriv (fun t => A * Y t) (A * Y') t :=
  congr (mul (const A t) hY) (by simp)

theorem mul_const [Fintype m] {X : ℝ → Matrix l m ℝ} {X' : Matrix l m ℝ} {t : ℝ} (hX : MDeriv X X' t)
    (A : Matrix m n ℝ) : MDeriv (fun t => X t * A) (X' * A) t :=
  congr (mul hX (const A t)) (by simp)

theorem comp {X : ℝ → Matrix m n ℝ} {X' : Matrix m n ℝ} {f : ℝ → ℝ} {f' t : ℝ} (hX : MDeriv X X' (f t))
    (hf : HasDerivAt f f' t) : MDeriv (fun t => X (f t)) (f' • X') t := by
  intro i j
  exact ((hX i j).comp t hf).congr_deriv (by simp [mul_comm])

theorem eq_of_zero {X : ℝ → Matrix m n ℝ} (h : ∀ t, MDeriv X 0 t) (s t : ℝ) : X s = X t := by
  ext i j
  exact is_const_of_deriv_eq_zero (f := fun t => X t i j) (fun t => (h t i j).differentiableAt)
    (fun t => (h t i j).deriv) s t

section
attribute [local instance] Matrix.linftyOpNormedRing Matrix.linftyOpNormedAlgebra Matrix.linftyOpNormedAddCommGroup
  Matrix.linftyOpNormedSpace

theorem exp [Fintype n] [DecidableEq n] (M : Matrix n n ℝ) (t : ℝ) :
    MDeriv (fun t => NormedSpace.exp (t • M)) (M * NormedSpace.exp (t • M)) t := by
  intro i j
  have h := hasDerivAt_exp_smul_const' M t
  let e : Matrix n n ℝ →ₗ[ℝ] ℝ := Matrix.entryLinearMap ℝ ℝ i j
  exact (e.toContinuousLinearMap.hasFDerivAt).comp_hasDerivAt t h

end

theorem exp_comm [Fintype n] [DecidableEq n] (M : Matrix n n ℝ) (t : ℝ) :
    M * NormedSpace.exp (t • M) = NormedSpace.exp (t • M) * M :=
  ((Commute.refl M).smul_right t).exp_right

theorem exp_neg_mul [Fintype n] [DecidableEq n] (M : Matrix n n ℝ) (t : ℝ) :
    NormedSpace.exp (t • -M) * NormedSpace.exp (t • M) = 1 := by
  rw [smul_neg, Matrix.exp_neg]
  exact Matrix.nonsing_inv_mul _ ((Matrix.isUnit_iff_isUnit_det _).1 (Matrix.isUnit_exp _))

theorem exp_add_smul [Fintype n] [DecidableEq n] (M : Matrix n n ℝ) (s t : ℝ) :
    NormedSpace.exp ((s + t) • M) = NormedSpace.exp (s • M) * NormedSpace.exp (t • M) := by
  rw [add_smul, Matrix.exp_add_of_commute]
  exact ((Commute.refl M).smul_left s).smul_right t

end MatDeriv
end Fbs
