import Mathlib.MeasureTheory.Constructions.Pi
import Mathlib.Algebra.MvPolynomial.Equiv
import Mathlib.LinearAlgebra.Matrix.MvPolynomial
import Mathlib.Algebra.Polynomial.Roots
import Mathlib.MeasureTheory.Constructions.BorelSpace.Real
import Mathlib.Topology.Algebra.MvPolynomial

/-!
# A nonzero polynomial vanishes almost nowhere
-/

open MeasureTheory

namespace Fbs
namespace PolyZero

theorem measurableSet_zero {σ : Type} [Fintype σ] (p : MvPolynomial σ ℝ) : MeasurableSet {x : σ → ℝ | MvPolynomial.eval x p = 0} :=
  (MvPolynomial.continuous_eval p).measurable (measurableSet_singleton 0)

theorem pi_zero_fin : ∀ (n : ℕ) (μ : Fin n → Measure ℝ) [∀ i, SigmaFinite (μ i)] [∀ i, NullSingletonClass (μ i)]
    (p : MvPolynomial (Fin n) ℝ), p ≠ 0 → Measure.pi μ {x | MvPolynomial.eval x p = 0} = 0
  | 0, μ, _, _, p, hp => by
    have : {x : Fin 0 → ℝ | MvPolynomial.eval x p = 0} = ∅ := by
      ext x
      simp only [Set.mem_ofPred_eq, Set.mem_empty_iff_false, iff_false]
      intro h
      refine hp ?_
      rw [MvPolynomial.eq_C_of_isEmpty p] at h ⊢
      simp at h
      simp [h]
    rw [this, measure_empty]
  | n + 1, μ, _, _, p, hp => by
    have hmp := (measurePreserving_piFinSuccAbove μ 0).symm
    have hq : (MvPolynomial.finSuccEquiv ℝ n p).leadingCoeff ≠ 0 := by
      simpa using hp
    have ih := pi_zero_fin n (fun i => μ (Fin.succ i)) _ hq
    have hms : MeasurableSet {x : Fin (n + 1) → ℝ | MvPolynomial.eval x p = 0} := measurableSet_zero p
    rw [← hmp.measure_preimage hms.nullMeasurableSet]
    rw [Measure.prod_apply_symm (hmp.measurable hms), lintegral_eq_zero_iff (measurable_measure_prodMk_right
      (hmp.measurable hms))]
    have hae : ∀ᵐ s ∂(Measure.pi fun i : Fin n => μ (Fin.succ i)),
        MvPolynomial.eval s (MvPolynomial.finSuccEquiv ℝ n p).leadingCoeff ≠ 0 := by
      rw [ae_iff]
      simpa using ih
    filter_upwards [hae] with s hs
    set P := Polynomial.map (MvPolynomial.eval s) (MvPolynomial.finSuccEquiv ℝ n p) with hP
    have hP0 : P ≠ 0 := fun h => hs (by
      have := congrArg (fun r => Polynomial.coeff r (MvPolynomial.finSuccEquiv ℝ n p).natDegree) h
      rw [hP] at this
      simpa [Polynomial.coeff_map] using this)
    refine measure_mono_null (t := (P.rootSet ℝ)) (fun y hy => ?_) ((P.rootSet_finite ℝ).measure_zero _)
    have hy' : MvPolynomial.eval (Fin.cons y s : Fin (n + 1) → ℝ) p = 0 := by
      have : MvPolynomial.eval ((MeasurableEquiv.piFinSuccAbove (fun _ => ℝ) 0).symm (y, s)) p = 0 := hy
      convert this using 2
      simp [MeasurableEquiv.piFinSuccAbove, Fin.insertNthEquiv]
    rw [MvPolynomial.eval_eq_eval_mv_eval'] at hy'
    rw [Polynomial.mem_rootSet]
    exact ⟨hP0, by simpa using hy'⟩

/-- The zeros of a nonzero polynomial are negligible for a product of laws without atoms. -/
theorem pi_zero {σ : Type} [Fintype σ] (μ : Measure ℝ) [SigmaFinite μ] [NullSingletonClass μ] {p : MvPolynomial σ ℝ}
    (hp : p ≠ 0) : Measure.pi (fun _ : σ => μ) {x | MvPolynomial.eval x p = 0} = 0 := by
  let e := Fintype.equivFin σ
  have hmp := measurePreserving_piCongrLeft (fun _ : σ => μ) e.symm
  have hms := measurableSet_zero p
  rw [← hmp.measure_preimage hms.nullMeasurableSet]
  have hp' : MvPolynomial.rename e p ≠ 0 := fun h => hp (MvPolynomial.rename_injective e e.injective (by simpa using h))
  have h := pi_zero_fin (Fintype.card σ) (fun _ => μ) _ hp'
  refine (congrArg _ ?_).trans h
  ext x
  have hx : (MeasurableEquiv.piCongrLeft (fun _ : σ => ℝ) e.symm) x = x ∘ e := by
    funext i
    have := MeasurableEquiv.piCongrLeft_apply_apply (β := fun _ : σ => ℝ) (e := e.symm) x (e i)
    simpa using this
  simp only [Set.mem_preimage, Set.mem_ofPred_eq, hx, MvPolynomial.eval_rename]

/-- A square matrix with independent entries from a law without atoms is almost surely invertible. -/
theorem ae_det_ne_zero {m : Type} [Fintype m] [DecidableEq m] (μ : Measure ℝ) [SigmaFinite μ] [NullSingletonClass μ] :
    ∀ᵐ z ∂(Measure.pi fun _ : m × m => μ), (Matrix.of fun i j => z (i, j)).det ≠ 0 := by
  rw [ae_iff]
  have h := pi_zero μ (Matrix.det_mvPolynomialX_ne_zero m ℝ)
  refine (congrArg _ ?_).trans h
  ext z
  simp only [ne_eq, not_not, Set.mem_ofPred_eq, Matrix.eval_det_mvPolynomialX]

end PolyZero
end Fbs
