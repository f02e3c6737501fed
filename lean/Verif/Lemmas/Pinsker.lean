import Mathlib.InformationTheory.KullbackLeibler.ChainRule
import Mathlib.InformationTheory.KullbackLeibler.DataProcessing
import Mathlib.Analysis.SpecialFunctions.Log.Deriv
import Mathlib.Analysis.Calculus.Deriv.MeanValue
import Mathlib.MeasureTheory.Function.L2Space

/-!
# Pinsker's inequality
-/

open MeasureTheory InformationTheory Set
open scoped ENNReal NNReal

namespace Fbs
namespace Pinsker

/-- The Padé bound of the logarithm behind Pinsker's inequality. -/
theorem log_ge {t : ℝ} (ht : 0 < t) : (t - 1) * (5 * t + 1) / (2 * t * (t + 2)) ≤ Real.log t := by
  set g : ℝ → ℝ := fun t => Real.log t - (t - 1) * (5 * t + 1) / (2 * t * (t + 2)) with hg
  have hd : ∀ x, 0 < x → HasDerivAt g ((x - 1) ^ 3 / (x ^ 2 * (x + 2) ^ 2)) x := by
    intro x hx
    have h1 := (Real.hasDerivAt_log hx.ne')
    have h2 : HasDerivAt (fun t : ℝ => (t - 1) * (5 * t + 1)) (1 * (5 * x + 1) + (x - 1) * (5 * 1)) x :=
      ((hasDerivAt_id x).sub_const 1).mul (((hasDerivAt_id x).const_mul 5).add_const 1)
    have h3 : HasDerivAt (fun t : ℝ => 2 * t * (t + 2)) (2 * 1 * (x + 2) + 2 * x * 1) x :=
      ((hasDerivAt_id x).const_mul 2).mul ((hasDerivAt_id x).add_const 2)
    have h4 := h1.sub (h2.div h3 (by positivity))
    refine h4.congr_deriv ?_
    field_simp
    ring
  have hc : ∀ s ⊆ Ioi (0 : ℝ), ContinuousOn g s := fun s hs x hx => (hd x (hs hx)).continuousAt.continuousWithinAt
  have h1 : g 1 = 0 := by simp [hg]
  have : 0 ≤ g t := by
    rcases le_total t 1 with h | h
    · have := antitoneOn_of_deriv_nonpos (convex_Icc t 1) (hc _ fun x hx => lt_of_lt_of_le ht hx.1)
        (fun x hx => by
          rw [interior_Icc] at hx
          exact (hd x (ht.trans hx.1)).differentiableAt.differentiableWithinAt)
        (fun x hx => by
          rw [interior_Icc] at hx
          rw [(hd x (ht.trans hx.1)).deriv]
          refine div_nonpos_of_nonpos_of_nonneg ?_ (by positivity)
          exact Odd.pow_nonpos (by decide) (by linarith [hx.2]))
      have h2 := this ⟨le_rfl, h⟩ ⟨h, le_rfl⟩ h
      rwa [h1] at h2
    · have := monotoneOn_of_deriv_nonneg (convex_Icc 1 t) (hc _ fun x hx => lt_of_lt_of_le one_pos hx.1)
        (fun x hx => by
          rw [interior_Icc] at hx
          exact (hd x (one_pos.trans hx.1)).differentiableAt.differentiableWithinAt)
        (fun x hx => by
          rw [interior_Icc] at hx
          rw [(hd x (one_pos.trans hx.1)).deriv]
          have : 0 ≤ x - 1 := by linarith [hx.1]
          positivity)
      have h2 := this ⟨le_rfl, h⟩ ⟨h, le_rfl⟩ h
      rwa [h1] at h2
  simp only [hg] at this
  linarith

/-- The bound of `t log t + 1 - t`. -/
theorem klFun_ge {t : ℝ} (ht : 0 ≤ t) : 3 * (t - 1) ^ 2 ≤ 2 * (t + 2) * klFun t := by
  rcases ht.eq_or_lt with rfl | ht
  · norm_num [klFun_zero]
  have h := log_ge ht
  rw [div_le_iff₀ (by positivity)] at h
  rw [klFun_apply]
  nlinarith [h]

variable {α : Type*} [MeasurableSpace α]

/-- **Pinsker.** -/
theorem pinsker (μ ν : Measure α) [IsProbabilityMeasure μ] [IsProbabilityMeasure ν] (h : klDiv μ ν ≠ ∞) {φ : α → ℝ}
    (hφ : Measurable φ) (h0 : ∀ x, 0 ≤ φ x) (h1 : ∀ x, φ x ≤ 1) :
    |∫ x, φ x ∂μ - ∫ x, φ x ∂ν| ≤ Real.sqrt ((klDiv μ ν).toReal / 2) := by
  obtain ⟨hac, hint⟩ := klDiv_ne_top_iff.1 h
  set r : α → ℝ := fun x => (μ.rnDeriv ν x).toReal with hr
  have hrm : Measurable r := (Measure.measurable_rnDeriv μ ν).ennreal_toReal
  have hri : Integrable r ν := Measure.integrable_toReal_rnDeriv
  have hr0 : ∀ x, 0 ≤ r x := fun x => ENNReal.toReal_nonneg
  have hrint : ∫ x, r x ∂ν = 1 := by
    rw [hr, Measure.integral_toReal_rnDeriv hac]; simp
  have hkl : (klDiv μ ν).toReal = ∫ x, klFun (r x) ∂ν := toReal_klDiv_eq_integral_klFun hac
  have hki : Integrable (fun x => klFun (r x)) ν := (integrable_klFun_rnDeriv_iff hac).2 hint
  have hφb : ∀ x, ‖φ x‖ ≤ 1 := fun x => by rw [Real.norm_of_nonneg (h0 x)]; exact h1 x
  have hφμ : ∫ x, φ x ∂μ = ∫ x, r x * φ x ∂ν := by
    rw [← integral_rnDeriv_smul hac]; rfl
  have hφi : Integrable φ ν := Integrable.of_bound hφ.aestronglyMeasurable 1 (Filter.Eventually.of_forall hφb)
  have hrφ : Integrable (fun x => r x * φ x) ν := by
    exact hri.mul_bdd hφ.aestronglyMeasurable (Filter.Eventually.of_forall hφb)
  have hdiff : Integrable (fun x => |r x - 1|) ν := (hri.sub (integrable_const 1)).abs
  -- half the L1 distance
  have hhalf : |∫ x, φ x ∂μ - ∫ x, φ x ∂ν| ≤ (∫ x, |r x - 1| ∂ν) / 2 := by
    have e : ∫ x, φ x ∂μ - ∫ x, φ x ∂ν = ∫ x, (φ x - 1 / 2) * (r x - 1) ∂ν := by
      have e2 : ∀ x, (φ x - 1 / 2) * (r x - 1) = (r x * φ x - φ x) - (1 / 2) * (r x - 1) := fun x => by ring
      have i1 : Integrable (fun x => r x * φ x - φ x) ν := hrφ.sub hφi
      have i2 : Integrable (fun x => (1 / 2) * (r x - 1)) ν := (hri.sub (integrable_const 1)).const_mul _
      simp only [e2]
      rw [integral_sub i1 i2, integral_sub hrφ hφi, integral_const_mul, integral_sub hri (integrable_const 1), hrint, hφμ]
      simp
    rw [e, show (∫ x, |r x - 1| ∂ν) / 2 = ∫ x, 2⁻¹ * |r x - 1| ∂ν by rw [integral_const_mul]; ring]
    refine (abs_integral_le_integral_abs).trans (integral_mono_of_nonneg (Filter.Eventually.of_forall fun x => abs_nonneg _)
      (hdiff.const_mul _) (Filter.Eventually.of_forall fun x => ?_))
    show |(φ x - 1 / 2) * (r x - 1)| ≤ 2⁻¹ * |r x - 1|
    rw [abs_mul]
    refine mul_le_mul_of_nonneg_right ?_ (abs_nonneg _)
    rw [abs_le]
    constructor <;> linarith [h0 x, h1 x]
  -- Cauchy-Schwarz in the form `2 a b ≤ c a² + b² / c`
  have hcs : ∀ c : ℝ, 0 < c → 2 * ∫ x, |r x - 1| ∂ν ≤ c * 2 + (klDiv μ ν).toReal / c := by
    intro c hc
    have i1 : Integrable (fun x => c * ((2 * (r x + 2)) / 3)) ν :=
      (((hri.add (integrable_const 2)).const_mul 2).div_const 3).const_mul c
    have i2 : Integrable (fun x => klFun (r x) / c) ν := hki.div_const c
    have hle : ∫ x, 2 * |r x - 1| ∂ν ≤ ∫ x, (c * ((2 * (r x + 2)) / 3) + klFun (r x) / c) ∂ν := by
      refine integral_mono (hdiff.const_mul 2) (i1.add i2) fun x => ?_
      show 2 * |r x - 1| ≤ c * ((2 * (r x + 2)) / 3) + klFun (r x) / c
      set A := (2 * (r x + 2)) / 3 with hA
      have hA0 : 0 < A := by have := hr0 x; positivity
      have hk := klFun_ge (hr0 x)
      have hk2 : |r x - 1| ^ 2 ≤ A * klFun (r x) := by rw [sq_abs, hA]; linarith
      have hB : |r x - 1| ^ 2 / A ≤ klFun (r x) := by rw [div_le_iff₀ hA0]; linarith
      have h3 : |r x - 1| ^ 2 / A / c ≤ klFun (r x) / c := div_le_div_of_nonneg_right hB hc.le
      have h4 : 0 ≤ (c * A - |r x - 1|) ^ 2 / (c * A) := by positivity
      have h5 : (c * A - |r x - 1|) ^ 2 / (c * A) = c * A - 2 * |r x - 1| + |r x - 1| ^ 2 / A / c := by
        field_simp
        ring
      linarith
    rw [integral_const_mul, integral_add i1 i2, integral_const_mul, integral_div, integral_div, integral_const_mul,
      integral_add hri (integrable_const 2), hrint, ← hkl] at hle
    simp only [integral_const, probReal_univ, smul_eq_mul, one_mul] at hle
    linarith
  set K := (klDiv μ ν).toReal with hK
  have hK0 : 0 ≤ K := ENNReal.toReal_nonneg
  refine hhalf.trans ?_
  rcases hK0.eq_or_lt with h | h
  · rw [← h] at hcs ⊢
    simp only [zero_div, Real.sqrt_zero, add_zero] at hcs ⊢
    have : ∫ x, |r x - 1| ∂ν ≤ 0 := le_of_forall_pos_le_add fun c hc => by
      have := hcs c hc
      linarith
    linarith
  · have hc : 0 < Real.sqrt (K / 2) := Real.sqrt_pos.2 (by positivity)
    have h2 := hcs _ hc
    have h3 : K / Real.sqrt (K / 2) = 2 * Real.sqrt (K / 2) := by
      rw [div_eq_iff hc.ne', mul_assoc, Real.mul_self_sqrt (by positivity)]
      ring
    rw [h3] at h2
    linarith

end Pinsker
end Fbs
