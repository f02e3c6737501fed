import Verif.Lemmas.Complete
import Mathlib.Analysis.SpecialFunctions.Trigonometric.DerivHyp
import Mathlib.MeasureTheory.Function.AEEqOfLIntegral

/-!
# Two observations of one state, drawn at two states
-/

open MeasureTheory ProbabilityTheory Set Filter Topology
open scoped ENNReal NNReal

namespace Fbs
namespace TanhPair

theorem continuous_tanh : Continuous Real.tanh := by
  have h : Real.tanh = fun x => Real.sinh x / Real.cosh x := funext Real.tanh_eq_sinh_div_cosh
  rw [h]
  exact Real.continuous_sinh.div Real.continuous_cosh fun x => (Real.cosh_pos x).ne'

theorem abs_tanh_le (x : ℝ) : |Real.tanh x| ≤ 1 := (Real.abs_tanh_lt_one x).le

theorem tanh_pos {x : ℝ} (hx : 0 < x) : 0 < Real.tanh x := by
  rw [Real.tanh_eq_sinh_div_cosh]
  exact div_pos (Real.sinh_pos_iff.2 hx) (Real.cosh_pos x)

theorem tanh_neg {x : ℝ} (hx : x < 0) : Real.tanh x < 0 := by
  rw [Real.tanh_eq_sinh_div_cosh]
  exact div_neg_of_neg_of_pos (Real.sinh_neg_iff.2 hx) (Real.cosh_pos x)

theorem tanh_inj {x y : ℝ} (h : Real.tanh x = Real.tanh y) : x = y := by
  rw [Real.tanh_eq_sinh_div_cosh, Real.tanh_eq_sinh_div_cosh, div_eq_div_iff (Real.cosh_pos x).ne' (Real.cosh_pos y).ne'] at h
  have h2 : Real.sinh (x - y) = 0 := by rw [Real.sinh_sub]; linarith
  exact sub_eq_zero.1 (Real.sinh_eq_zero.1 h2)

/-- The joint density of two observations at the state `x`, with respect to the one for `tanh(x) = 0`. -/
noncomputable def tilt (x s : ℝ) : ℝ≥0∞ := ENNReal.ofReal (Real.exp (Real.tanh x * s - Real.tanh x ^ 2))

theorem measurable_tilt : Measurable fun q : ℝ × ℝ => tilt q.1 q.2 := by
  have := continuous_tanh.measurable
  unfold tilt
  fun_prop

theorem measurable_tilt_left (x : ℝ) : Measurable fun s => tilt x s := by
  unfold tilt
  fun_prop

theorem measurable_tilt_right (s : ℝ) : Measurable fun x => tilt x s := by
  have := continuous_tanh.measurable
  unfold tilt
  fun_prop

/-- The mean of `φ` of the state, weighted by the density of the sum `s` of the observations. -/
noncomputable def wmean (p : Measure ℝ) (φ : ℝ → ℝ≥0∞) (s : ℝ) : ℝ≥0∞ := ∫⁻ x, tilt x s * φ x ∂p

variable {p : Measure ℝ} [IsProbabilityMeasure p]

theorem measurable_wmean {φ : ℝ → ℝ≥0∞} (hφ : Measurable φ) : Measurable (wmean p φ) := by
  have h : Measurable fun q : ℝ × ℝ => tilt q.2 q.1 * φ q.2 := (measurable_tilt.comp measurable_swap).mul (hφ.comp measurable_snd)
  exact h.lintegral_prod_right'

theorem tilt_le (x s : ℝ) : tilt x s ≤ ENNReal.ofReal (Real.exp |s|) := by
  refine ENNReal.ofReal_le_ofReal (Real.exp_le_exp.2 ?_)
  have h1 : Real.tanh x * s ≤ |s| := (le_abs_self _).trans (by
    rw [abs_mul]; exact mul_le_of_le_one_left (abs_nonneg _) (abs_tanh_le x))
  nlinarith [sq_nonneg (Real.tanh x)]

theorem wmean_ne_top (s : ℝ) : wmean p 1 s ≠ ∞ := by
  have h : wmean p 1 s ≤ ∫⁻ _, ENNReal.ofReal (Real.exp |s|) ∂p := lintegral_mono fun x => by
    simpa using tilt_le x s
  rw [lintegral_const, measure_univ, mul_one] at h
  exact ne_top_of_le_ne_top ENNReal.ofReal_ne_top h

theorem wmean_ne_zero (s : ℝ) : wmean p 1 s ≠ 0 := by
  have h : ∫⁻ _, ENNReal.ofReal (Real.exp (-|s| - 1)) ∂p ≤ wmean p 1 s := lintegral_mono fun x => by
    simp only [Pi.one_apply, mul_one]
    refine ENNReal.ofReal_le_ofReal (Real.exp_le_exp.2 ?_)
    have h1 : -|s| ≤ Real.tanh x * s := neg_le_of_abs_le (by
      rw [abs_mul]; exact mul_le_of_le_one_left (abs_nonneg _) (abs_tanh_le x))
    have h2 : Real.tanh x ^ 2 ≤ 1 := by rw [← sq_abs]; exact pow_le_one₀ (abs_nonneg _) (abs_tanh_le x)
    linarith
  rw [lintegral_const, measure_univ, mul_one] at h
  exact (lt_of_lt_of_le (ENNReal.ofReal_pos.2 (Real.exp_pos _)) h).ne'

/-- The law of the sum of two observations with variance one at the states of a pair. -/
noncomputable def sumLaw (π : Measure (ℝ × ℝ)) : Measure ℝ :=
  (π.prod (gaussianReal 0 2)).map fun q => Real.tanh q.1.1 + Real.tanh q.1.2 + q.2

theorem measurable_sum : Measurable fun q : (ℝ × ℝ) × ℝ => Real.tanh q.1.1 + Real.tanh q.1.2 + q.2 := by
  have := continuous_tanh.measurable
  fun_prop

instance (π : Measure (ℝ × ℝ)) [IsProbabilityMeasure π] : IsProbabilityMeasure (sumLaw π) :=
  Measure.isProbabilityMeasure_map measurable_sum.aemeasurable

theorem lintegral_sumLaw (π : Measure (ℝ × ℝ)) [IsProbabilityMeasure π] {ψ : ℝ → ℝ≥0∞} (hψ : Measurable ψ) :
    ∫⁻ s, ψ s ∂(sumLaw π) = ∫⁻ q, ∫⁻ z, ψ (Real.tanh q.1 + Real.tanh q.2 + z) ∂(gaussianReal 0 2) ∂π := by
  unfold sumLaw
  rw [lintegral_map hψ measurable_sum]
  exact lintegral_prod _ (hψ.comp measurable_sum).aemeasurable

theorem lintegral_sq (m : ℝ) : ∫⁻ z, ENNReal.ofReal ((m + z) ^ 2) ∂(gaussianReal 0 2) = ENNReal.ofReal (m ^ 2 + 2) := by
  have hz : MemLp (id : ℝ → ℝ) 2 (gaussianReal 0 2) := memLp_id_gaussianReal 2
  have h2 : Integrable (fun z : ℝ => z ^ 2) (gaussianReal 0 2) := hz.integrable_sq
  have h1 : Integrable (fun z : ℝ => z) (gaussianReal 0 2) := hz.integrable (by norm_num)
  have hv : ∫ z, z ^ 2 ∂(gaussianReal 0 2) = 2 := by
    have h := variance_id_gaussianReal (μ := 0) (v := 2)
    rw [variance_eq_sub hz] at h
    have h0 : ∫ z, id z ∂(gaussianReal 0 2) = 0 := integral_id_gaussianReal
    rw [h0] at h
    simpa using h
  have hm : ∫ z, z ∂(gaussianReal 0 2) = 0 := integral_id_gaussianReal
  have hi : Integrable (fun z : ℝ => (m + z) ^ 2) (gaussianReal 0 2) := by
    have : (fun z : ℝ => (m + z) ^ 2) = fun z => (m ^ 2 + 2 * m * z) + z ^ 2 := funext fun z => by ring
    rw [this]
    exact ((integrable_const _).add (h1.const_mul _)).add h2
  have h3 : Integrable (fun z : ℝ => m ^ 2 + 2 * m * z) (gaussianReal 0 2) := (integrable_const _).add (h1.const_mul _)
  rw [← ofReal_integral_eq_lintegral_ofReal hi (ae_of_all _ fun z => sq_nonneg _)]
  congr 1
  have : (fun z : ℝ => (m + z) ^ 2) = fun z => (m ^ 2 + 2 * m * z) + z ^ 2 := funext fun z => by ring
  rw [this, integral_add h3 h2, integral_add (integrable_const _) (h1.const_mul _),
    integral_const_mul, hm, hv]
  simp

/-- Tilting moves the mean. -/
theorem lintegral_tilt (x : ℝ) {ψ : ℝ → ℝ≥0∞} (hψ : Measurable ψ) :
    ∫⁻ s, tilt x s * ψ s ∂(gaussianReal 0 2) = ∫⁻ z, ψ (2 * Real.tanh x + z) ∂(gaussianReal 0 2) := by
  set t := Real.tanh x with ht
  have h1 : ∫⁻ z, ψ (2 * t + z) ∂(gaussianReal 0 2) = ∫⁻ s, ψ s ∂(gaussianReal (2 * t) 2) := by
    have h := gaussianReal_map_const_add (μ := 0) (v := 2) (2 * t)
    rw [zero_add] at h
    rw [← h, lintegral_map hψ (by fun_prop)]
  have hti := measurable_tilt_left x
  have hm : Measurable fun s => tilt x s * ψ s := hti.mul hψ
  rw [h1, gaussianReal_of_var_ne_zero 0 (two_ne_zero : (2 : ℝ≥0) ≠ 0), gaussianReal_of_var_ne_zero (2 * t) (two_ne_zero : (2 : ℝ≥0) ≠ 0),
    lintegral_withDensity_eq_lintegral_mul _ (measurable_gaussianPDF 0 2) hm,
    lintegral_withDensity_eq_lintegral_mul _ (measurable_gaussianPDF (2 * t) 2) hψ]
  refine lintegral_congr fun s => ?_
  simp only [Pi.mul_apply, ← mul_assoc]
  congr 1
  unfold tilt gaussianPDF
  rw [← ENNReal.ofReal_mul (gaussianPDFReal_nonneg _ _ _)]
  congr 1
  unfold gaussianPDFReal
  rw [mul_assoc, ← Real.exp_add]
  congr 2
  rw [← ht]
  push_cast
  ring

section Fails

variable {v : ℝ≥0} {π : Measure (ℝ × ℝ)} [IsProbabilityMeasure π]

theorem dense_tanh {v : ℝ≥0} (hv : v ≠ 0) {P : ℝ → Prop} (h : ∀ᵐ x ∂(gaussianReal 0 v), P x) :
    (∀ ε > 0, ∃ x, P x ∧ 0 < Real.tanh x ∧ Real.tanh x < ε) ∧ ∃ x, P x ∧ Real.tanh x < 0 := by
  have hvol : ∀ᵐ x : ℝ, P x := (gaussianReal_absolutelyContinuous' 0 hv).ae_le h
  have hex : ∀ a b : ℝ, a < b → ∃ x ∈ Ioo a b, P x := fun a b hab => by
    by_contra hc
    push Not at hc
    have : volume (Ioo a b) ≤ volume {x | ¬ P x} := measure_mono fun x hx => hc x hx
    rw [ae_iff.1 hvol, Real.volume_Ioo] at this
    exact absurd this (by simpa using hab)
  refine ⟨fun ε hε => ?_, ?_⟩
  · have hc : ∀ᶠ x in 𝓝 (0 : ℝ), Real.tanh x < ε := by
      have := continuous_tanh.tendsto 0
      rw [Real.tanh_zero] at this
      exact this.eventually (gt_mem_nhds hε)
    obtain ⟨δ, hδ, hb⟩ := Metric.eventually_nhds_iff.1 hc
    obtain ⟨x, hx, hP⟩ := hex 0 δ hδ
    exact ⟨x, hP, tanh_pos hx.1, hb (by simpa [abs_of_pos hx.1] using hx.2)⟩
  · obtain ⟨x, hx, hP⟩ := hex (-1) 0 (by norm_num)
    exact ⟨x, hP, tanh_neg hx.2⟩

/-- Drawing a state given the sum of two observations as if both were made at that state does not keep the law of the state,
if the second observation is made at another state with the same law. -/
theorem ideal_fails (hv : v ≠ 0) (h1 : π.map Prod.fst = gaussianReal 0 v) (h2 : π.map Prod.snd = gaussianReal 0 v)
    (hne : ¬ ∀ᵐ q ∂π, q.1 = q.2) :
    ∃ B : Set ℝ, MeasurableSet B ∧
      ∫⁻ s, wmean (gaussianReal 0 v) (B.indicator 1) s * (wmean (gaussianReal 0 v) 1 s)⁻¹ ∂(sumLaw π) ≠ gaussianReal 0 v B := by
  by_contra hc
  push Not at hc
  set p := gaussianReal 0 v with hp
  have hA : Measurable (wmean p 1) := measurable_wmean measurable_one
  have hAi : Measurable fun s => (wmean p 1 s)⁻¹ := hA.inv
  -- the density of the new state is one
  let H : ℝ → ℝ≥0∞ := fun x => ∫⁻ s, tilt x s * (wmean p 1 s)⁻¹ ∂(sumLaw π)
  have hjm : Measurable fun q : ℝ × ℝ => tilt q.1 q.2 * (wmean p 1 q.2)⁻¹ := measurable_tilt.mul (hA.comp measurable_snd).inv
  have hH : Measurable H := hjm.lintegral_prod_right'
  have hone : ∀ᵐ x ∂p, H x = 1 := by
    refine ae_eq_of_forall_setLIntegral_eq_of_sigmaFinite hH measurable_const fun B hB _ => ?_
    rw [setLIntegral_const, one_mul, ← hc B hB, ← lintegral_indicator hB]
    have e : ∀ x, B.indicator H x = ∫⁻ s, tilt x s * B.indicator 1 x * (wmean p 1 s)⁻¹ ∂(sumLaw π) := fun x => by
      by_cases hx : x ∈ B <;> simp [hx, H]
    have hj2 : Measurable fun q : ℝ × ℝ => tilt q.1 q.2 * B.indicator 1 q.1 * (wmean p 1 q.2)⁻¹ :=
      (measurable_tilt.mul ((measurable_one.indicator hB).comp measurable_fst)).mul (hA.comp measurable_snd).inv
    rw [lintegral_congr e, lintegral_lintegral_swap hj2.aemeasurable]
    refine lintegral_congr fun s => ?_
    have hm : Measurable fun x => tilt x s * B.indicator 1 x :=
      (measurable_tilt_right s).mul (measurable_one.indicator hB)
    rw [lintegral_mul_const _ hm]
    rfl
  obtain ⟨hpos, xn, hxn, hxn0⟩ := dense_tanh hv hone
  have hν : (sumLaw π).withDensity (fun s => (wmean p 1 s)⁻¹) = gaussianReal 0 2 := by
    refine Complete.eq_gaussian (D := {t | ∃ x, H x = 1 ∧ Real.tanh x = t})
      (fun ε hε => ?_) ⟨_, ⟨xn, hxn, rfl⟩, hxn0⟩ ?_
    · obtain ⟨x, hx, ha, hb⟩ := hpos ε hε
      exact ⟨_, ⟨x, hx, rfl⟩, ha, hb⟩
    · rintro _ ⟨x, hx, rfl⟩
      have hme : Measurable fun s => ENNReal.ofReal (Real.exp (Real.tanh x * s)) := by fun_prop
      rw [lintegral_withDensity_eq_lintegral_mul _ hAi hme]
      have e : ∀ s, ((fun s => (wmean p 1 s)⁻¹) * fun s => ENNReal.ofReal (Real.exp (Real.tanh x * s))) s
          = ENNReal.ofReal (Real.exp (Real.tanh x ^ 2)) * (tilt x s * (wmean p 1 s)⁻¹) := fun s => by
        simp only [Pi.mul_apply]
        rw [← mul_assoc, tilt, ← ENNReal.ofReal_mul (Real.exp_pos _).le, ← Real.exp_add, mul_comm]
        congr 3
        ring
      have hm : Measurable fun s => tilt x s * (wmean p 1 s)⁻¹ := (measurable_tilt_left x).mul hAi
      rw [lintegral_congr e, lintegral_const_mul _ hm]
      show _ * H x = _
      rw [hx, mul_one]
  -- the second moments of the sum
  have hsq : Measurable fun s : ℝ => ENNReal.ofReal (s ^ 2) := by fun_prop
  have hl : ∫⁻ s, ENNReal.ofReal (s ^ 2) ∂(sumLaw π) = ∫⁻ q, ENNReal.ofReal ((Real.tanh q.1 + Real.tanh q.2) ^ 2 + 2) ∂π := by
    rw [lintegral_sumLaw π hsq]
    exact lintegral_congr fun q => lintegral_sq _
  have hr : ∫⁻ s, ENNReal.ofReal (s ^ 2) ∂(sumLaw π) = ∫⁻ x, ENNReal.ofReal ((2 * Real.tanh x) ^ 2 + 2) ∂p := by
    have e : ∀ s, ENNReal.ofReal (s ^ 2) = (wmean p 1 s)⁻¹ * (wmean p 1 s * ENNReal.ofReal (s ^ 2)) := fun s => by
      rw [← mul_assoc, ENNReal.inv_mul_cancel (wmean_ne_zero s) (wmean_ne_top s), one_mul]
    have hm : Measurable fun s => wmean p 1 s * ENNReal.ofReal (s ^ 2) := hA.mul hsq
    have h := lintegral_withDensity_eq_lintegral_mul (sumLaw π) hAi hm
    have h' : ∫⁻ s, ENNReal.ofReal (s ^ 2) ∂(sumLaw π) = ∫⁻ s, wmean p 1 s * ENNReal.ofReal (s ^ 2) ∂(gaussianReal 0 2) := by
      rw [← hν]
      refine (lintegral_congr e).trans ?_
      exact h.symm
    rw [h']
    have e2 : ∀ s, wmean p 1 s * ENNReal.ofReal (s ^ 2) = ∫⁻ x, tilt x s * ENNReal.ofReal (s ^ 2) ∂p := fun s => by
      have hm := measurable_tilt_right s
      rw [lintegral_mul_const _ hm]
      simp [wmean]
    have hj3 : Measurable fun q : ℝ × ℝ => tilt q.2 q.1 * ENNReal.ofReal (q.1 ^ 2) :=
      (measurable_tilt.comp measurable_swap).mul (by fun_prop)
    rw [lintegral_congr e2, lintegral_lintegral_swap hj3.aemeasurable]
    exact lintegral_congr fun x => (lintegral_tilt x hsq).trans (lintegral_sq _)
  -- so the two states agree
  have hcm := continuous_tanh.measurable
  have hint : ∀ f : ℝ × ℝ → ℝ, Measurable f → (∀ q, |f q| ≤ 10) → Integrable f π := fun f hf hb =>
    Integrable.of_bound hf.aestronglyMeasurable 10 (ae_of_all _ fun q => by simpa using hb q)
  have ht2 : ∀ x, Real.tanh x ^ 2 ≤ 1 := fun x => by rw [← sq_abs]; exact pow_le_one₀ (abs_nonneg _) (abs_tanh_le x)
  have hi1 : Integrable (fun q : ℝ × ℝ => (Real.tanh q.1 + Real.tanh q.2) ^ 2 + 2) π := hint _ (by fun_prop) fun q => by
    rw [abs_of_nonneg (by positivity)]
    nlinarith [ht2 q.1, ht2 q.2, sq_nonneg (Real.tanh q.1 - Real.tanh q.2)]
  have hi2 : Integrable (fun q : ℝ × ℝ => 2 * Real.tanh q.1 ^ 2 + 1) π := hint _ (by fun_prop) fun q => by
    rw [abs_of_nonneg (by positivity)]
    nlinarith [ht2 q.1]
  have hi3 : Integrable (fun q : ℝ × ℝ => 2 * Real.tanh q.2 ^ 2 + 1) π := hint _ (by fun_prop) fun q => by
    rw [abs_of_nonneg (by positivity)]
    nlinarith [ht2 q.2]
  have hmf : Measurable fun x : ℝ => 2 * Real.tanh x ^ 2 + 1 := by fun_prop
  have hE : ∫ q, ((Real.tanh q.1 + Real.tanh q.2) ^ 2 + 2) ∂π = ∫ x, ((2 * Real.tanh x) ^ 2 + 2) ∂p := by
    rw [integral_eq_lintegral_of_nonneg_ae (ae_of_all _ fun q => by positivity) hi1.aestronglyMeasurable, ← hl, hr,
      integral_eq_lintegral_of_nonneg_ae (ae_of_all _ fun q => by positivity) (by fun_prop)]
  have hm1 : ∫ q, (2 * Real.tanh q.1 ^ 2 + 1) ∂π = ∫ x, (2 * Real.tanh x ^ 2 + 1) ∂p := by
    rw [← h1, integral_map measurable_fst.aemeasurable hmf.aestronglyMeasurable]
  have hm2 : ∫ q, (2 * Real.tanh q.2 ^ 2 + 1) ∂π = ∫ x, (2 * Real.tanh x ^ 2 + 1) ∂p := by
    rw [← h2, integral_map measurable_snd.aemeasurable hmf.aestronglyMeasurable]
  have hz : ∫ q, (Real.tanh q.1 - Real.tanh q.2) ^ 2 ∂π = 0 := by
    have e : (fun q : ℝ × ℝ => (Real.tanh q.1 - Real.tanh q.2) ^ 2) = fun q => ((2 * Real.tanh q.1 ^ 2 + 1) +
        (2 * Real.tanh q.2 ^ 2 + 1)) - ((Real.tanh q.1 + Real.tanh q.2) ^ 2 + 2) := funext fun q => by ring
    have e2 : (fun x : ℝ => (2 * Real.tanh x) ^ 2 + 2) = fun x => 2 * (2 * Real.tanh x ^ 2 + 1) := funext fun q => by ring
    have hi23 : Integrable (fun q : ℝ × ℝ => (2 * Real.tanh q.1 ^ 2 + 1) + (2 * Real.tanh q.2 ^ 2 + 1)) π := hi2.add hi3
    rw [e, integral_sub hi23 hi1, integral_add hi2 hi3, hE, hm1, hm2, e2, integral_const_mul]
    ring
  have hi4 : Integrable (fun q : ℝ × ℝ => (Real.tanh q.1 - Real.tanh q.2) ^ 2) π := hint _ (by fun_prop) fun q => by
    rw [abs_of_nonneg (by positivity)]
    nlinarith [ht2 q.1, ht2 q.2, sq_nonneg (Real.tanh q.1 + Real.tanh q.2)]
  rw [integral_eq_zero_iff_of_nonneg (fun q => sq_nonneg _) hi4] at hz
  refine hne (hz.mono fun q hq => ?_)
  have h0 : Real.tanh q.1 - Real.tanh q.2 = 0 := by simpa using hq
  exact tanh_inj (sub_eq_zero.1 h0)

end Fails

end TanhPair
end Fbs
