import Mathlib.MeasureTheory.Integral.Lebesgue.Add
import Mathlib.MeasureTheory.Integral.Lebesgue.Markov
import Mathlib.MeasureTheory.Constructions.BorelSpace.Real

/-!
# Conditional means under two nearby joint laws
-/

open MeasureTheory
open scoped ENNReal

namespace Fbs.CondStability

variable {W : Type*} [MeasurableSpace W] {ν : Measure W}

/-- `a w + b w = A w` are the integrals of `φ`, `1 - φ` and `1` over the hidden variable at the observation `w` under one joint
law, `a' + b' = A'` those under another.  If the two joint laws differ by at most `δ` on the two test functions used, then the
conditional means of `φ` differ by at most `2δ` on average over the observation. -/
theorem cond_stability {a b A a' b' A' : W → ℝ≥0∞} (ha' : Measurable a') (hb' : Measurable b')
    (hA : Measurable A) (hA' : Measurable A') (hab : ∀ w, a w + b w = A w) (hab' : ∀ w, a' w + b' w = A' w)
    (hI : ∫⁻ w, A w ∂ν = 1) (hI' : ∫⁻ w, A' w ∂ν = 1) {δ : ℝ≥0∞}
    (ha : Measurable a)
    (h1 : ∀ S, MeasurableSet S → ∫⁻ w, S.indicator a w + Sᶜ.indicator b w ∂ν ≤
      (∫⁻ w, S.indicator a' w + Sᶜ.indicator b' w ∂ν) + δ)
    (h2 : ∀ ρ : W → ℝ≥0∞, Measurable ρ → (∀ w, ρ w ≤ 1) → ∫⁻ w, A' w * ρ w ∂ν ≤ (∫⁻ w, A w * ρ w ∂ν) + δ) :
    ∫⁻ w, A w * ENNReal.ofReal |(a w).toReal / (A w).toReal - (a' w).toReal / (A' w).toReal| ∂ν ≤ 2 * δ := by
  set r : W → ℝ := fun w => (a w).toReal / (A w).toReal with hr
  set r' : W → ℝ := fun w => (a' w).toReal / (A' w).toReal with hr'
  have hrm : Measurable r := ha.ennreal_toReal.div hA.ennreal_toReal
  have hrm' : Measurable r' := ha'.ennreal_toReal.div hA'.ennreal_toReal
  set S : Set W := {w | r' w ≤ r w} with hS
  have hSm : MeasurableSet S := measurableSet_le hrm' hrm
  set J' : W → ℝ≥0∞ := fun w => S.indicator a' w + Sᶜ.indicator b' w with hJ'
  have hJm' : Measurable J' := (ha'.indicator hSm).add (hb'.indicator hSm.compl)
  have hJle : ∀ w, J' w ≤ A' w := fun w => by
    by_cases h : w ∈ S
    · simp [hJ', h, ← hab' w]
    · simp [hJ', h, ← hab' w]
  set ρ : W → ℝ≥0∞ := fun w => J' w / A' w with hρ
  have hρm : Measurable ρ := hJm'.div hA'
  have hρ1 : ∀ w, ρ w ≤ 1 := fun w => ENNReal.div_le_of_le_mul (by simpa using hJle w)
  have hfin : ∀ᵐ w ∂ν, A w < ∞ := ae_lt_top hA (by simp [hI])
  have hfin' : ∀ᵐ w ∂ν, A' w < ∞ := ae_lt_top hA' (by simp [hI'])
  have e' : ∫⁻ w, A' w * ρ w ∂ν = ∫⁻ w, J' w ∂ν := by
    refine lintegral_congr_ae (hfin'.mono fun w hw => ?_)
    by_cases h0 : A' w = 0
    · have : J' w = 0 := le_antisymm ((hJle w).trans h0.le) zero_le
      simp [h0, this]
    · simp only [hρ]
      exact ENNReal.mul_div_cancel h0 hw.ne
  have hpt : ∀ᵐ w ∂ν, A w * ENNReal.ofReal |r w - r' w| + A w * ρ w = S.indicator a w + Sᶜ.indicator b w := by
    filter_upwards [hfin, hfin'] with w hw hw'
    by_cases h0 : A w = 0
    · have h3 := hab w
      rw [h0, add_eq_zero] at h3
      by_cases h : w ∈ S <;> simp [h, h0, h3.1, h3.2]
    have haf : a w ≠ ∞ := ne_top_of_le_ne_top hw.ne (by rw [← hab w]; exact le_self_add)
    have hbf : b w ≠ ∞ := ne_top_of_le_ne_top hw.ne (by rw [← hab w]; exact le_add_self)
    have haf' : a' w ≠ ∞ := ne_top_of_le_ne_top hw'.ne (by rw [← hab' w]; exact le_self_add)
    have hbf' : b' w ≠ ∞ := ne_top_of_le_ne_top hw'.ne (by rw [← hab' w]; exact le_add_self)
    have hA0 : (A w).toReal ≠ 0 := (ENNReal.toReal_pos h0 hw.ne).ne'
    have hsum : (a w).toReal + (b w).toReal = (A w).toReal := by rw [← ENNReal.toReal_add haf hbf, hab w]
    have hsum' : (a' w).toReal + (b' w).toReal = (A' w).toReal := by rw [← ENNReal.toReal_add haf' hbf', hab' w]
    have hρf : ρ w ≠ ∞ := ne_top_of_le_ne_top ENNReal.one_ne_top (hρ1 w)
    have hlf : A w * ENNReal.ofReal |r w - r' w| + A w * ρ w ≠ ∞ :=
      ENNReal.add_ne_top.2 ⟨ENNReal.mul_ne_top hw.ne ENNReal.ofReal_ne_top, ENNReal.mul_ne_top hw.ne hρf⟩
    have key : (A w).toReal * |r w - r' w| + (A w).toReal * (ρ w).toReal =
        (S.indicator a w + Sᶜ.indicator b w).toReal := by
      by_cases h : w ∈ S
      · have h' : r' w ≤ r w := h
        have hρr : (ρ w).toReal = r' w := by simp [hρ, hJ', h, hr', ENNReal.toReal_div]
        rw [hρr, abs_of_nonneg (sub_nonneg.2 h')]
        simp only [h, Set.indicator_of_mem, Set.mem_compl_iff, not_true, not_false_iff, Set.indicator_of_notMem, add_zero]
        rw [mul_sub, sub_add_cancel]
        simp only [hr]
        field_simp
      · have h' : r w < r' w := lt_of_not_ge h
        have hA'0 : (A' w).toReal ≠ 0 := by
          intro h4
          have h5 : r' w = 0 := by simp [hr', h4]
          have h6 : 0 ≤ r w := by positivity
          linarith
        have hρr : (ρ w).toReal = 1 - r' w := by
          simp only [hρ, hJ', h, Set.indicator_of_notMem, not_false_iff, Set.mem_compl_iff, Set.indicator_of_mem, zero_add,
            ENNReal.toReal_div, hr']
          rw [eq_sub_iff_add_eq, ← add_div, add_comm, hsum', div_self hA'0]
        rw [hρr, abs_of_neg (sub_neg.2 h')]
        simp only [h, Set.indicator_of_mem, Set.mem_compl_iff, not_false_iff, Set.indicator_of_notMem, zero_add]
        have h7 : (A w).toReal * r w = (a w).toReal := by
          simp only [hr]
          field_simp
        linarith
    have hJf : S.indicator a w + Sᶜ.indicator b w ≠ ∞ := by
      by_cases h : w ∈ S <;> simp [h, haf, hbf]
    rw [← ENNReal.toReal_eq_toReal_iff' hlf hJf, ← key, ENNReal.toReal_add
      (ENNReal.mul_ne_top hw.ne ENNReal.ofReal_ne_top) (ENNReal.mul_ne_top hw.ne hρf), ENNReal.toReal_mul, ENNReal.toReal_mul,
      ENNReal.toReal_ofReal (abs_nonneg _)]
  have hfinA : ∫⁻ w, A w * ρ w ∂ν ≠ ∞ := by
    refine ne_top_of_le_ne_top ENNReal.one_ne_top ?_
    rw [← hI]
    exact lintegral_mono fun w => mul_le_of_le_one_right' (hρ1 w)
  have h3 : (∫⁻ w, A w * ENNReal.ofReal |r w - r' w| ∂ν) + ∫⁻ w, A w * ρ w ∂ν ≤ 2 * δ + ∫⁻ w, A w * ρ w ∂ν := by
    rw [← lintegral_add_right _ (show Measurable fun w => A w * ρ w from hA.mul hρm), lintegral_congr_ae hpt]
    calc _ ≤ (∫⁻ w, J' w ∂ν) + δ := h1 S hSm
      _ = (∫⁻ w, A' w * ρ w ∂ν) + δ := by rw [e']
      _ ≤ (∫⁻ w, A w * ρ w ∂ν) + δ + δ := by gcongr; exact h2 ρ hρm hρ1
      _ = _ := by ring
  exact (ENNReal.add_le_add_iff_right hfinA).1 h3

end Fbs.CondStability
