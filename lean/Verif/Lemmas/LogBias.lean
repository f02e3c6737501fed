import Verif.Lemmas.StoreLoop
import Verif.Lemmas.Ker

/-! The logarithm of an unbiased estimate: bias, and the probability of a large error. -/

open MeasureTheory ProbabilityTheory
open scoped ENNReal

namespace Fbs

theorem Rand.Leaves.and {β : Type} {P Q : β → Prop} : ∀ {p : Rand β}, p.Leaves P → p.Leaves Q → p.Leaves fun a => P a ∧ Q a
  | .ret _, h, h' => ⟨h, h'⟩
  | @Rand.draw _ _ _ _ _ _ _, h, h' => fun b => (h b).and (h' b)

/-- Constants can be taken out of sums. -/
theorem Rand.E_add_const {β : Type} {p : Rand β} (hp : p.IsProb) (f : β → ℝ≥0∞) (c : ℝ≥0∞) :
    p.E (fun a => f a + c) = p.E f + c := by
  induction p with
  | ret a => rfl
  | draw k β' S μ cont ih =>
    obtain ⟨hμ, hc⟩ := hp
    simp only [E]
    simp only [fun b => ih b (hc b)]
    rw [lintegral_add_right _ measurable_const]
    simp

variable {α : Type} [MeasurableSpace α]

/-- Expectations of measurable functions are integrals with respect to one law. -/
def HasLawMeas (p : Rand α) (μ : Measure α) : Prop := ∀ f, Measurable f → p.E f = ∫⁻ a, f a ∂μ

theorem HasLawMeas.add {p : Rand α} {μ : Measure α} (hμ : HasLawMeas p μ) {f g : α → ℝ≥0∞} (hf : Measurable f) (hg : Measurable g) :
    p.E (fun a => f a + g a) = p.E f + p.E g := by
  rw [hμ _ hf, hμ _ hg, ← lintegral_add_left hf]
  exact hμ _ (hf.add hg)

theorem HasLawMeas.const {p : Rand α} {μ : Measure α} [IsProbabilityMeasure μ] (hμ : HasLawMeas p μ) (c : ℝ≥0∞) :
    p.E (fun _ => c) = c := by
  rw [hμ _ measurable_const]; simp

/-- The logarithm of an unbiased estimate is on average at most the logarithm of its mean. -/
theorem log_bias_ge {p : Rand α} {μ : Measure α} [IsProbabilityMeasure μ] (hμ : HasLawMeas p μ) {L : α → ℝ} (hL : Measurable L)
    {Z : ℝ} (hZ : 0 < Z) (hu : p.E (fun a => ENNReal.ofReal (Real.exp (L a))) = ENNReal.ofReal Z) (c : ℝ) :
    ENNReal.ofReal (c - Real.log Z) ≤ p.E fun a => ENNReal.ofReal (c - L a) := by
  rcases le_total (c - Real.log Z) 0 with hc | hc
  · rw [ENNReal.ofReal_of_nonpos hc]; exact bot_le
  have m1 : Measurable fun a => ENNReal.ofReal (c - L a) := by fun_prop
  have m2 : Measurable fun a => ENNReal.ofReal (Real.exp (L a)) := by fun_prop
  rw [hμ _ m2] at hu
  rw [hμ _ m1]
  have h : ENNReal.ofReal (c - Real.log Z) + 1 ≤ (∫⁻ a, ENNReal.ofReal (c - L a) ∂μ) + 1 := by
    calc ENNReal.ofReal (c - Real.log Z) + 1 = ∫⁻ _, ENNReal.ofReal (c - Real.log Z + 1) ∂μ := by
          rw [lintegral_const, measure_univ, mul_one, ENNReal.ofReal_add hc zero_le_one, ENNReal.ofReal_one]
      _ ≤ ∫⁻ a, (ENNReal.ofReal (c - L a) + ENNReal.ofReal Z⁻¹ * ENNReal.ofReal (Real.exp (L a))) ∂μ := by
          refine lintegral_mono fun a => ?_
          rw [← ENNReal.ofReal_mul (by positivity)]
          refine le_trans (ENNReal.ofReal_le_ofReal ?_) ENNReal.ofReal_add_le
          have := Real.add_one_le_exp (L a - Real.log Z)
          rw [Real.exp_sub, Real.exp_log hZ] at this
          rw [inv_mul_eq_div]
          linarith
      _ = _ := by
          rw [lintegral_add_left m1, lintegral_const_mul _ m2, hu, ← ENNReal.ofReal_mul (by positivity),
            inv_mul_cancel₀ hZ.ne', ENNReal.ofReal_one]
  exact (ENNReal.add_le_add_iff_right ENNReal.one_ne_top).1 h

theorem log_bias_pointwise {L Z B : ℝ} (hZ : 0 < Z) (hL : -B ≤ L) (hZB : Real.exp (-B) ≤ Z) :
    B - L + Z⁻¹ * Real.exp L ≤ B - Real.log Z + 1 + Real.exp (2 * B) * (Real.exp L - Z) ^ 2 := by
  set X := Real.exp L with hX
  have hX0 : 0 < X := Real.exp_pos _
  have hXB : Real.exp (-B) ≤ X := Real.exp_le_exp.2 hL
  have h1 : Real.log (Z / X) ≤ Z / X - 1 := Real.log_le_sub_one_of_pos (by positivity)
  rw [Real.log_div hZ.ne' hX0.ne', hX, Real.log_exp, ← hX] at h1
  have h2 : (X - Z) ^ 2 / (X * Z) ≤ Real.exp (2 * B) * (X - Z) ^ 2 := by
    rw [div_le_iff₀ (by positivity)]
    have h3 : Real.exp (-B) * Real.exp (-B) ≤ X * Z := mul_le_mul hXB hZB (Real.exp_pos _).le hX0.le
    have h4 : Real.exp (2 * B) * (Real.exp (-B) * Real.exp (-B)) = 1 := by
      rw [← Real.exp_add, ← Real.exp_add, show 2 * B + (-B + -B) = 0 by ring, Real.exp_zero]
    have h5 : 1 ≤ Real.exp (2 * B) * (X * Z) := by
      rw [← h4]; exact mul_le_mul_of_nonneg_left h3 (Real.exp_pos _).le
    nlinarith [sq_nonneg (X - Z)]
  have h6 : Z / X - 1 = 1 - Z⁻¹ * X + (X - Z) ^ 2 / (X * Z) := by field_simp; ring
  linarith

/-- ... and, for estimates between `exp (-B)` and `exp B` with variance `v`, smaller by at most `exp (2 B) v`. -/
theorem log_bias_le {p : Rand α} {μ : Measure α} [IsProbabilityMeasure μ] (hμ : HasLawMeas p μ) {L : α → ℝ} (hL : Measurable L)
    {Z B v : ℝ} (hZ : 0 < Z) (hu : p.E (fun a => ENNReal.ofReal (Real.exp (L a))) = ENNReal.ofReal Z)
    (hlo : p.Leaves fun a => |L a| ≤ B) (hZl : Real.exp (-B) ≤ Z) (hZu : Z ≤ Real.exp B) (hv0 : 0 ≤ v)
    (hv : p.E (fun a => ENNReal.ofReal ((Real.exp (L a) - Z) ^ 2)) ≤ ENNReal.ofReal v) :
    (p.E fun a => ENNReal.ofReal (B - L a)) ≤ ENNReal.ofReal (B - Real.log Z + Real.exp (2 * B) * v) := by
  have hB : 0 ≤ B - Real.log Z := by
    have := Real.log_le_log hZ hZu
    rw [Real.log_exp] at this
    linarith
  have m1 : Measurable fun a => ENNReal.ofReal (B - L a) := by fun_prop
  have m2 : Measurable fun a => ENNReal.ofReal (Real.exp (L a)) := by fun_prop
  have m3 : Measurable fun a => ENNReal.ofReal ((Real.exp (L a) - Z) ^ 2) := by fun_prop
  have h : (p.E fun a => ENNReal.ofReal (B - L a)) + 1 ≤ ENNReal.ofReal (B - Real.log Z + Real.exp (2 * B) * v) + 1 := by
    calc (p.E fun a => ENNReal.ofReal (B - L a)) + 1
        = p.E fun a => ENNReal.ofReal (B - L a) + ENNReal.ofReal Z⁻¹ * ENNReal.ofReal (Real.exp (L a)) := by
          rw [hμ.add m1 (m2.const_mul _), Rand.E_const_mul _ ENNReal.ofReal_ne_top, hu,
            ← ENNReal.ofReal_mul (by positivity), inv_mul_cancel₀ hZ.ne', ENNReal.ofReal_one]
      _ ≤ p.E fun a => ENNReal.ofReal (B - Real.log Z + 1)
            + ENNReal.ofReal (Real.exp (2 * B)) * ENNReal.ofReal ((Real.exp (L a) - Z) ^ 2) := by
          refine Rand.E_mono_leaves hlo fun a ha => ?_
          have ha' := abs_le.1 ha
          rw [← ENNReal.ofReal_mul (by positivity), ← ENNReal.ofReal_mul (by positivity),
            ← ENNReal.ofReal_add (by linarith) (by positivity), ← ENNReal.ofReal_add (by linarith) (by positivity)]
          exact ENNReal.ofReal_le_ofReal (log_bias_pointwise hZ ha'.1 hZl)
      _ = ENNReal.ofReal (B - Real.log Z + 1) + ENNReal.ofReal (Real.exp (2 * B)) *
            p.E fun a => ENNReal.ofReal ((Real.exp (L a) - Z) ^ 2) := by
          rw [hμ.add measurable_const (m3.const_mul _), hμ.const, Rand.E_const_mul _ ENNReal.ofReal_ne_top]
      _ ≤ ENNReal.ofReal (B - Real.log Z + 1) + ENNReal.ofReal (Real.exp (2 * B)) * ENNReal.ofReal v := by gcongr
      _ = _ := by
          rw [← ENNReal.ofReal_mul (by positivity), ← ENNReal.ofReal_add (by linarith) (by positivity), ← ENNReal.ofReal_one,
            ← ENNReal.ofReal_add (by positivity) zero_le_one]
          congr 1; ring
  exact (ENNReal.add_le_add_iff_right ENNReal.one_ne_top).1 h

/-- An unbiased estimate between two bounds estimates a number between them. -/
theorem mean_mem {p : Rand α} {μ : Measure α} [IsProbabilityMeasure μ] (hμ : HasLawMeas p μ) {L : α → ℝ} {Z B : ℝ} (hZ : 0 < Z)
    (hu : p.E (fun a => ENNReal.ofReal (Real.exp (L a))) = ENNReal.ofReal Z) (hlo : p.Leaves fun a => |L a| ≤ B) :
    Real.exp (-B) ≤ Z ∧ Z ≤ Real.exp B := by
  constructor
  · rw [← ENNReal.ofReal_le_ofReal_iff hZ.le, ← hu, ← hμ.const (ENNReal.ofReal (Real.exp (-B)))]
    exact Rand.E_mono_leaves hlo fun a ha => ENNReal.ofReal_le_ofReal (Real.exp_le_exp.2 (abs_le.1 ha).1)
  · rw [← ENNReal.ofReal_le_ofReal_iff (Real.exp_pos _).le, ← hu, ← hμ.const (ENNReal.ofReal (Real.exp B))]
    exact Rand.E_mono_leaves hlo fun a ha => ENNReal.ofReal_le_ofReal (Real.exp_le_exp.2 (abs_le.1 ha).2)

omit [MeasurableSpace α] in
/-- An error of the logarithm is an error of the estimate. -/
theorem log_dev_le {p : Rand α} {L : α → ℝ} {Z v : ℝ} (hZ : 0 < Z)
    (hv : p.E (fun a => ENNReal.ofReal ((Real.exp (L a) - Z) ^ 2)) ≤ ENNReal.ofReal v) {ε : ℝ} (hε : 0 < ε) :
    (p.E fun a => if ε ≤ |L a - Real.log Z| then 1 else 0) ≤ ENNReal.ofReal (v / (Z * (1 - Real.exp (-ε))) ^ 2) := by
  have h1 : 0 < 1 - Real.exp (-ε) := by
    have : Real.exp (-ε) < 1 := (Real.exp_lt_exp.2 (by linarith : -ε < 0)).trans_eq Real.exp_zero
    linarith
  refine le_trans (Rand.E_mono _ fun a => ?_) (Props.E_dev_le p (fun a => Real.exp (L a) - Z) hv (ε := Z * (1 - Real.exp (-ε))) (by positivity))
  by_cases h : ε ≤ |L a - Real.log Z|
  · rw [if_pos h, if_pos]
    have hX : Real.exp (L a) = Z * Real.exp (L a - Real.log Z) := by
      rw [Real.exp_sub, Real.exp_log hZ]; field_simp
    rw [hX, ← mul_sub_one, abs_mul, abs_of_pos hZ]
    refine mul_le_mul_of_nonneg_left ?_ hZ.le
    set d := L a - Real.log Z
    rcases le_abs.1 h with hd | hd
    · have e1 : Real.exp ε ≤ Real.exp d := Real.exp_le_exp.2 hd
      have e2 : ε + 1 ≤ Real.exp ε := Real.add_one_le_exp ε
      have e3 : -ε + 1 ≤ Real.exp (-ε) := Real.add_one_le_exp (-ε)
      refine le_trans ?_ (le_abs_self _)
      linarith
    · have e1 : Real.exp d ≤ Real.exp (-ε) := Real.exp_le_exp.2 (by linarith)
      refine le_trans ?_ (neg_le_abs _)
      linarith
  · rw [if_neg h]; exact bot_le

/-- Jensen: accepting with an unbiased estimate accepts at most as often as with the exact value. -/
theorem accept_le {p : Rand α} {μ : Measure α} [IsProbabilityMeasure μ] (hμ : HasLawMeas p μ) {L : α → ℝ} (hL : Measurable L)
    {Z : ℝ} (hu : p.E (fun a => ENNReal.ofReal (Real.exp (L a))) = ENNReal.ofReal Z) (l : ℝ) :
    (p.E fun a => ENNReal.ofReal (min 1 (Real.exp (L a - l)))) ≤ ENNReal.ofReal (min 1 (Z * Real.exp (-l))) := by
  rw [ENNReal.ofReal_min, le_min_iff]
  have m2 : Measurable fun a => ENNReal.ofReal (Real.exp (L a)) := by fun_prop
  constructor
  · refine (Rand.E_mono _ fun a => ENNReal.ofReal_le_ofReal (min_le_left _ _)).trans ?_
    rw [hμ _ measurable_const]
    simp
  · refine (Rand.E_mono _ fun a => ENNReal.ofReal_le_ofReal (min_le_right _ _)).trans ?_
    have e : ∀ a, ENNReal.ofReal (Real.exp (L a - l)) = ENNReal.ofReal (Real.exp (-l)) * ENNReal.ofReal (Real.exp (L a)) := fun a => by
      rw [← ENNReal.ofReal_mul (Real.exp_pos _).le, ← Real.exp_add]; congr 2; ring
    simp only [e]
    rw [Rand.E_const_mul _ ENNReal.ofReal_ne_top, hu, ← ENNReal.ofReal_mul (Real.exp_pos _).le, mul_comm]

/-- ... and at least as often up to the standard deviation of the estimate. -/
theorem le_accept {p : Rand α} {μ : Measure α} [IsProbabilityMeasure μ] (hμ : HasLawMeas p μ) {L : α → ℝ} (hL : Measurable L)
    {Z v : ℝ} (hv0 : 0 < v) (hv : p.E (fun a => ENNReal.ofReal ((Real.exp (L a) - Z) ^ 2)) ≤ ENNReal.ofReal v) (l : ℝ) :
    ENNReal.ofReal (min 1 (Z * Real.exp (-l)))
      ≤ (p.E fun a => ENNReal.ofReal (min 1 (Real.exp (L a - l)))) + ENNReal.ofReal (Real.exp (-l) * √v) := by
  have hs : 0 < √v := Real.sqrt_pos.2 hv0
  have m1 : Measurable fun a => ENNReal.ofReal (min 1 (Real.exp (L a - l))) := by fun_prop
  have m3 : Measurable fun a => ENNReal.ofReal ((Real.exp (L a) - Z) ^ 2) := by fun_prop
  set c := Real.exp (-l) with hc
  have hc0 : 0 < c := Real.exp_pos _
  calc ENNReal.ofReal (min 1 (Z * c))
      = p.E fun _ => ENNReal.ofReal (min 1 (Z * c)) := by rw [hμ _ measurable_const]; simp
    _ ≤ p.E fun a => ENNReal.ofReal (min 1 (Real.exp (L a - l))) + (ENNReal.ofReal (c * √v / 2)
          + ENNReal.ofReal (c / (2 * √v)) * ENNReal.ofReal ((Real.exp (L a) - Z) ^ 2)) := by
        refine Rand.E_mono _ fun a => ?_
        rw [← ENNReal.ofReal_mul (by positivity), ← ENNReal.ofReal_add (by positivity) (by positivity),
          ← ENNReal.ofReal_add (by positivity) (by positivity)]
        refine ENNReal.ofReal_le_ofReal ?_
        have e : Real.exp (L a - l) = Real.exp (L a) * c := by rw [hc, ← Real.exp_add, sub_eq_add_neg]
        rw [e]
        set X := Real.exp (L a)
        have h1 : min 1 (Z * c) ≤ min 1 (X * c) + c * |X - Z| := by
          rcases le_total 1 (X * c) with h | h
          · rw [min_eq_left h]
            exact (min_le_left _ _).trans (by have := abs_nonneg (X - Z); nlinarith)
          · rw [min_eq_right h]
            refine (min_le_right _ _).trans ?_
            have := neg_le_abs (X - Z)
            nlinarith
        have h2 : c * |X - Z| ≤ c * √v / 2 + c / (2 * √v) * (X - Z) ^ 2 := by
          have e : c * √v / 2 + c / (2 * √v) * (X - Z) ^ 2 - c * |X - Z| = c / (2 * √v) * (|X - Z| - √v) ^ 2 := by
            rw [← sq_abs (X - Z)]; field_simp; ring
          have : 0 ≤ c / (2 * √v) * (|X - Z| - √v) ^ 2 := by positivity
          linarith
        linarith
    _ = (p.E fun a => ENNReal.ofReal (min 1 (Real.exp (L a - l)))) + (ENNReal.ofReal (c * √v / 2)
          + ENNReal.ofReal (c / (2 * √v)) * p.E fun a => ENNReal.ofReal ((Real.exp (L a) - Z) ^ 2)) := by
        have m4 : Measurable fun a => ENNReal.ofReal (c * √v / 2)
          + ENNReal.ofReal (c / (2 * √v)) * ENNReal.ofReal ((Real.exp (L a) - Z) ^ 2) := measurable_const.add (m3.const_mul _)
        rw [hμ.add m1 m4, hμ.add measurable_const (m3.const_mul _), hμ.const,
          Rand.E_const_mul _ ENNReal.ofReal_ne_top]
    _ ≤ (p.E fun a => ENNReal.ofReal (min 1 (Real.exp (L a - l)))) + (ENNReal.ofReal (c * √v / 2)
          + ENNReal.ofReal (c / (2 * √v)) * ENNReal.ofReal v) := by gcongr
    _ = _ := by
        rw [← ENNReal.ofReal_mul (by positivity), ← ENNReal.ofReal_add (by positivity) (by positivity)]
        congr 2
        have := Real.mul_self_sqrt hv0.le
        field_simp
        nlinarith

end Fbs
