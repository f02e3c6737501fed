import Mathlib.MeasureTheory.Integral.Lebesgue.Countable
import Mathlib.MeasureTheory.Measure.MeasureSpace
import Mathlib.MeasureTheory.Integral.Lebesgue.Add

/-! A countably additive functional of measurable functions is the integral against a measure. -/

open MeasureTheory
open scoped ENNReal

namespace Fbs

variable {α : Type} [MeasurableSpace α]

omit [MeasurableSpace α] in
theorem indicator_iUnion_one {s : ℕ → Set α} (hd : Pairwise (Function.onFun Disjoint s)) (x : α) :
    (⋃ i, s i).indicator (fun _ => (1 : ℝ≥0∞)) x = ∑' i, (s i).indicator (fun _ => 1) x := by
  by_cases h : x ∈ ⋃ i, s i
  · obtain ⟨i, hi⟩ := Set.mem_iUnion.1 h
    rw [tsum_eq_single i fun j hj => Set.indicator_of_notMem (fun hx => Set.disjoint_left.1 (hd hj) hx hi) _]
    simp [h, hi]
  · have h' : ∀ i, x ∉ s i := fun i hi => h (Set.mem_iUnion.2 ⟨i, hi⟩)
    simp [h, h']

theorem exists_measure_of_functional {T : (α → ℝ≥0∞) → ℝ≥0∞}
    (hts : ∀ F : ℕ → α → ℝ≥0∞, (∀ i, Measurable (F i)) → T (fun x => ∑' i, F i x) = ∑' i, T (F i))
    (hc : ∀ (c : ℝ≥0∞) F, Measurable F → T (fun x => c * F x) = c * T F) :
    ∃ μ : Measure α, ∀ F, Measurable F → T F = ∫⁻ x, F x ∂μ := by
  have h0 : T (fun _ => 0) = 0 := by simpa using hc 0 (fun _ => 0) measurable_const
  have hadd : ∀ F G : α → ℝ≥0∞, Measurable F → Measurable G → T (fun x => F x + G x) = T F + T G := by
    intro F G hF hG
    have h := hts (fun i => if i = 0 then F else if i = 1 then G else fun _ => 0) fun i => by
      by_cases h0 : i = 0
      · simpa [h0] using hF
      · by_cases h1 : i = 1
        · simpa [h1] using hG
        · simp [h0, h1]
    have e : ∀ f : ℕ → ℝ≥0∞, (∀ i, i ∉ Finset.range 2 → f i = 0) → ∑' i, f i = f 0 + f 1 := fun f hf => by
      rw [tsum_eq_sum hf, Finset.sum_range_succ, Finset.sum_range_one]
    rw [e _ fun i hi => ?_] at h
    · have h' : (fun x => ∑' i, (if i = 0 then F else if i = 1 then G else fun _ => 0) x) = fun x => F x + G x := by
        funext x
        rw [e _ fun i hi => ?_]
        · simp
        · have : i ≠ 0 ∧ i ≠ 1 := by simp at hi; omega
          simp [this]
      rw [h'] at h
      simpa using h
    · have : i ≠ 0 ∧ i ≠ 1 := by simp at hi; omega
      simpa [this] using h0
  have hmono : ∀ F G : α → ℝ≥0∞, Measurable F → Measurable G → F ≤ G → T G = T F + T (fun x => G x - F x) := by
    intro F G hF hG h
    rw [← hadd F (fun x => G x - F x) hF (hG.sub hF)]
    congr 1
    funext x
    exact (add_tsub_cancel_of_le (h x)).symm
  have hsup : ∀ F : ℕ → α → ℝ≥0∞, (∀ i, Measurable (F i)) → Monotone F → T (fun x => ⨆ i, F i x) = ⨆ i, T (F i) := by
    intro F hF hm
    let D : ℕ → α → ℝ≥0∞ := fun i => if i = 0 then F 0 else fun x => F i x - F (i - 1) x
    have hD : ∀ i, Measurable (D i) := fun i => by
      by_cases h : i = 0
      · simpa [D, h] using hF 0
      · simp only [D, h, if_false]
        exact (hF i).sub (hF (i - 1))
    have hs : ∀ n x, ∑ i ∈ Finset.range (n + 1), D i x = F n x := by
      intro n x
      induction n with
      | zero => simp [D]
      | succ n ih =>
        rw [Finset.sum_range_succ, ih]
        simpa [D] using add_tsub_cancel_of_le (hm (Nat.le_succ n) x)
    have hT : ∀ n, ∑ i ∈ Finset.range (n + 1), T (D i) = T (F n) := by
      intro n
      induction n with
      | zero => simp [D]
      | succ n ih =>
        rw [Finset.sum_range_succ, ih, hmono (F n) (F (n + 1)) (hF n) (hF (n + 1)) (hm (Nat.le_succ n))]
        simp [D]
    have e : ∀ f : ℕ → ℝ≥0∞, ∑' i, f i = ⨆ n, ∑ i ∈ Finset.range (n + 1), f i := fun f => by
      rw [ENNReal.tsum_eq_iSup_nat' (Filter.tendsto_add_atTop_nat 1)]
    have h := hts D hD
    rw [e, iSup_congr hT] at h
    rw [← h]
    congr 1
    funext x
    rw [e, iSup_congr fun n => hs n x]
  let μ : Measure α := Measure.ofMeasurable (fun s _ => T (s.indicator fun _ => 1)) (by
      simpa using h0) (by
      intro s hs hd
      rw [← hts _ fun i => measurable_const.indicator (hs i)]
      congr 1
      funext x
      exact indicator_iUnion_one hd x)
  have hμ : ∀ s, MeasurableSet s → μ s = T (s.indicator fun _ => 1) := fun s hs => Measure.ofMeasurable_apply s hs
  refine ⟨μ, fun F hF => ?_⟩
  refine Measurable.ennreal_induction (motive := fun F => T F = ∫⁻ x, F x ∂μ) (fun c s hs => ?_)
    (fun f g _ hf hg h1 h2 => ?_) (fun f hf hm ih => ?_) hF
  · rw [lintegral_indicator hs, setLIntegral_const, hμ s hs, ← hc _ _ (measurable_const.indicator hs)]
    congr 1
    funext x
    by_cases h : x ∈ s <;> simp [h]
  · rw [show (∫⁻ x, (f + g) x ∂μ) = ∫⁻ x, f x ∂μ + ∫⁻ x, g x ∂μ from lintegral_add_left hf _, ← h1, ← h2]
    exact hadd f g hf hg
  · rw [lintegral_iSup hf hm, hsup f hf hm, iSup_congr ih]

end Fbs
