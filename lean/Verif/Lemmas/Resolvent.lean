import Verif.Lemmas.ReversibleChain
import Mathlib.Probability.Kernel.Composition.MeasureCompProd

/-! Discounted sums of lagged products of two reversible chains, one of which is the other one with extra variables. -/

open MeasureTheory ProbabilityTheory
open scoped ENNReal

namespace Fbs
namespace Props

open Jax Chains

section Single

variable {τ : Type} [MeasurableSpace τ] {κ : Kernel τ τ} [IsMarkovKernel κ] {π : Measure τ}

/-- `∑ r^k P^k f`. -/
noncomputable def disc (κ : Kernel τ τ) (r : ℝ≥0∞) (f : τ → ℝ≥0∞) (x : τ) : ℝ≥0∞ := ∑' k, r ^ k * iterInt κ f k x

omit [IsMarkovKernel κ] in
theorem measurable_disc (r : ℝ≥0∞) {f : τ → ℝ≥0∞} (hf : Measurable f) : Measurable (disc κ r f) := by
  unfold disc
  exact Measurable.tsum fun k => (measurable_iterInt hf k).const_mul _

omit [IsMarkovKernel κ] in
theorem disc_eq (r : ℝ≥0∞) {f : τ → ℝ≥0∞} (hf : Measurable f) (x : τ) :
    disc κ r f x = f x + r * ∫⁻ y, disc κ r f y ∂(κ x) := by
  have h : ∀ k, AEMeasurable (fun y => r ^ k * iterInt κ f k y) (κ x) := fun k =>
    ((measurable_iterInt hf k).const_mul _).aemeasurable
  unfold disc
  rw [lintegral_tsum h, ENNReal.tsum_mul_left.symm, tsum_eq_zero_add' ENNReal.summable]
  congr 1
  · simp [iterInt]
  · refine tsum_congr fun k => ?_
    rw [lintegral_const_mul _ (measurable_iterInt hf k), ← mul_assoc, ← pow_succ']
    rfl

omit [IsMarkovKernel κ] in
theorem lintegral_mul_disc (r : ℝ≥0∞) {a f : τ → ℝ≥0∞} (ha : Measurable a) (hf : Measurable f) :
    ∫⁻ x, a x * disc κ r f x ∂π = ∑' k, r ^ k * lagProd κ π a f k := by
  have h : ∀ k, Measurable fun x => a x * (r ^ k * iterInt κ f k x) := fun k => mMul ha ((measurable_iterInt hf k).const_mul _)
  simp only [disc, ← ENNReal.tsum_mul_left]
  rw [lintegral_tsum fun k => (h k).aemeasurable]
  refine tsum_congr fun k => ?_
  unfold lagProd
  have hk : Measurable fun x => a x * iterInt κ f k x := mMul ha (measurable_iterInt hf k)
  rw [← lintegral_const_mul _ hk]
  exact lintegral_congr fun x => by ring

theorem lagProd_le (hrev : Rev κ π) {f : τ → ℝ≥0∞} (hf : Measurable f) (k : ℕ) :
    lagProd κ π f f k ≤ ∫⁻ x, f x * f x ∂π := by
  obtain ⟨j, rfl | rfl⟩ := k.even_or_odd'
  · exact lagProd_even_le hrev hf j
  · exact (lagProd_odd_le hrev hf j).trans (lagProd_even_le hrev hf j)

theorem disc_sq_ne_top (hrev : Rev κ π) {r : ℝ≥0∞} (hr : r < 1) {f : τ → ℝ≥0∞} (hf : Measurable f)
    (h2 : ∫⁻ x, f x * f x ∂π ≠ ∞) : ∫⁻ x, disc κ r f x * disc κ r f x ∂π ≠ ∞ := by
  have hs : ∑' k : ℕ, r ^ k ≠ ∞ := by
    rw [ENNReal.tsum_geometric]
    exact ENNReal.inv_ne_top.2 (tsub_pos_of_lt hr).ne'
  refine ne_top_of_le_ne_top (b := ∑' k : ℕ, r ^ k * (∑' j : ℕ, r ^ j * ∫⁻ x, f x * f x ∂π)) ?_ ?_
  · rw [ENNReal.tsum_mul_right, ENNReal.tsum_mul_right]
    exact ENNReal.mul_ne_top hs (ENNReal.mul_ne_top hs h2)
  · rw [lintegral_mul_disc r (measurable_disc r hf) hf]
    refine ENNReal.tsum_le_tsum fun k => mul_le_mul_right ?_ _
    have e : lagProd κ π (disc κ r f) f k = ∫⁻ x, iterInt κ f k x * disc κ r f x ∂π :=
      lintegral_congr fun x => mul_comm _ _
    rw [e, lintegral_mul_disc r (measurable_iterInt hf k) hf]
    refine ENNReal.tsum_le_tsum fun j => mul_le_mul_right ?_ _
    rw [← lagProd_split hrev hf hf]
    exact lagProd_le hrev hf _

/-- `⟨g - h, P (g - h)⟩ ≤ ⟨g - h, g - h⟩`, without subtraction. -/
theorem contraction [SFinite π] (hrev : Rev κ π) {g h : τ → ℝ≥0∞} (hg : Measurable g) (hh : Measurable h) :
    lagProd κ π g g 1 + lagProd κ π h h 1 + 2 * ∫⁻ x, g x * h x ∂π
      ≤ (∫⁻ x, g x * g x ∂π) + (∫⁻ x, h x * h x ∂π) + 2 * lagProd κ π g h 1 := by
  have hx : ∀ {f : τ → ℝ≥0∞}, Measurable f → Measurable fun q : τ × τ => f q.1 := fun hf => hf.comp measurable_fst
  have hy : ∀ {f : τ → ℝ≥0∞}, Measurable f → Measurable fun q : τ × τ => f q.2 := fun hf => hf.comp measurable_snd
  have e1 : ∀ {a b : τ → ℝ≥0∞}, Measurable a → Measurable b → ∫⁻ q, a q.1 * b q.2 ∂(π ⊗ₘ κ) = lagProd κ π a b 1 := by
    intro a b ha hb
    rw [Measure.lintegral_compProd (mMul (hx ha) (hy hb))]
    refine lintegral_congr fun x => ?_
    simp only [iterInt]
    exact lintegral_const_mul _ hb
  have e2 : ∀ {a b : τ → ℝ≥0∞}, Measurable a → Measurable b → ∫⁻ q, a q.1 * b q.1 ∂(π ⊗ₘ κ) = ∫⁻ x, a x * b x ∂π := by
    intro a b ha hb
    rw [Measure.lintegral_compProd (mMul (hx ha) (hx hb))]
    simp
  have e3 : ∀ {a b : τ → ℝ≥0∞}, Measurable a → Measurable b → ∫⁻ q, a q.2 * b q.2 ∂(π ⊗ₘ κ) = ∫⁻ x, a x * b x ∂π := by
    intro a b ha hb
    rw [Measure.lintegral_compProd (mMul (hy ha) (hy hb))]
    exact lintegral_iterInt hrev (mMul ha hb) 1
  have hp : ∀ a b c d : ℝ≥0∞, 2 * (a * c) + 2 * (b * d) + (2 * (a * b) + 2 * (c * d))
      ≤ (a * a + b * b) + (c * c + d * d) + (2 * (a * d) + 2 * (b * c)) := by
    intro a b c d
    by_cases ha : a = ∞
    · simp [ha]
    by_cases hb : b = ∞
    · simp [hb]
    by_cases hc : c = ∞
    · simp [hc]
    by_cases hd : d = ∞
    · simp [hd]
    lift a to NNReal using ha
    lift b to NNReal using hb
    lift c to NNReal using hc
    lift d to NNReal using hd
    norm_cast
    rw [← NNReal.coe_le_coe]
    push_cast
    nlinarith [sq_nonneg ((a : ℝ) - b - c + d)]
  have h1 : ∫⁻ q : τ × τ, 2 * (g q.1 * g q.2) + 2 * (h q.1 * h q.2) + (2 * (g q.1 * h q.1) + 2 * (g q.2 * h q.2)) ∂(π ⊗ₘ κ)
      = 2 * (lagProd κ π g g 1 + lagProd κ π h h 1 + 2 * ∫⁻ x, g x * h x ∂π) := by
    have m1 : Measurable fun q : τ × τ => g q.1 * g q.2 := mMul (hx hg) (hy hg)
    have m2 : Measurable fun q : τ × τ => h q.1 * h q.2 := mMul (hx hh) (hy hh)
    have m3 : Measurable fun q : τ × τ => g q.1 * h q.1 := mMul (hx hg) (hx hh)
    have m4 : Measurable fun q : τ × τ => g q.2 * h q.2 := mMul (hy hg) (hy hh)
    rw [lintegral_add_left (mAdd (m1.const_mul 2) (m2.const_mul 2)), lintegral_add_left (m1.const_mul 2),
      lintegral_add_left (m3.const_mul 2), lintegral_const_mul _ m1, lintegral_const_mul _ m2, lintegral_const_mul _ m3,
      lintegral_const_mul _ m4, e1 hg hg, e1 hh hh, e2 hg hh, e3 hg hh]
    ring
  have h2 : ∫⁻ q : τ × τ, (g q.1 * g q.1 + h q.1 * h q.1) + (g q.2 * g q.2 + h q.2 * h q.2)
        + (2 * (g q.1 * h q.2) + 2 * (h q.1 * g q.2)) ∂(π ⊗ₘ κ)
      = 2 * ((∫⁻ x, g x * g x ∂π) + (∫⁻ x, h x * h x ∂π) + 2 * lagProd κ π g h 1) := by
    have m1 : Measurable fun q : τ × τ => g q.1 * g q.1 := mMul (hx hg) (hx hg)
    have m2 : Measurable fun q : τ × τ => h q.1 * h q.1 := mMul (hx hh) (hx hh)
    have m3 : Measurable fun q : τ × τ => g q.2 * g q.2 := mMul (hy hg) (hy hg)
    have m4 : Measurable fun q : τ × τ => h q.2 * h q.2 := mMul (hy hh) (hy hh)
    have m5 : Measurable fun q : τ × τ => g q.1 * h q.2 := mMul (hx hg) (hy hh)
    have m6 : Measurable fun q : τ × τ => h q.1 * g q.2 := mMul (hx hh) (hy hg)
    rw [lintegral_add_left (mAdd (mAdd m1 m2) (mAdd m3 m4)), lintegral_add_left (mAdd m1 m2), lintegral_add_left m1,
      lintegral_add_left m3, lintegral_add_left (m5.const_mul 2), lintegral_const_mul _ m5, lintegral_const_mul _ m6,
      e2 hg hg, e2 hh hh, e3 hg hg, e3 hh hh, e1 hg hh, e1 hh hg, ← hrev g h hg hh]
    ring
  refine (ENNReal.mul_le_mul_iff_right two_ne_zero ENNReal.ofNat_ne_top).1 ?_
  rw [← h1, ← h2]
  exact lintegral_mono fun q => hp _ _ _ _

end Single

section Compare

variable {τ σ : Type} [MeasurableSpace τ] [MeasurableSpace σ] {κ : Kernel τ τ} [IsMarkovKernel κ] {π : Measure τ}
  {η : Kernel σ σ} [IsMarkovKernel η] {M : Measure σ} [SFinite M] {p : σ → τ}

/-- If the larger chain has the larger lag-one products for functions of the smaller state, it has the larger discounted sums. -/
theorem discounted_le (hκ : Rev κ π) (hη : Rev η M) (hp : Measurable p)
    (hmap : ∀ f : τ → ℝ≥0∞, Measurable f → ∫⁻ z, f (p z) ∂M = ∫⁻ x, f x ∂π)
    (hcmp : ∀ f : τ → ℝ≥0∞, Measurable f → ∫⁻ x, f x * f x ∂π ≠ ∞ →
      lagProd κ π f f 1 ≤ lagProd η M (fun z => f (p z)) (fun z => f (p z)) 1)
    {f : τ → ℝ≥0∞} (hf : Measurable f) (h2 : ∫⁻ x, f x * f x ∂π ≠ ∞) {r : ℝ≥0∞} (hr : r < 1) :
    ∑' k, r ^ k * lagProd κ π f f k ≤ ∑' k, r ^ k * lagProd η M (fun z => f (p z)) (fun z => f (p z)) k := by
  set f' : σ → ℝ≥0∞ := fun z => f (p z) with hf'd
  have hf' : Measurable f' := hf.comp hp
  have h2' : ∫⁻ z, f' z * f' z ∂M ≠ ∞ := by
    rw [hmap (fun x => f x * f x) (mMul hf hf)]
    exact h2
  set g := disc κ r f with hgd
  set h := disc η r f' with hhd
  have hg : Measurable g := measurable_disc r hf
  have hh : Measurable h := measurable_disc r hf'
  set g' : σ → ℝ≥0∞ := fun z => g (p z) with hg'd
  have hg' : Measurable g' := hg.comp hp
  rw [← lintegral_mul_disc r hf hf, ← lintegral_mul_disc r hf' hf']
  have hgg : ∫⁻ x, g x * g x ∂π ≠ ∞ := disc_sq_ne_top hκ hr hf h2
  have hhh : ∫⁻ z, h z * h z ∂M ≠ ∞ := disc_sq_ne_top hη hr hf' h2'
  have hg'g' : ∫⁻ z, g' z * g' z ∂M = ∫⁻ x, g x * g x ∂π := hmap (fun x => g x * g x) (mMul hg hg)
  have hgf : ∫⁻ z, g' z * f' z ∂M = ∫⁻ x, f x * g x ∂π := by
    rw [hmap (fun x => g x * f x) (mMul hg hf)]
    exact lintegral_congr fun x => mul_comm _ _
  have split : ∀ {ρ : Type} [MeasurableSpace ρ] {ι : Kernel ρ ρ} {ν : Measure ρ} {a b : ρ → ℝ≥0∞}, Measurable a → Measurable b →
      ∫⁻ x, a x * disc ι r b x ∂ν = (∫⁻ x, a x * b x ∂ν) + r * lagProd ι ν a (disc ι r b) 1 := by
    intro ρ _ ι ν a b ha hb
    have m1 : Measurable fun x => a x * b x := mMul ha hb
    have m2 : Measurable fun x => a x * iterInt ι (disc ι r b) 1 x := mMul ha (measurable_iterInt (measurable_disc r hb) 1)
    rw [lagProd, ← lintegral_const_mul _ m2, ← lintegral_add_left m1]
    refine lintegral_congr fun x => ?_
    conv_lhs => rw [disc_eq r hb]
    rw [mul_add]
    congr 1
    rw [mul_left_comm]
    rfl
  have q1 := split (ν := π) (ι := κ) hg hf
  have q2 := split (ν := M) (ι := η) hh hf'
  have q3 := split (ν := M) (ι := η) hg' hf'
  rw [← hgd] at q1
  rw [← hhd] at q2 q3
  have hc := hcmp g hg hgg
  have hk := contraction (κ := η) hη hg' hh
  have hsq : 2 * ∫⁻ z, g' z * h z ∂M ≤ (∫⁻ z, g' z * g' z ∂M) + ∫⁻ z, h z * h z ∂M := by
    rw [← lintegral_const_mul _ (mMul hg' hh), ← lintegral_add_left (mMul hg' hg')]
    exact lintegral_mono fun z => by
      have := two_mul_le (a := g' z) (b := h z)
      rw [mul_comm (h z), ← two_mul] at this
      exact this
  have hgf' : ∫⁻ x, g x * f x ∂π = ∫⁻ x, f x * g x ∂π := lintegral_congr fun x => mul_comm _ _
  have hhf' : ∫⁻ x, h x * f' x ∂M = ∫⁻ x, f' x * h x ∂M := lintegral_congr fun x => mul_comm _ _
  rw [hgf'] at q1
  rw [hhf'] at q2
  rw [hgf] at q3
  rw [hg'g'] at hk hsq
  have fgh : ∫⁻ z, g' z * h z ∂M ≠ ∞ := by
    refine ne_top_of_le_ne_top (ENNReal.add_ne_top.2 ⟨hgg, hhh⟩) (le_trans ?_ hsq)
    exact le_mul_of_one_le_left' one_le_two
  have f1 : lagProd η M g' g' 1 ≠ ∞ := ne_top_of_le_ne_top (hg'g' ▸ hgg) (lagProd_le hη hg' 1)
  have f2 : lagProd η M h h 1 ≠ ∞ := ne_top_of_le_ne_top hhh (lagProd_le hη hh 1)
  have f0 : lagProd κ π g g 1 ≠ ∞ := ne_top_of_le_ne_top hgg (lagProd_le hκ hg 1)
  have f4 : ∫⁻ x, f x * g x ∂π ≠ ∞ := ne_top_of_le_ne_top hgg (q1 ▸ le_self_add)
  have f5 : ∫⁻ x, f' x * h x ∂M ≠ ∞ := ne_top_of_le_ne_top hhh (q2 ▸ le_self_add)
  have hr' : r ≠ ∞ := hr.ne_top
  have f3 : r * lagProd η M g' h 1 ≠ ∞ := ne_top_of_le_ne_top fgh (q3 ▸ le_add_self)
  -- real numbers from here on
  generalize ∫⁻ x, g x * g x ∂π = gg at *
  generalize ∫⁻ z, h z * h z ∂M = hh' at *
  generalize ∫⁻ z, g' z * h z ∂M = gh at *
  generalize ∫⁻ x, f x * g x ∂π = fg at *
  generalize ∫⁻ x, f' x * h x ∂M = fh at *
  generalize lagProd η M g' g' 1 = pgg at *
  generalize lagProd η M h h 1 = phh at *
  generalize lagProd κ π g g 1 = pg at *
  generalize lagProd η M g' h 1 = pgh at *
  by_cases hpgh : pgh = ∞
  · have hr0 : r = 0 := by
      by_contra h0
      exact f3 (by rw [hpgh, ENNReal.mul_top h0])
    rw [hr0, zero_mul, add_zero] at q1 q2 q3
    rw [q1, q2, q3] at hsq
    rw [two_mul] at hsq
    exact (ENNReal.add_le_add_iff_left f4).1 hsq
  lift gg to NNReal using hgg
  lift hh' to NNReal using hhh
  lift gh to NNReal using fgh
  lift fg to NNReal using f4
  lift fh to NNReal using f5
  lift pgg to NNReal using f1
  lift phh to NNReal using f2
  lift pg to NNReal using f0
  lift pgh to NNReal using hpgh
  lift r to NNReal using hr'
  norm_cast at *
  rw [← NNReal.coe_le_coe] at hc hk hsq ⊢
  rw [← NNReal.coe_inj] at q1 q2 q3
  rw [← NNReal.coe_lt_coe] at hr
  push_cast at *
  have hr0 : (0 : ℝ) ≤ r := r.2
  nlinarith [mul_le_mul_of_nonneg_left hk hr0, mul_le_mul_of_nonneg_left hc hr0, mul_nonneg (sub_nonneg.2 hr.le) (sub_nonneg.2 hsq)]

/-- The same for the sums of the covariances (`m` is subtracted from all products). -/
theorem asymptotic_le {A B : ℕ → ℝ≥0∞} {m : ℝ≥0∞} (hm : m ≠ ∞) (hA : ∀ k, m ≤ A k) (hB : ∀ k, m ≤ B k) (hA' : ∀ k, A k ≠ ∞)
    (h : ∀ r : ℝ≥0∞, r < 1 → ∑' k, r ^ k * A k ≤ ∑' k, r ^ k * B k) : ∑' k, (A k - m) ≤ ∑' k, (B k - m) := by
  have hc : ∀ r : ℝ≥0∞, r < 1 → ∑' k, r ^ k * (A k - m) ≤ ∑' k, (B k - m) := fun r hr => by
    have hs : (∑' k : ℕ, r ^ k * m) ≠ ∞ := by
      rw [ENNReal.tsum_mul_right, ENNReal.tsum_geometric]
      exact ENNReal.mul_ne_top (ENNReal.inv_ne_top.2 (tsub_pos_of_lt hr).ne') hm
    have e : ∀ {C : ℕ → ℝ≥0∞}, (∀ k, m ≤ C k) → ∑' k, r ^ k * C k = ∑' k, r ^ k * (C k - m) + ∑' k, r ^ k * m := fun {C} hC => by
      rw [← ENNReal.tsum_add]
      exact tsum_congr fun k => by rw [← mul_add, tsub_add_cancel_of_le (hC k)]
    have h' := h r hr
    rw [e hA, e hB] at h'
    refine ((ENNReal.add_le_add_iff_right hs).1 h').trans (ENNReal.tsum_le_tsum fun k => ?_)
    exact mul_le_of_le_one_left' (pow_le_one' hr.le k)
  refine ENNReal.tsum_le_of_sum_range_le fun n => ?_
  have hcont : Filter.Tendsto (fun r : ℝ≥0∞ => ∑ k ∈ Finset.range n, r ^ k * (A k - m)) (nhdsWithin 1 (Set.Iio 1))
      (nhds (∑ k ∈ Finset.range n, (A k - m))) := by
    refine tendsto_finsetSum _ fun k _ => ?_
    have h1 : Filter.Tendsto (fun r : ℝ≥0∞ => r ^ k) (nhdsWithin 1 (Set.Iio 1)) (nhds (1 ^ k)) :=
      ((ENNReal.continuous_pow k).tendsto 1).mono_left nhdsWithin_le_nhds
    have := ENNReal.Tendsto.mul_const (b := A k - m) h1 (Or.inr (ENNReal.sub_ne_top (hA' k)))
    simpa using this
  have : (nhdsWithin (1 : ℝ≥0∞) (Set.Iio 1)).NeBot := by
    rw [← mem_closure_iff_nhdsWithin_neBot, closure_Iio' ⟨0, by simp⟩]
    simp
  refine le_of_tendsto hcont ?_
  filter_upwards [self_mem_nhdsWithin] with r hr
  exact (ENNReal.sum_le_tsum _).trans (hc r hr)

end Compare

end Props
end Fbs
