import Verif.Props.Killing
import Mathlib.Algebra.Order.Floor.Ring

/-!
# C02, C03, C04: unbiasedness, copy counts and validity of the resampling schemes
-/

open MeasureTheory
open scoped ENNReal

namespace Fbs
namespace Props

open Jax Spec

variable {n : ℕ}

theorem copies_eq_sum (A : Fin n → Fin n) (i : Fin n) :
    (copies A i : ℝ≥0∞) = ∑ m, if A m = i then 1 else 0 := by
  unfold copies
  rw [Finset.card_filter]
  push_cast
  rfl

/-! ### C02 -/

theorem sum_prod_one {κ : Fin n → Fin n → ℝ≥0∞} (h : ∀ m, ∑ a, κ m a = 1) :
    ∑ A : Fin n → Fin n, ∏ m, κ m (A m) = 1 := by
  have := Finset.prod_univ_sum (fun _ : Fin n => (Finset.univ : Finset (Fin n)))
    (fun m a => κ m a)
  rw [Fintype.piFinset_univ] at this
  rw [← this]
  simp [h]

theorem sum_prod_copies {κ : Fin n → Fin n → ℝ≥0∞} (h : ∀ m, ∑ a, κ m a = 1) (i : Fin n) :
    ∑ A : Fin n → Fin n, (∏ m, κ m (A m)) * (copies A i : ℝ≥0∞) = ∑ m, κ m i := by
  simp only [copies_eq_sum, Finset.mul_sum]
  rw [Finset.sum_comm]
  refine Finset.sum_congr rfl fun m _ => ?_
  have := sum_condition κ m (h m) i (fun _ => 1)
  rw [this]
  simp [sum_prod_one h]

/-- **C02 (killing).** -/
theorem C02_killing_unbiased [NeZero n] (key : Key) :
    Unbiased (n := n) fun w => Resampling.killing w key := by
  intro w h i
  have hT := Weights.total_pos h
  have hM := vmax_pos h.nonneg hT
  have hn : (0 : ℝ) < n := by exact_mod_cast Nat.pos_of_ne_zero (NeZero.ne n)
  rw [E_killing h, sum_prod_copies (sum_killMass h.nonneg hT)]
  unfold killMass
  rw [Finset.sum_add_distrib, Finset.sum_ite_eq, if_pos (Finset.mem_univ _), ← Finset.sum_mul,
    cat_normalised h, ← ENNReal.ofReal_sum_of_nonneg]
  · rw [Finset.sum_sub_distrib, ← Finset.sum_div, h.sum_one, ← ENNReal.ofReal_natCast n,
      ← ENNReal.ofReal_mul hn.le, ← ENNReal.ofReal_mul, ← ENNReal.ofReal_add]
    · congr 1
      simp
      field_simp
      ring
    · exact div_nonneg (h.nonneg i) hM.le
    · refine mul_nonneg ?_ (h.nonneg i)
      have : 1 / vmax w ≤ n := by
        rw [div_le_iff₀ hM, ← h.sum_one]
        calc ∑ i, w i ≤ ∑ _i : Fin n, vmax w := Finset.sum_le_sum fun i _ => vmax_ge w i
          _ = n * vmax w := by simp
      simp
      rw [← one_div]
      exact this
    · have : 1 / vmax w ≤ n := by
        rw [div_le_iff₀ hM, ← h.sum_one]
        calc ∑ i, w i ≤ ∑ _i : Fin n, vmax w := Finset.sum_le_sum fun i _ => vmax_ge w i
          _ = n * vmax w := by simp
      simp
      rw [← one_div]
      exact this
  · intro m _
    have : w m / vmax w ≤ 1 := (div_le_one hM).2 (vmax_ge w m)
    linarith

/-- **C02 (csmc killing, unconditional branch).** -/
theorem C02_csmc_killing_unbiased [NeZero n] (key : Key) (i j : Fin n) :
    Unbiased (n := n) fun w => CsmcResampling.killing key w i j false :=
  C02_killing_unbiased key

/-- **C02 (csmc multinomial, unconditional branch).** -/
theorem C02_csmc_multinomial_unbiased [NeZero n] (key : Key) (i j : Fin n) :
    Unbiased (n := n) fun w => CsmcResampling.multinomial key w i j false := by
  intro w h a
  rw [E_csmc_multinomial h]
  have hsum : ∑ a, ENNReal.ofReal (w a) = 1 := by
    rw [← ENNReal.ofReal_sum_of_nonneg fun m _ => h.nonneg m, h.sum_one]; simp
  simp only [Bool.false_eq_true, if_false]
  rw [sum_prod_copies (κ := fun _ a => ENNReal.ofReal (w a)) (fun _ => hsum)]
  simp

/-- One comb tooth: probability that position `m` selects `i`. -/
theorem unif_tooth [NeZero n] {w : Fin n → ℝ} (h : Weights w) (m i : Fin n) :
    unifMeasure {u : ℝ | clipIdx n (searchsorted (cumsum w) (((m : ℕ) + u) / n)) = i}
      = volume (Set.Ico ((m : ℕ) : ℝ) ((m : ℕ) + 1) ∩ Set.Ioc (n * presum w i) (n * cumsum w i)) := by
  have hn : (0 : ℝ) < n := by exact_mod_cast Nat.pos_of_ne_zero (NeZero.ne n)
  have hmeas : MeasurableSet
      {u : ℝ | clipIdx n (searchsorted (cumsum w) (((m : ℕ) + u) / n)) = i} :=
    (measurable_clipIdx.comp ((measurable_searchsorted _).comp (by fun_prop)))
      (measurableSet_singleton i)
  unfold unifMeasure
  rw [Measure.restrict_apply hmeas]
  have hT := Weights.total_eq h
  -- translate by m
  have htrans : volume (Set.Ico ((m : ℕ) : ℝ) ((m : ℕ) + 1) ∩ Set.Ioc (n * presum w i) (n * cumsum w i))
      = volume ((fun u : ℝ => ((m : ℕ) : ℝ) + u) ⁻¹'
        (Set.Ico ((m : ℕ) : ℝ) ((m : ℕ) + 1) ∩ Set.Ioc (n * presum w i) (n * cumsum w i))) :=
    (measure_preimage_add volume _ _).symm
  rw [htrans]
  -- equal up to the null set {0}
  have hmle : ((m : ℕ) : ℝ) + 1 ≤ n := by exact_mod_cast m.2
  have hiff : ∀ u : ℝ, u ≠ 0 →
      (u ∈ {u : ℝ | clipIdx n (searchsorted (cumsum w) (((m : ℕ) + u) / n)) = i} ∩ Set.Ico 0 1 ↔
       u ∈ (fun u : ℝ => ((m : ℕ) : ℝ) + u) ⁻¹'
        (Set.Ico ((m : ℕ) : ℝ) ((m : ℕ) + 1) ∩ Set.Ioc (n * presum w i) (n * cumsum w i))) := by
    intro u hu0
    have key : u ∈ Set.Ico (0 : ℝ) 1 →
        (clipIdx n (searchsorted (cumsum w) (((m : ℕ) + u) / n)) = i ↔
          n * presum w i < (m : ℕ) + u ∧ (m : ℕ) + u ≤ n * cumsum w i) := by
      intro hu
      have hpos : 0 < ((m : ℕ) + u) / n := by
        apply div_pos _ hn
        have : 0 < u := lt_of_le_of_ne hu.1 (Ne.symm hu0)
        positivity
      have hle : ((m : ℕ) + u) / n ≤ total w := by
        rw [hT, div_le_one hn]
        linarith [hu.2]
      rw [clip_searchsorted_eq_iff h.nonneg hpos hle, lt_div_iff₀ hn, div_le_iff₀ hn,
        mul_comm (presum w i), mul_comm (cumsum w i)]
    simp only [Set.mem_inter_iff, Set.mem_preimage, Set.mem_Ico, Set.mem_Ioc]
    constructor
    · rintro ⟨h1, h2⟩
      exact ⟨⟨by linarith [h2.1], by linarith [h2.2]⟩, (key h2).1 h1⟩
    · rintro ⟨⟨h1, h2⟩, h3⟩
      have hu : u ∈ Set.Ico (0 : ℝ) 1 := ⟨by linarith, by linarith⟩
      exact ⟨(key hu).2 h3, hu⟩
  apply measure_congr
  have hnull : ∀ᵐ u : ℝ, u ≠ 0 := by
    rw [ae_iff]; simp
  filter_upwards [hnull] with u hu
  exact propext (hiff u hu)

/-- The teeth of all positions together cover an interval of length `n * w i`. -/
theorem sum_unif_tooth [NeZero n] {w : Fin n → ℝ} (h : Weights w) (i : Fin n) :
    ∑ m : Fin n, unifMeasure {u : ℝ | clipIdx n (searchsorted (cumsum w) (((m : ℕ) + u) / n)) = i}
      = n * ENNReal.ofReal (w i) := by
  have hn : (0 : ℝ) < n := by exact_mod_cast Nat.pos_of_ne_zero (NeZero.ne n)
  simp only [unif_tooth h]
  rw [← measure_biUnion_finset]
  · have : (⋃ m ∈ (Finset.univ : Finset (Fin n)),
        Set.Ico ((m : ℕ) : ℝ) ((m : ℕ) + 1) ∩ Set.Ioc (n * presum w i) (n * cumsum w i))
        =ᵐ[volume] Set.Ioc (n * presum w i) (n * cumsum w i) := by
      have hnull : ∀ᵐ u : ℝ, u ≠ n := by
        rw [ae_iff]; simp
      filter_upwards [hnull] with u hu
      apply propext
      show u ∈ (⋃ m ∈ (Finset.univ : Finset (Fin n)), _) ↔ u ∈ Set.Ioc _ _
      simp only [Finset.mem_univ, Set.iUnion_true, Set.mem_iUnion, Set.mem_inter_iff]
      constructor
      · rintro ⟨m, _, h⟩; exact h
      · intro hI
        have h0 : 0 ≤ u := le_trans (mul_nonneg hn.le (presum_nonneg h.nonneg i)) hI.1.le
        have h1 : u < n := by
          apply lt_of_le_of_ne _ hu
          refine hI.2.trans ?_
          have := cumsum_le_total h.nonneg i
          rw [Weights.total_eq h] at this
          nlinarith
        have hfl : ⌊u⌋₊ < n := (Nat.floor_lt h0).2 h1
        exact ⟨⟨⌊u⌋₊, hfl⟩, ⟨Nat.floor_le h0, Nat.lt_floor_add_one u⟩, hI⟩
    rw [measure_congr this, Real.volume_Ioc, cumsum_eq, ← ENNReal.ofReal_natCast n,
      ← ENNReal.ofReal_mul hn.le]
    congr 1
    ring
  · intro a _ b _ hab
    refine Set.disjoint_left.2 fun u hu hu' => hab ?_
    obtain ⟨⟨h1, h2⟩, _⟩ := hu
    obtain ⟨⟨h3, h4⟩, _⟩ := hu'
    have e1 : ((a : ℕ) : ℝ) < (b : ℕ) + 1 := lt_of_le_of_lt h1 h4
    have e2 : ((b : ℕ) : ℝ) < (a : ℕ) + 1 := lt_of_le_of_lt h3 h2
    have e1' : (a : ℕ) < b + 1 := by exact_mod_cast e1
    have e2' : (b : ℕ) < a + 1 := by exact_mod_cast e2
    exact Fin.ext (by omega)
  · intro m _
    exact measurableSet_Ico.inter measurableSet_Ioc

theorem measurable_tooth [NeZero n] (w : Fin n → ℝ) (m i : Fin n) :
    MeasurableSet {u : ℝ | clipIdx n (searchsorted (cumsum w) (((m : ℕ) + u) / n)) = i} :=
  (measurable_clipIdx.comp ((measurable_searchsorted _).comp (by fun_prop)))
    (measurableSet_singleton i)

theorem lintegral_ite_one {Ω : Type} [MeasurableSpace Ω] (μ : Measure Ω) {P : Ω → Prop}
    [DecidablePred P] (hP : MeasurableSet {ω | P ω}) :
    ∫⁻ ω, (if P ω then 1 else 0) ∂μ = μ {ω | P ω} := by
  rw [← lintegral_indicator_one hP]
  refine lintegral_congr fun ω => ?_
  by_cases h : P ω <;> simp [h, Set.indicator]

/-- **C02 (systematic).** -/
theorem C02_systematic_unbiased [NeZero n] (key : Key) :
    Unbiased (n := n) fun w => Resampling.systematic w key := by
  intro w h i
  unfold Resampling.systematic uniform
  rw [Rand.E_map, Rand.E_sample]
  have e : ∀ u : ℝ, (copies (Resampling.comb w fun _ => u) i : ℝ≥0∞)
      = ∑ m : Fin n, if clipIdx n (searchsorted (cumsum w) (((m : ℕ) + u) / n)) = i then 1 else 0 :=
    fun u => copies_eq_sum _ _
  simp only [e]
  rw [lintegral_finsetSum _ fun m _ =>
    Measurable.ite (measurable_tooth w m i) measurable_const measurable_const]
  simp only [fun m => lintegral_ite_one unifMeasure (measurable_tooth w m i)]
  exact sum_unif_tooth h i

/-- **C02 (csmc systematic, unconditional branch).** The scheme does not clip, so its indices are numbers. -/
theorem C02_standard_systematic_unbiased [NeZero n] (key : Key) {w : Fin n → ℝ} (h : Weights w) (i : Fin n) :
    (CsmcResampling.standardSystematic key w).E
      (fun A => ((Finset.univ.filter fun m => A m = (i : ℕ)).card : ℝ≥0∞)) = n * ENNReal.ofReal (w i) := by
  have hn : (0 : ℝ) < n := by exact_mod_cast Nat.pos_of_ne_zero (NeZero.ne n)
  rw [← C02_systematic_unbiased key w h i]
  unfold CsmcResampling.standardSystematic Resampling.systematic uniform
  rw [Rand.E_map, Rand.E_sample, Rand.E_map, Rand.E_sample]
  refine lintegral_congr_ae ?_
  have h1 : ∀ᵐ u ∂unifMeasure, u ∈ Set.Ico (0 : ℝ) 1 := ae_restrict_mem measurableSet_Ico
  filter_upwards [h1] with u hu
  unfold copies Resampling.comb
  congr 3
  ext m
  have hlt : searchsorted (cumsum w) (((m : ℕ) + u) / n) < n := by
    have hmle : ((m : ℕ) : ℝ) + 1 ≤ n := by exact_mod_cast m.2
    rw [searchsorted_lt_iff h.nonneg, Weights.total_eq h, div_le_one hn]
    linarith [hu.2]
  rw [clipIdx_of_lt hlt, Fin.ext_iff]

/-- **C02 (stratified).** -/
theorem C02_stratified_unbiased [NeZero n] (key : Key) :
    Unbiased (n := n) fun w => Resampling.stratified w key := by
  intro w h i
  unfold Resampling.stratified uniforms
  rw [Rand.E_map, Rand.E_sample]
  have e : ∀ u : Fin n → ℝ, (copies (Resampling.comb w u) i : ℝ≥0∞)
      = ∑ m : Fin n, if clipIdx n (searchsorted (cumsum w) (((m : ℕ) + u m) / n)) = i then 1 else 0 :=
    fun u => copies_eq_sum _ _
  simp only [e]
  have hpre : ∀ m : Fin n,
      {u : Fin n → ℝ | clipIdx n (searchsorted (cumsum w) (((m : ℕ) + u m) / n)) = i}
        = (Function.eval m) ⁻¹'
          {u : ℝ | clipIdx n (searchsorted (cumsum w) (((m : ℕ) + u) / n)) = i} := by
    intro m; ext u; simp
  have hmeas : ∀ m : Fin n, MeasurableSet
      {u : Fin n → ℝ | clipIdx n (searchsorted (cumsum w) (((m : ℕ) + u m) / n)) = i} := by
    intro m
    rw [hpre]
    exact (measurable_pi_apply m) (measurable_tooth w m i)
  rw [lintegral_finsetSum _ fun m _ => Measurable.ite (hmeas m) measurable_const measurable_const]
  simp only [fun m => lintegral_ite_one (Measure.pi fun _ : Fin n => unifMeasure) (hmeas m)]
  rw [← sum_unif_tooth h i]
  refine Finset.sum_congr rfl fun m _ => ?_
  have hp := measurePreserving_eval (fun _ : Fin n => unifMeasure) m
  rw [hpre]
  exact hp.measure_preimage (measurable_tooth w m i).nullMeasurableSet

example : ∃ w : Fin 3 → ℝ, Weights w ∧ w 0 ≠ w 1 :=
  ⟨![1/2, 1/3, 1/6], ⟨fun i => by fin_cases i <;> norm_num, by simp [Fin.sum_univ_succ]; norm_num⟩,
    by norm_num⟩

/-! ### C03 -/

/-- Position `m` selects `i` exactly when its comb point falls in the interval of `i`. -/
theorem comb_eq_iff [NeZero n] {w : Fin n → ℝ} (h : Weights w) {u : Fin n → ℝ}
    (m : Fin n) (hu : u m ∈ Set.Ioo (0 : ℝ) 1) (i : Fin n) :
    Resampling.comb w u m = i ↔
      n * presum w i < (m : ℕ) + u m ∧ (m : ℕ) + u m ≤ n * cumsum w i := by
  have hn : (0 : ℝ) < n := by exact_mod_cast Nat.pos_of_ne_zero (NeZero.ne n)
  have hmle : ((m : ℕ) : ℝ) + 1 ≤ n := by exact_mod_cast m.2
  have hpos : 0 < ((m : ℕ) + u m) / n := by
    apply div_pos _ hn
    have := hu.1
    positivity
  have hle : ((m : ℕ) + u m) / n ≤ total w := by
    rw [Weights.total_eq h, div_le_one hn]
    linarith [hu.2]
  unfold Resampling.comb
  rw [clip_searchsorted_eq_iff h.nonneg hpos hle, lt_div_iff₀ hn, div_le_iff₀ hn,
    mul_comm (presum w i), mul_comm (cumsum w i)]

theorem n_cumsum_le [NeZero n] {w : Fin n → ℝ} (h : Weights w) (i : Fin n) :
    (n : ℝ) * cumsum w i ≤ n := by
  have hn : (0 : ℝ) < n := by exact_mod_cast Nat.pos_of_ne_zero (NeZero.ne n)
  have := cumsum_le_total h.nonneg i
  rw [Weights.total_eq h] at this
  nlinarith

theorem copies_systematic [NeZero n] {w : Fin n → ℝ} (h : Weights w) {u : ℝ}
    (hu : u ∈ Set.Ioo (0 : ℝ) 1) (i : Fin n) :
    (copies (Resampling.comb w fun _ => u) i : ℤ)
      = ⌊n * cumsum w i - u⌋ - ⌊n * presum w i - u⌋ := by
  have hn : (0 : ℝ) < n := by exact_mod_cast Nat.pos_of_ne_zero (NeZero.ne n)
  have h0 : 0 ≤ n * presum w i := mul_nonneg hn.le (presum_nonneg h.nonneg i)
  have h1 := n_cumsum_le h i
  have hle : ⌊n * presum w i - u⌋ ≤ ⌊n * cumsum w i - u⌋ := by
    apply Int.floor_le_floor
    rw [cumsum_eq]
    have := mul_nonneg hn.le (h.nonneg i)
    nlinarith
  have hcard : copies (Resampling.comb w fun _ => u) i
      = (Finset.Ioc ⌊n * presum w i - u⌋ ⌊n * cumsum w i - u⌋).card := by
    unfold copies
    refine Finset.card_bij (fun m _ => ((m : ℕ) : ℤ)) ?_ ?_ ?_
    · intro m hm
      simp only [Finset.mem_filter, Finset.mem_univ, true_and] at hm
      rw [comb_eq_iff h m hu] at hm
      rw [Finset.mem_Ioc, Int.floor_lt, Int.le_floor]
      push_cast
      exact ⟨by linarith [hm.1], by linarith [hm.2]⟩
    · intro a _ b _ hab
      exact Fin.ext (by exact_mod_cast hab)
    · intro z hz
      rw [Finset.mem_Ioc, Int.floor_lt, Int.le_floor] at hz
      have hz0 : 0 ≤ z := by
        have : (-1 : ℝ) < z := by linarith [hz.1, hu.2]
        have : (-1 : ℤ) < z := by exact_mod_cast this
        omega
      have hzn : z < n := by
        have : (z : ℝ) < n := by linarith [hz.2, hu.1]
        exact_mod_cast this
      have hcast : ((z.toNat : ℕ) : ℤ) = z := Int.toNat_of_nonneg hz0
      have hcast' : ((z.toNat : ℕ) : ℝ) = z := by exact_mod_cast congrArg (Int.cast (R := ℝ)) hcast
      refine ⟨⟨z.toNat, by omega⟩, ?_, hcast⟩
      simp only [Finset.mem_filter, Finset.mem_univ, true_and]
      rw [comb_eq_iff h _ hu]
      simp only [hcast']
      exact ⟨by linarith [hz.1], by linarith [hz.2]⟩
  rw [hcard, Int.card_Ioc, Int.toNat_of_nonneg (by omega)]

/-- **C03.** For every offset in `(0,1)`, systematic resampling makes `⌊n w⌋` or `⌈n w⌉` copies. -/
theorem C03_systematic_copies [NeZero n] {w : Fin n → ℝ} (h : Weights w) {u : ℝ}
    (hu : u ∈ Set.Ioo (0 : ℝ) 1) (i : Fin n) :
    (copies (Resampling.comb w fun _ => u) i : ℤ) = ⌊n * w i⌋ ∨
    (copies (Resampling.comb w fun _ => u) i : ℤ) = ⌈n * w i⌉ := by
  rw [copies_systematic h hu]
  have e : n * cumsum w i - u - (n * presum w i - u) = n * w i := by rw [cumsum_eq]; ring
  have b1 := Int.floor_le (n * cumsum w i - u)
  have b2 := Int.lt_floor_add_one (n * cumsum w i - u)
  have a1 := Int.floor_le (n * presum w i - u)
  have a2 := Int.lt_floor_add_one (n * presum w i - u)
  set b := ⌊n * cumsum w i - u⌋
  set a := ⌊n * presum w i - u⌋
  by_cases hd : ((b - a : ℤ) : ℝ) ≤ n * w i
  · left
    rw [eq_comm, Int.floor_eq_iff]
    push_cast at hd ⊢
    exact ⟨hd, by linarith⟩
  · right
    push Not at hd
    rw [eq_comm, Int.ceil_eq_iff]
    push_cast at hd ⊢
    exact ⟨by linarith, hd.le⟩

/-- **C03 (program level).** The `systematic` program makes `⌊n w⌋` or `⌈n w⌉` copies of every
particle with probability one. -/
theorem C03_systematic_copies_as [NeZero n] {w : Fin n → ℝ} (h : Weights w) (key : Key) (i : Fin n)
    [DecidablePred fun A : Fin n → Fin n => (copies A i : ℤ) = ⌊n * w i⌋ ∨ (copies A i : ℤ) = ⌈n * w i⌉] :
    (Resampling.systematic w key).E (fun A =>
      if (copies A i : ℤ) = ⌊n * w i⌋ ∨ (copies A i : ℤ) = ⌈n * w i⌉ then 0 else 1) = 0 := by
  unfold Resampling.systematic uniform
  rw [Rand.E_map, Rand.E_sample]
  have : (fun u : ℝ => if (copies (Resampling.comb w fun _ => u) i : ℤ) = ⌊n * w i⌋ ∨
      (copies (Resampling.comb w fun _ => u) i : ℤ) = ⌈n * w i⌉ then (0 : ℝ≥0∞) else 1)
      =ᵐ[unifMeasure] fun _ => 0 := by
    have h1 : ∀ᵐ u ∂unifMeasure, u ∈ Set.Ico (0 : ℝ) 1 := ae_restrict_mem measurableSet_Ico
    have h2 : ∀ᵐ u ∂unifMeasure, u ≠ (0 : ℝ) := by
      apply ae_restrict_of_ae
      rw [ae_iff]; simp
    filter_upwards [h1, h2] with u hu hu0
    rw [if_pos (C03_systematic_copies h ⟨lt_of_le_of_ne hu.1 (Ne.symm hu0), hu.2⟩ i)]
  rw [lintegral_congr_ae this]
  simp

/-- **C03 (stratified).** With offsets in `(0,1)` the number of copies deviates from `n w` by less
than two. -/
theorem C03_stratified_copies [NeZero n] {w : Fin n → ℝ} (h : Weights w) {u : Fin n → ℝ}
    (hu : ∀ m, u m ∈ Set.Ioo (0 : ℝ) 1) (i : Fin n) :
    |(copies (Resampling.comb w u) i : ℝ) - n * w i| < 2 := by
  have hn : (0 : ℝ) < n := by exact_mod_cast Nat.pos_of_ne_zero (NeZero.ne n)
  have h0 : 0 ≤ n * presum w i := mul_nonneg hn.le (presum_nonneg h.nonneg i)
  have h1 := n_cumsum_le h i
  have e : n * cumsum w i - n * presum w i = n * w i := by rw [cumsum_eq]; ring
  have hw0 := mul_nonneg hn.le (h.nonneg i)
  have hup : (copies (Resampling.comb w u) i : ℝ) < n * w i + 2 := by
    have hc : copies (Resampling.comb w u) i
        ≤ (Finset.Ioo ⌊n * presum w i - 1⌋ ⌈n * cumsum w i⌉).card := by
      unfold copies
      refine Finset.card_le_card_of_injOn (fun m => ((m : ℕ) : ℤ)) ?_ ?_
      · intro m hm
        simp only [Finset.coe_filter, Finset.mem_univ, true_and, Set.mem_ofPred_eq] at hm
        rw [comb_eq_iff h m (hu m)] at hm
        simp only [Finset.coe_Ioo, Set.mem_Ioo]
        rw [Int.floor_lt, Int.lt_ceil]
        push_cast
        exact ⟨by linarith [hm.1, (hu m).2], by linarith [hm.2, (hu m).1]⟩
      · intro a _ b _ hab
        exact Fin.ext (by simpa using hab)
    rw [Int.card_Ioo] at hc
    have c1 := Int.ceil_lt_add_one (n * cumsum w i)
    have c2 := Int.lt_floor_add_one (n * presum w i - 1)
    have c3 : (⌊n * presum w i - 1⌋ : ℝ) + 1 ≤ ⌈n * cumsum w i⌉ := by
      have : ⌊n * presum w i - 1⌋ + 1 ≤ ⌈n * cumsum w i⌉ := by
        rw [← Int.floor_add_one]
        calc ⌊n * presum w i - 1 + 1⌋ ≤ ⌊n * cumsum w i⌋ := Int.floor_le_floor (by linarith)
          _ ≤ ⌈n * cumsum w i⌉ := Int.floor_le_ceil _
      exact_mod_cast this
    have hz : ((⌈n * cumsum w i⌉ - ⌊n * presum w i - 1⌋ - 1).toNat : ℝ)
        = ⌈n * cumsum w i⌉ - ⌊n * presum w i - 1⌋ - 1 := by
      have h' : ((⌈n * cumsum w i⌉ - ⌊n * presum w i - 1⌋ - 1).toNat : ℤ)
        = ⌈n * cumsum w i⌉ - ⌊n * presum w i - 1⌋ - 1 := by
        apply Int.toNat_of_nonneg
        have : (0 : ℝ) ≤ ((⌈n * cumsum w i⌉ - ⌊n * presum w i - 1⌋ - 1 : ℤ) : ℝ) := by
          push_cast; linarith
        exact_mod_cast this
      exact_mod_cast congrArg (Int.cast (R := ℝ)) h'
    have hcr : (copies (Resampling.comb w u) i : ℝ)
        ≤ ((⌈n * cumsum w i⌉ - ⌊n * presum w i - 1⌋ - 1).toNat : ℝ) := by exact_mod_cast hc
    rw [hz] at hcr
    linarith
  have hlo : n * w i - 2 < (copies (Resampling.comb w u) i : ℝ) := by
    have hc : (Finset.Icc ⌈n * presum w i⌉ ⌊n * cumsum w i - 1⌋).card
        ≤ copies (Resampling.comb w u) i := by
      unfold copies
      refine Finset.card_le_card_of_surjOn (fun m => ((m : ℕ) : ℤ)) ?_
      intro z hz
      simp only [Finset.coe_Icc, Set.mem_Icc] at hz
      rw [Int.ceil_le, Int.le_floor] at hz
      have hz0 : 0 ≤ z := by
        have : (0 : ℝ) ≤ z := by linarith [hz.1]
        exact_mod_cast this
      have hzn : z < n := by
        have : (z : ℝ) < n := by linarith [hz.2]
        exact_mod_cast this
      have hcast : ((z.toNat : ℕ) : ℤ) = z := Int.toNat_of_nonneg hz0
      have hcast' : ((z.toNat : ℕ) : ℝ) = z := by exact_mod_cast congrArg (Int.cast (R := ℝ)) hcast
      refine ⟨⟨z.toNat, by omega⟩, ?_, hcast⟩
      simp only [Finset.coe_filter, Finset.mem_univ, true_and, Set.mem_ofPred_eq]
      rw [comb_eq_iff h _ (hu _)]
      simp only [hcast']
      have hm := hu ⟨z.toNat, by omega⟩
      exact ⟨by linarith [hz.1, hm.1], by linarith [hz.2, hm.2]⟩
    rw [Int.card_Icc] at hc
    have c1 := Int.ceil_lt_add_one (n * presum w i)
    have c2 := Int.lt_floor_add_one (n * cumsum w i - 1)
    have hge : (⌊n * cumsum w i - 1⌋ + 1 - ⌈n * presum w i⌉ : ℝ)
        ≤ ((⌊n * cumsum w i - 1⌋ + 1 - ⌈n * presum w i⌉).toNat : ℝ) := by
      have := Int.self_le_toNat (⌊n * cumsum w i - 1⌋ + 1 - ⌈n * presum w i⌉)
      exact_mod_cast this
    have hcr : ((⌊n * cumsum w i - 1⌋ + 1 - ⌈n * presum w i⌉).toNat : ℝ)
        ≤ (copies (Resampling.comb w u) i : ℝ) := by exact_mod_cast hc
    linarith
  rw [abs_lt]
  constructor <;> linarith

/-! ### C04 -/

/-- **C04a.** Systematic and stratified index arrays are non-decreasing for all admissible draws
and all non-negative weights. -/
theorem C04_stratified_sorted [NeZero n] (w : Fin n → ℝ) (key : Key)
    {A : Fin n → Fin n} (hA : (Resampling.stratified w key).Returns A) : Monotone A := by
  unfold Resampling.stratified at hA
  obtain ⟨u, hu, rfl⟩ := Rand.returns_map.1 hA
  rw [returns_uniforms] at hu
  have hn : (0 : ℝ) < n := by exact_mod_cast Nat.pos_of_ne_zero (NeZero.ne n)
  intro a b hab
  rcases eq_or_lt_of_le hab with rfl | hlt
  · exact le_refl _
  · apply clipIdx_mono
    apply searchsorted_mono
    apply div_le_div_of_nonneg_right _ hn.le
    have : ((a : ℕ) : ℝ) + 1 ≤ (b : ℕ) := by exact_mod_cast hlt
    linarith [(hu a).2, (hu b).1]

theorem C04_systematic_sorted [NeZero n] (w : Fin n → ℝ) (key : Key)
    {A : Fin n → Fin n} (hA : (Resampling.systematic w key).Returns A) : Monotone A := by
  unfold Resampling.systematic at hA
  obtain ⟨u, hu, rfl⟩ := Rand.returns_map.1 hA
  have hn : (0 : ℝ) < n := by exact_mod_cast Nat.pos_of_ne_zero (NeZero.ne n)
  intro a b hab
  apply clipIdx_mono
  apply searchsorted_mono
  apply div_le_div_of_nonneg_right _ hn.le
  have : ((a : ℕ) : ℝ) ≤ (b : ℕ) := by exact_mod_cast hab
  linarith

/-- **C04b (csmc systematic).** The same without clipping. -/
theorem C04_standard_systematic_sorted (w : Fin n → ℝ) (key : Key)
    {A : Fin n → ℕ} (hA : (CsmcResampling.standardSystematic key w).Returns A) : Monotone A := by
  unfold CsmcResampling.standardSystematic at hA
  obtain ⟨u, hu, rfl⟩ := Rand.returns_map.1 hA
  intro a b hab
  apply searchsorted_mono
  apply div_le_div_of_nonneg_right _ (Nat.cast_nonneg n)
  have : ((a : ℕ) : ℝ) ≤ (b : ℕ) := by exact_mod_cast hab
  linarith

/-- **C04b.** With offsets in `(0,1)` the comb never selects a particle of weight zero and its clip
is inert (normalised weights). -/
theorem C04_comb_positive_weight [NeZero n] {w : Fin n → ℝ} (h : Weights w) {u : Fin n → ℝ}
    (m : Fin n) (hu : u m ∈ Set.Ioo (0 : ℝ) 1) :
    0 < w (Resampling.comb w u m) ∧
    (Resampling.comb w u m : ℕ) = searchsorted (cumsum w) (((m : ℕ) + u m) / n) := by
  have hn : (0 : ℝ) < n := by exact_mod_cast Nat.pos_of_ne_zero (NeZero.ne n)
  constructor
  · obtain ⟨h1, h2⟩ := (comb_eq_iff h m hu _).1 rfl
    rw [cumsum_eq] at h2
    have : 0 < n * w (Resampling.comb w u m) := by nlinarith
    exact (pos_iff_pos_of_mul_pos this).1 hn
  · have hmle : ((m : ℕ) : ℝ) + 1 ≤ n := by exact_mod_cast m.2
    have : searchsorted (cumsum w) (((m : ℕ) + u m) / n) < n := by
      rw [searchsorted_lt_iff h.nonneg, Weights.total_eq h, div_le_one hn]
      linarith [hu.2]
    unfold Resampling.comb
    rw [clipIdx_of_lt this]

/-- **C04c (finding).** At the admissible draw `u = 0` the comb selects index 0 even if its weight is
zero: the promise "zero-weight particles are never selected" fails on that draw. -/
theorem C04_zero_draw_selects_zero_weight :
    ∃ (w : Fin 2 → ℝ), Weights w ∧ ∃ A, (Resampling.systematic w []).Returns A ∧ w (A 0) = 0 := by
  refine ⟨![0, 1], ⟨fun i => by fin_cases i <;> norm_num, by simp⟩, _,
    Rand.returns_map.2 ⟨0, Rand.returns_sample.2 ⟨le_refl _, one_pos⟩, rfl⟩, ?_⟩
  have hw : ∀ i, 0 ≤ (![0, 1] : Fin 2 → ℝ) i := fun i => by fin_cases i <;> norm_num
  have : Resampling.comb (![0, 1] : Fin 2 → ℝ) (fun _ => 0) 0 = 0 := by
    unfold Resampling.comb
    simp [searchsorted_zero hw, clipIdx]
  rw [this]
  simp

/-- **C04d.** The unclipped csmc systematic scheme is in range at position `m` exactly when the comb
point does not exceed the total weight; with normalised weights it always is. -/
theorem C04_standard_systematic_in_range_iff [NeZero n] {w : Fin n → ℝ} (hw : ∀ i, 0 ≤ w i) (u : ℝ)
    (m : Fin n) :
    searchsorted (cumsum w) (((m : ℕ) + u) / n) < n ↔ ((m : ℕ) + u) / n ≤ ∑ i, w i :=
  searchsorted_lt_iff hw _

theorem C04_standard_systematic_in_range [NeZero n] {w : Fin n → ℝ} (h : Weights w) (key : Key)
    {A : Fin n → ℕ} (hA : (CsmcResampling.standardSystematic key w).Returns A) (m : Fin n) :
    A m < n := by
  unfold CsmcResampling.standardSystematic at hA
  obtain ⟨u, hu, rfl⟩ := Rand.returns_map.1 hA
  have hu' : u ∈ Set.Ico (0 : ℝ) 1 := Rand.returns_sample.1 hu
  have hn : (0 : ℝ) < n := by exact_mod_cast Nat.pos_of_ne_zero (NeZero.ne n)
  have hmle : ((m : ℕ) : ℝ) + 1 ≤ n := by exact_mod_cast m.2
  rw [C04_standard_systematic_in_range_iff h.nonneg, h.sum_one, div_le_one hn]
  linarith [hu'.2]

/-- ... but an unnormalised weight vector makes it return the invalid index `n`. -/
theorem C04_standard_systematic_out_of_range :
    ∃ (w : Fin 2 → ℝ), (∀ i, 0 ≤ w i) ∧
      ∃ A, (CsmcResampling.standardSystematic [] w).Returns A ∧ A 1 = 2 := by
  refine ⟨fun _ => 0.1, fun _ => by norm_num, _,
    Rand.returns_map.2 ⟨0, Rand.returns_sample.2 ⟨le_refl _, one_pos⟩, rfl⟩, ?_⟩
  have h1 := searchsorted_le_card (cumsum (fun _ : Fin 2 => (0.1 : ℝ))) (1 / 2)
  have h2 := (searchsorted_lt_iff (w := fun _ : Fin 2 => (0.1 : ℝ)) (fun _ => by norm_num) (1 / 2))
  have h3 : ¬ (1 / 2 : ℝ) ≤ total (fun _ : Fin 2 => (0.1 : ℝ)) := by
    simp [total]; norm_num
  have h4 := mt h2.1 h3
  have : searchsorted (cumsum (fun _ : Fin 2 => (0.1 : ℝ))) (1 / 2) = 2 := by omega
  simpa using this

/-- **C04e.** `jax.random.choice` as used by killing, multinomial, force_move and the backward
passes returns an index of positive weight, and clipping plays no role. -/
theorem C04_choice_valid [NeZero n] {p : Fin n → ℝ} (hp : ∀ i, 0 ≤ p i) (hT : 0 < ∑ i, p i)
    (key : Key) {c : Fin n} (hc : (choice key p).Returns c) : 0 < p c := by
  obtain ⟨u, hu, rfl⟩ := returns_choice.1 hc
  exact choiceIdx_pos hp hT hu

/-- **C04f.** `_sorted_uniforms` returns non-decreasing values in `[0,1]` for uniforms in `(0,1)`,
hence the (sorted) multinomial scheme returns a non-decreasing index array. -/
theorem C04_sorted_uniforms {us : Fin (n + 1) → ℝ} (hu : ∀ i, us i ∈ Set.Ioo (0 : ℝ) 1) :
    Monotone (Resampling.sortedUniforms us) ∧
    ∀ i, Resampling.sortedUniforms us i ∈ Set.Icc (0 : ℝ) 1 := by
  have hpos : ∀ j, 0 < -Real.log (us j) := fun j => by
    have := Real.log_neg (hu j).1 (hu j).2
    linarith
  have hpos' : ∀ j, 0 ≤ -Real.log (us j) := fun j => (hpos j).le
  have hlast : 0 < cumsum (fun j => -Real.log (us j)) (Fin.last n) := by
    rw [cumsum_eq]
    have := presum_nonneg hpos' (Fin.last n)
    linarith [hpos (Fin.last n)]
  refine ⟨fun a b hab => ?_, fun i => ⟨?_, ?_⟩⟩
  · exact div_le_div_of_nonneg_right (cumsum_mono hpos' (Fin.castSucc_le_castSucc_iff.2 hab))
      hlast.le
  · exact div_nonneg (Finset.sum_nonneg fun j _ => hpos' j) hlast.le
  · exact (div_le_one hlast).2 (cumsum_mono hpos' (Fin.le_last _))

theorem C04_multinomial_sorted [NeZero n] (w : Fin n → ℝ) {us : Fin (n + 1) → ℝ}
    (hu : ∀ i, us i ∈ Set.Ioo (0 : ℝ) 1) :
    Monotone fun i => clipIdx n (searchsorted (cumsum w) (Resampling.sortedUniforms us i)) :=
  fun _ _ hab => clipIdx_mono (searchsorted_mono _ ((C04_sorted_uniforms hu).1 hab))

end Props
end Fbs
