import Verif.Lemmas.Consistency
import Verif.Props.Filters
import Verif.Props.SortedMultinomial

/-!
# Accuracy of the filters: C79

Mean square errors of the bootstrap filter and of the pseudo-marginal filter, with explicit constants and the
rate `1/N`.
-/

open MeasureTheory ProbabilityTheory
open scoped ENNReal

namespace Fbs
namespace Props

open Jax Spec Smc

variable {U V : Type} {N : ℕ}

/-! ### Resampling schemes of small variance -/

/-- Independent indices: a resampling scheme that is unbiased and whose positions are independent has small
variance. -/
theorem smallVariance_of_prod [NeZero N] {res : Smc.Resampling N} (hres : UnbiasedSums res)
    (p : (Fin N → ℝ) → Key → Fin N → Fin N → ℝ≥0∞) (hp : ∀ w key, Weights w → ∀ m, ∑ a, p w key m a = 1)
    (h : ∀ w key, Weights w → ∀ c : Fin N → ℝ≥0∞, ∀ F : (Fin N → Fin N) → ℝ≥0∞,
      (∃ G : ℝ → ℝ≥0∞, ∃ c : Fin N → ℝ, F = fun A => G (∑ j, c (A j))) ∨ (F = fun A => ∑ j, c (A j)) →
      (res w key).E F = ∑ A, (∏ m, p w key m (A m)) * F A)
    (hlaw : ∀ w key, Weights w → ∃ q, HasLaw (res w key) q) : SmallVariance res := by
  intro w key hw
  obtain ⟨q, hq⟩ := hlaw w key hw
  refine ⟨q, hq, fun c hc => ?_⟩
  have hN : (0 : ℝ) < N := by exact_mod_cast Nat.pos_of_ne_zero (NeZero.ne N)
  let μ : Fin N → Measure (Fin N) := fun m => ∑ a, p w key m a • Measure.dirac a
  have hμ : ∀ m a, μ m {a} = p w key m a := fun m a => by
    simp [μ, Measure.finsetSum_apply, Set.indicator_apply]
  have hprob : ∀ m, IsProbabilityMeasure (μ m) := fun m => ⟨by
    simp [μ, Measure.finsetSum_apply, hp w key hw m]⟩
  have hpi : ∀ F : (Fin N → Fin N) → ℝ≥0∞, ∑ A, (∏ m, p w key m (A m)) * F A = ∫⁻ A, F A ∂(Measure.pi μ) := by
    intro F
    rw [lintegral_fintype]
    refine Finset.sum_congr rfl fun A _ => ?_
    rw [Measure.pi_singleton, mul_comm]
    simp only [hμ]
  -- the mean
  have hmean : ∑ i, 1 / (N : ℝ) * ∫ x, c x ∂(μ i) = ∑ i, w i * c i := by
    have h1 := hres w key hw fun i => ENNReal.ofReal (c i)
    rw [h w key hw (fun i => ENNReal.ofReal (c i)) _ (Or.inr rfl), hpi] at h1
    have h2 := lintegral_pi_sum μ (fun _ => 1) (h := fun i => ENNReal.ofReal (c i)) (measurable_of_finite _)
    simp only [one_mul] at h2
    rw [h2] at h1
    have h3 : ∀ i, ∫⁻ x, ENNReal.ofReal (c x) ∂(μ i) = ENNReal.ofReal (∫ x, c x ∂(μ i)) := fun i =>
      (ofReal_integral_eq_lintegral_ofReal (Integrable.of_finite)
        (Filter.Eventually.of_forall fun x => (hc x).1)).symm
    have h4 : ∀ i, 0 ≤ ∫ x, c x ∂(μ i) := fun i => integral_nonneg fun x => (hc x).1
    simp only [h3] at h1
    rw [← ENNReal.ofReal_sum_of_nonneg fun i _ => h4 i] at h1
    have h5 : (N : ℝ≥0∞) * ∑ i, ENNReal.ofReal (w i) * ENNReal.ofReal (c i)
        = ENNReal.ofReal (N * ∑ i, w i * c i) := by
      rw [ENNReal.ofReal_mul hN.le, ENNReal.ofReal_natCast,
        ENNReal.ofReal_sum_of_nonneg fun i _ => mul_nonneg (hw.nonneg i) (hc i).1]
      simp only [ENNReal.ofReal_mul (hw.nonneg _)]
    rw [h5, ENNReal.ofReal_eq_ofReal_iff (Finset.sum_nonneg fun i _ => h4 i)
      (mul_nonneg hN.le (Finset.sum_nonneg fun i _ => mul_nonneg (hw.nonneg i) (hc i).1))] at h1
    rw [← Finset.mul_sum, h1]
    field_simp
  rw [h w key hw (fun _ => 0) _ (Or.inl ⟨fun s => ENNReal.ofReal ((s / N - ∑ i, w i * c i) ^ 2), c, rfl⟩), hpi]
  have h6 := lintegral_pi_sq_le (J := Unit) μ (f := fun _ _ => c) (fun _ _ => measurable_of_finite _)
    (M := 1) (fun _ _ x => (hc x).1) (fun _ _ x => (hc x).2) (fun _ => 1 / (N : ℝ)) (fun _ => ∑ i, w i * c i) 1 0
    zero_le_one le_rfl
  have e : ∀ A : Fin N → Fin N, ∑ i, (1 / (N : ℝ)) * c (A i) = (∑ i, c (A i)) / N := fun us => by
    rw [← Finset.mul_sum]; ring
  have e2 : ∑ _i : Fin N, ((1 : ℝ) / N) ^ 2 = (1 : ℝ) / N := by
    simp only [Finset.sum_const, Finset.card_univ, Fintype.card_fin, nsmul_eq_mul]
    field_simp
  simp only [e, e2, hmean] at h6
  simpa using h6

theorem smallVariance_killing [NeZero N] : SmallVariance (N := N) Resampling.killing :=
  smallVariance_of_prod sums_killing (fun w _ => killMass w)
    (fun _ _ hw => sum_killMass hw.nonneg (Weights.total_pos hw)) (fun _ key hw _ F _ => E_killing hw key F)
    fun _ key hw => ⟨_, fun F => E_killing hw key F⟩

theorem law_multinomial [NeZero N] (i j : Fin N) {w : Fin N → ℝ} (hw : Weights w) (key : Key) :
    HasLaw (CsmcResampling.multinomial key w i j false) fun A => ∏ m, ENNReal.ofReal (w (A m)) := fun F => by
  simp only [CsmcResampling.multinomial, Rand.E_bind, Rand.pure_eq, Rand.E_ret, Bool.false_eq_true, if_false]
  rw [E_choices hw.nonneg (Weights.total_pos hw)]
  refine Finset.sum_congr rfl fun A _ => ?_
  simp only [cat_normalised hw]

theorem sum_ofReal_weights {w : Fin N → ℝ} (hw : Weights w) : ∑ a, ENNReal.ofReal (w a) = 1 := by
  rw [← ENNReal.ofReal_sum_of_nonneg fun m _ => hw.nonneg m, hw.sum_one]; simp

theorem smallVariance_csmc_multinomial [NeZero N] (i j : Fin N) :
    SmallVariance (N := N) fun w k => CsmcResampling.multinomial k w i j false :=
  smallVariance_of_prod (sums_multinomial i j) (fun w _ _ a => ENNReal.ofReal (w a))
    (fun _ _ hw _ => sum_ofReal_weights hw) (fun _ key hw _ F _ => law_multinomial i j hw key F)
    fun _ key hw => ⟨_, law_multinomial i j hw key⟩

theorem law_sorted_multinomial [NeZero N] {w : Fin N → ℝ} (hw : Weights w) (key : Key) :
    ∃ q, HasLaw (Resampling.multinomial w key) q := by
  classical
  refine ⟨fun B => ∑ A : Fin N → Fin N, if A ∘ Tuple.sort A = B then ∏ m, ENNReal.ofReal (w (A m)) else 0,
    fun F => ?_⟩
  rw [C56_multinomial_law hw key F]
  simp only [Finset.sum_mul]
  rw [Finset.sum_comm]
  refine Finset.sum_congr rfl fun A _ => ?_
  simp

/-- Sums over the selected particles do not see the sorting of the multinomial scheme. -/
theorem smallVariance_sorted_multinomial [NeZero N] : SmallVariance (N := N) Resampling.multinomial :=
  smallVariance_of_prod sums_sorted_multinomial (fun w _ _ a => ENNReal.ofReal (w a))
    (fun _ _ hw _ => sum_ofReal_weights hw)
    (fun w key hw c F hF => by
      refine C56_multinomial_symmetric hw key F fun σ A => ?_
      rcases hF with ⟨G, c, rfl⟩ | rfl
      · exact congrArg G (Equiv.sum_comp σ fun j => c (A j))
      · exact Equiv.sum_comp σ fun j => c (A j))
    fun _ key hw => law_sorted_multinomial hw key

theorem law_stratified [NeZero N] (w : Fin N → ℝ) (key : Key) :
    HasLaw (Resampling.stratified w key) fun A => ∏ m : Fin N,
      unifMeasure {u | clipIdx N (searchsorted (cumsum w) (((m : ℕ) + u) / N)) = A m} := by
  intro F
  have h := hasLaw_map (k := key) (S := Set.univ.pi fun _ => Set.Ico 0 1) (μ := Measure.pi fun _ : Fin N => unifMeasure)
    (measurable_comb w) F
  refine Eq.trans ?_ (h.trans ?_)
  · rfl
  · refine Finset.sum_congr rfl fun A _ => ?_
    congr 1
    beta_reduce
    rw [← Measure.pi_pi]
    congr 1
    ext u
    simp [funext_iff, Resampling.comb]

theorem smallVariance_stratified [NeZero N] : SmallVariance (N := N) Resampling.stratified :=
  smallVariance_of_prod sums_stratified _
    (fun w key hw m => by
      have hmeas : Measurable fun u : ℝ => clipIdx N (searchsorted (cumsum w) (((m : ℕ) + u) / N)) :=
        measurable_clipIdx.comp ((measurable_searchsorted _).comp ((measurable_id.const_add _).div_const _))
      have := lintegral_comp_fintype (μ := unifMeasure) hmeas fun _ => 1
      simpa using this.symm)
    (fun w key hw _ F _ => law_stratified w key F) fun w key _ => ⟨_, law_stratified w key⟩

/-- **C79, schemes.** Stratified, killing and both multinomial schemes meet the two conditions on the resampling. -/
theorem C79_schemes [NeZero N] (i j : Fin N) :
    (UnbiasedSums (N := N) Resampling.stratified ∧ SmallVariance (N := N) Resampling.stratified) ∧
    (UnbiasedSums (N := N) Resampling.killing ∧ SmallVariance (N := N) Resampling.killing) ∧
    (UnbiasedSums (N := N) Resampling.multinomial ∧ SmallVariance (N := N) Resampling.multinomial) ∧
    (UnbiasedSums (N := N) (fun w k => CsmcResampling.multinomial k w i j false) ∧
      SmallVariance (N := N) fun w k => CsmcResampling.multinomial k w i j false) :=
  ⟨⟨sums_stratified, smallVariance_stratified⟩, ⟨sums_killing, smallVariance_killing⟩,
    ⟨sums_sorted_multinomial, smallVariance_sorted_multinomial⟩,
    ⟨sums_multinomial i j, smallVariance_csmc_multinomial i j⟩⟩

/-- The alternating weights `3/(2N), 1/(2N), 3/(2N), ...` for even `N`. -/
noncomputable def altWeights (n : ℕ) : Fin (2 * n) → ℝ := fun i => if (i : ℕ) % 2 = 0 then 3 / (4 * n) else 1 / (4 * n)

theorem altWeights_sum (f : ℕ → ℝ) (k : ℕ) :
    ∑ i ∈ Finset.range (2 * k), (if i % 2 = 0 then f 0 else f 1) = k * (f 0 + f 1) := by
  induction k with
  | zero => simp
  | succ k ih =>
    rw [show 2 * (k + 1) = 2 * k + 1 + 1 by ring, Finset.sum_range_succ, Finset.sum_range_succ, ih]
    have h1 : (2 * k) % 2 = 0 := by omega
    have h2 : (2 * k + 1) % 2 ≠ 0 := by omega
    rw [if_pos h1, if_neg h2]
    push_cast
    ring

theorem altWeights_weights {n : ℕ} (hn : 0 < n) : Weights (altWeights n) := by
  have hn' : (0 : ℝ) < n := by exact_mod_cast hn
  refine ⟨fun i => by unfold altWeights; split_ifs <;> positivity, ?_⟩
  have h := altWeights_sum (fun j => if j = 0 then 3 / (4 * n) else 1 / (4 * n)) n
  rw [← Fin.sum_univ_eq_sum_range (fun i => if i % 2 = 0 then _ else _)] at h
  unfold altWeights
  simp only [if_true, one_ne_zero, if_false] at h
  rw [h]
  field_simp
  norm_num

theorem altWeights_presum {n : ℕ} (hn : 0 < n) (i : Fin (2 * n)) :
    (2 * n : ℕ) * presum (altWeights n) i = if (i : ℕ) % 2 = 0 then (i : ℝ) else i + 1 / 2 := by
  have hn' : (0 : ℝ) < n := by exact_mod_cast hn
  have e : presum (altWeights n) i
      = ∑ j ∈ Finset.range (i : ℕ), if j % 2 = 0 then (3 : ℝ) / (4 * n) else 1 / (4 * n) := by
    unfold presum altWeights
    refine Finset.sum_bij (fun j _ => (j : ℕ)) (fun j hj => by simpa using hj) (fun a _ b _ h => Fin.ext h)
      (fun b hb => ⟨⟨b, (Finset.mem_range.1 hb).trans i.2⟩, by simpa [Fin.lt_def] using hb, rfl⟩) (fun _ _ => rfl)
  rw [e]
  have h := altWeights_sum (fun j => if j = 0 then 3 / (4 * n) else 1 / (4 * n))
  simp only [if_true, one_ne_zero, if_false] at h
  split_ifs with hi
  · obtain ⟨k, hk⟩ : ∃ k, (i : ℕ) = 2 * k := ⟨i / 2, by omega⟩
    rw [hk, h k]
    push_cast
    field_simp
    norm_num
  · obtain ⟨k, hk⟩ : ∃ k, (i : ℕ) = 2 * k + 1 := ⟨i / 2, by omega⟩
    rw [hk, Finset.sum_range_succ, h k, if_pos (by omega)]
    push_cast
    field_simp
    ring

/-- **C79, systematic resampling is excluded.** For every even number of particles there are weights and a
function with values in `{0,1}` for which systematic resampling misses the weighted mean by exactly `1/4`,
whatever the uniform draw: the mean over the selected particles does not approach the weighted mean as the number
of particles grows. -/
theorem C79_systematic_error {n : ℕ} (hn : 0 < n) :
    ∃ (w : Fin (2 * n) → ℝ) (c : Fin (2 * n) → ℝ), Weights w ∧ (∀ i, c i = 0 ∨ c i = 1) ∧ ∑ i, w i * c i = 3 / 4 ∧
      ∀ [NeZero (2 * n)] (u : ℝ), u ∈ Set.Ioo (0 : ℝ) 1 →
        |(∑ j, c (Resampling.comb w (fun _ => u) j)) / (2 * n : ℕ) - ∑ i, w i * c i| = 1 / 4 := by
  have hn' : (0 : ℝ) < n := by exact_mod_cast hn
  have hsum : ∀ a b : ℝ, ∑ j : Fin (2 * n), (if (j : ℕ) % 2 = 0 then a else b) = n * (a + b) := by
    intro a b
    have h := altWeights_sum (fun j => if j = 0 then a else b) n
    rw [← Fin.sum_univ_eq_sum_range (fun i => if i % 2 = 0 then _ else _)] at h
    simpa using h
  have hwc : ∑ i : Fin (2 * n), altWeights n i * (if (i : ℕ) % 2 = 0 then (1 : ℝ) else 0) = 3 / 4 := by
    have : ∀ i : Fin (2 * n), altWeights n i * (if (i : ℕ) % 2 = 0 then (1 : ℝ) else 0)
        = if (i : ℕ) % 2 = 0 then 3 / (4 * (n : ℝ)) else 0 := fun i => by
      unfold altWeights; split_ifs <;> simp
    simp only [this, hsum]
    field_simp
    ring
  refine ⟨altWeights n, fun i => if (i : ℕ) % 2 = 0 then 1 else 0, altWeights_weights hn,
    fun i => by dsimp only; split_ifs <;> simp, hwc, fun u hu => ?_⟩
  have hW := altWeights_weights hn
  have hcum : ∀ i : Fin (2 * n), (2 * n : ℕ) * cumsum (altWeights n) i
      = if (i : ℕ) % 2 = 0 then (i : ℝ) + 3 / 2 else i + 1 := by
    intro i
    rw [cumsum_eq, mul_add, altWeights_presum hn]
    unfold altWeights
    push_cast
    split_ifs <;> field_simp <;> ring
  -- where each position goes
  have hpos : ∀ j : Fin (2 * n), (if ((Resampling.comb (altWeights n) (fun _ => u) j : Fin (2 * n)) : ℕ) % 2 = 0
      then (1 : ℝ) else 0) = if (j : ℕ) % 2 = 0 then 1 else if u ≤ 1 / 2 then 1 else 0 := by
    intro j
    by_cases hj : (j : ℕ) % 2 = 0
    · have : Resampling.comb (altWeights n) (fun _ => u) j = j := by
        rw [comb_eq_iff hW j hu, altWeights_presum hn, hcum, if_pos hj, if_pos hj]
        exact ⟨by linarith [hu.1], by linarith [hu.2]⟩
      rw [this, if_pos hj, if_pos hj]
    · by_cases h2 : u ≤ 1 / 2
      · have hj1 : (j : ℕ) - 1 < 2 * n := by have := j.2; omega
        have hje : ((j : ℕ) - 1) % 2 = 0 := by omega
        have hjc : (((j : ℕ) - 1 : ℕ) : ℝ) = j - 1 := by
          rw [Nat.cast_sub (by omega)]; simp
        have : Resampling.comb (altWeights n) (fun _ => u) j = ⟨(j : ℕ) - 1, hj1⟩ := by
          rw [comb_eq_iff hW j hu, altWeights_presum hn, hcum]
          simp only [if_pos hje, hjc]
          exact ⟨by linarith [hu.1], by linarith [hu.2]⟩
        rw [this, if_neg hj, if_pos h2]
        simp only [if_pos hje]
      · have : Resampling.comb (altWeights n) (fun _ => u) j = j := by
          rw [comb_eq_iff hW j hu, altWeights_presum hn, hcum, if_neg hj, if_neg hj]
          push Not at h2
          exact ⟨by linarith, by linarith [hu.2]⟩
        rw [this, if_neg hj, if_neg h2]
        simp only [if_neg hj]
  rw [hwc]
  simp only [hpos, hsum]
  push_cast
  split_ifs
  · rw [show (n : ℝ) * (1 + 1) / (2 * n) - 3 / 4 = 1 / 4 by field_simp; norm_num]
    norm_num
  · rw [show (n : ℝ) * (1 + 0) / (2 * n) - 3 / 4 = -(1 / 4) by field_simp; norm_num]
    norm_num

/-- With more than sixteen particles (an even number) systematic resampling does not have small variance. -/
theorem C79_systematic_not_small {n : ℕ} (hn : 8 < n) [NeZero (2 * n)] :
    ¬ SmallVariance (N := 2 * n) Resampling.systematic := by
  intro h
  obtain ⟨w, c, hw, hc, -, hu⟩ := C79_systematic_error (n := n) (by omega)
  obtain ⟨q, -, hv⟩ := h w [] hw
  have h1 := hv c fun i => by rcases hc i with h | h <;> rw [h] <;> norm_num
  have hn' : (8 : ℝ) < n := by exact_mod_cast hn
  have h2 : (Resampling.systematic w []).E (fun A => ENNReal.ofReal
      (((∑ j, c (A j)) / (2 * n : ℕ) - ∑ i, w i * c i) ^ 2)) = ENNReal.ofReal (1 / 16) := by
    unfold Resampling.systematic uniform
    rw [Rand.E_map, Rand.E_sample]
    have ha : ∀ᵐ u ∂unifMeasure, u ∈ Set.Ico (0 : ℝ) 1 := ae_restrict_mem measurableSet_Ico
    have hb : ∀ᵐ u ∂unifMeasure, u ≠ (0 : ℝ) := by
      apply ae_restrict_of_ae
      rw [ae_iff]; simp
    rw [lintegral_congr_ae (g := fun _ => ENNReal.ofReal (1 / 16))]
    · simp
    · filter_upwards [ha, hb] with u hu1 hu0
      have := hu u ⟨lt_of_le_of_ne hu1.1 (Ne.symm hu0), hu1.2⟩
      rw [← sq_abs, this]
      norm_num
  rw [h2, ENNReal.ofReal_le_ofReal_iff (by positivity), div_le_div_iff₀ (by norm_num) (by push_cast; linarith)] at h1
  push_cast at h1
  linarith

/-! ### Mean square errors of the filters -/

variable [MeasurableSpace U]

theorem filterInt_eq {S : StateSpace U V} (vs : Arr1 V) (ts : Arr1 ℝ) {b : ℝ} (hb : ∀ s ∈ S.steps vs.1 vs.2 ts.toList, ∀ u, s.g u ≤ b)
    {φ : U → ℝ} (hφ : Measurable φ) (h1 : ∀ u, φ u ≤ 1) :
    (S.filterInt vs ts fun u => ENNReal.ofReal (φ u)).toReal
      = ∫ u, futR φ (S.steps vs.1 vs.2 ts.toList) u ∂S.init := by
  unfold StateSpace.filterInt futR
  refine (integral_toReal ?_ ?_).symm
  · exact (measurable_pathInt_last (ENNReal.measurable_ofReal.comp hφ) _).aemeasurable
  · exact Filter.Eventually.of_forall fun u' =>
      (pathInt_le h1 _ hb u').trans_lt ENNReal.ofReal_lt_top

theorem pathInt_pos : ∀ (ss : List (FKStep U)) (u : U), 0 < pathInt ss u fun _ => 1
  | [], _ => one_pos
  | s :: ss, u => by
    simp only [pathInt]
    refine ENNReal.mul_pos (by simpa using Real.exp_pos _) ?_
    rw [← pos_iff_ne_zero, lintegral_pos_iff_support]
    · have : (Function.support fun u' => pathInt ss u' fun _ => 1) = Set.univ := by
        ext u'
        simpa using (pathInt_pos ss u').ne'
      rw [this]
      simp
    · exact measurable_pathInt_last (φ := fun _ => 1) measurable_const ss

theorem filterInt_one_pos {S : StateSpace U V} (vs : Arr1 V) (ts : Arr1 ℝ) {b : ℝ}
    (hb : ∀ s ∈ S.steps vs.1 vs.2 ts.toList, ∀ u, s.g u ≤ b) : 0 < (S.filterInt vs ts fun _ => 1).toReal := by
  refine ENNReal.toReal_pos ?_ ?_
  · rw [← pos_iff_ne_zero]
    unfold StateSpace.filterInt
    rw [lintegral_pos_iff_support]
    · have : (Function.support fun u' => pathInt (S.steps vs.1 vs.2 ts.toList) u' fun _ => 1) = Set.univ := by
        ext u'
        simpa using (pathInt_pos _ u').ne'
      rw [this]
      simp
    · exact measurable_pathInt_last (φ := fun _ => 1) measurable_const _
  · unfold StateSpace.filterInt
    refine ne_top_of_le_ne_top ?_ (lintegral_mono fun u => ?_) (b := ∫⁻ _, ENNReal.ofReal
      (Real.exp b ^ (S.steps vs.1 vs.2 ts.toList).length) ∂S.init)
    · simp
    · have := pathInt_le (φ := fun _ => 1) (fun _ => le_rfl) _ hb u
      simpa using this

/-- All estimates of a finite family at once. -/
theorem filter_sq [NeZero N] {J : Type} [Fintype J] {m : Funs N U V} {S : StateSpace U V} {res : Smc.Resampling N}
    (vs : Arr1 V) (ts : Arr1 ℝ) (hm : SmcImplements m S vs.1) (hres : UnbiasedSums res) (hvar : SmallVariance res)
    (ht : ts.2.length = vs.2.length) {b : ℝ} (hb : ∀ s ∈ S.steps vs.1 vs.2 ts.toList, ∀ u, s.g u ≤ b) (key : Key) (log rl : Bool)
    {φ : J → U → ℝ} (hφ : ∀ j, Measurable (φ j)) (h0 : ∀ j u, 0 ≤ φ j u) (h1 : ∀ j u, φ j u ≤ 1)
    {e : ℝ} (he : 0 ≤ e) :
    (bootstrapFilter m res vs ts key log rl).E (fun out => ENNReal.ofReal
        (∑ j, (Real.exp (-out.nell) * ((∑ i, φ j (out.final i)) / N)
          - (S.filterInt vs ts fun u => ENNReal.ofReal (φ j u)).toReal) ^ 2 + e))
      ≤ ENNReal.ofReal (Fintype.card J * ((2 * vs.2.length + 1) * Real.exp b ^ (2 * vs.2.length) / N) + e) := by
  have hrl : ∀ F : (Fin N → U) → ℝ → ℝ≥0∞,
      (bootstrapFilter m res vs ts key log rl).E (fun out => F out.final out.nell)
      = (bootstrapFilter m res vs ts key log true).E (fun out => F out.final out.nell) := by
    intro F
    cases rl
    · rw [C19_return_last, Rand.E_map]
      rfl
    · rfl
  rw [hrl fun us l => ENNReal.ofReal (∑ j, (Real.exp (-l) * ((∑ i, φ j (us i)) / N)
    - (S.filterInt vs ts fun u => ENNReal.ofReal (φ j u)).toReal) ^ 2 + e)]
  simp only [bootstrapFilter, Rand.E_bind, Rand.pure_eq, Rand.E_ret, if_true, FilterOut.nell, FilterOut.final]
  set a : J → ℝ := fun j => (S.filterInt vs ts fun u => ENNReal.ofReal (φ j u)).toReal with ha
  have hs := hb
  have hl := steps_length S vs.2 ts.2 vs.1 ht ts.1
  have ha' : ∀ j, a j = ∫ u, futR (φ j) (S.steps vs.1 vs.2 (ts.1 :: ts.2)) u ∂S.init := fun j =>
    filterInt_eq vs ts hb (hφ j) (h1 j)
  have h2 : ∀ x : Fin N → U, _ := fun x => E_filter_scan_sq hm hres hvar (fun _ => ()) hφ h0 h1 a he vs.2 ts.2
    (splitAll (split key 2 1) vs.2.length) vs.1 ts.1 x 0 ht (by simp [splitAll]) hb
  simp only [Prod.mk.eta] at h2
  refine (Rand.E_mono _ h2).trans ?_
  simp only [neg_zero, Real.exp_zero, one_mul, one_pow, mul_one, add_assoc, ha']
  have hmeas : ∀ j, Measurable fun x : Fin N → U => ∑ i, futR (φ j) (S.steps vs.1 vs.2 (ts.1 :: ts.2)) (x i) := fun j =>
    Finset.measurable_fun_sum _ fun i _ => (measurable_futR (hφ j) _).comp (measurable_pi_apply i)
  rw [hm.init]
  · refine (init_sq (fun j => measurable_futR (hφ j) _) (M := Real.exp b ^ vs.2.length) (fun j => futR_nonneg _ _)
      (fun j u => by rw [← hl]; exact futR_le (h1 j) hs u) (by positivity)).trans
        (ENNReal.ofReal_le_ofReal (le_of_eq ?_))
    rw [pow_mul']
    ring
  · fun_prop

/-- **C79, bootstrap filter.** If the log likelihood is bounded by `b`, the estimate `exp(-nell) · (mean of φ over
the particles)` deviates from the unnormalised filtering integral of `φ` by at most `(2K+1) e^{2Kb} / N` in mean
square (`K` observations after the first, `N` particles, `φ` with values in `[0,1]`). -/
theorem C79_estimate [NeZero N] {m : Funs N U V} {S : StateSpace U V} {res : Smc.Resampling N}
    (vs : Arr1 V) (ts : Arr1 ℝ) (hm : SmcImplements m S vs.1) (hres : UnbiasedSums res) (hvar : SmallVariance res)
    (ht : ts.2.length = vs.2.length) {b : ℝ} (hb : ∀ s ∈ S.steps vs.1 vs.2 ts.toList, ∀ u, s.g u ≤ b) (key : Key) (log rl : Bool)
    {φ : U → ℝ} (hφ : Measurable φ) (h0 : ∀ u, 0 ≤ φ u) (h1 : ∀ u, φ u ≤ 1) :
    (bootstrapFilter m res vs ts key log rl).E (fun out => ENNReal.ofReal
        ((Real.exp (-out.nell) * ((∑ i, φ (out.final i)) / N)
          - (S.filterInt vs ts fun u => ENNReal.ofReal (φ u)).toReal) ^ 2))
      ≤ ENNReal.ofReal ((2 * vs.2.length + 1) * Real.exp b ^ (2 * vs.2.length) / N) := by
  have := filter_sq (J := Unit) vs ts hm hres hvar ht hb key log rl (φ := fun _ => φ) (fun _ => hφ) (fun _ => h0)
    (fun _ => h1) le_rfl
  simpa using this

/-- **C79, marginal likelihood.** -/
theorem C79_likelihood [NeZero N] {m : Funs N U V} {S : StateSpace U V} {res : Smc.Resampling N}
    (vs : Arr1 V) (ts : Arr1 ℝ) (hm : SmcImplements m S vs.1) (hres : UnbiasedSums res) (hvar : SmallVariance res)
    (ht : ts.2.length = vs.2.length) {b : ℝ} (hb : ∀ s ∈ S.steps vs.1 vs.2 ts.toList, ∀ u, s.g u ≤ b) (key : Key) (log rl : Bool) :
    (bootstrapFilter m res vs ts key log rl).E (fun out => ENNReal.ofReal
        ((Real.exp (-out.nell) - (S.filterInt vs ts fun _ => 1).toReal) ^ 2))
      ≤ ENNReal.ofReal ((2 * vs.2.length + 1) * Real.exp b ^ (2 * vs.2.length) / N) := by
  have hN : (N : ℝ) ≠ 0 := by exact_mod_cast NeZero.ne N
  have := C79_estimate vs ts hm hres hvar ht hb key log rl (φ := fun _ => 1) measurable_const
    (fun _ => zero_le_one) (fun _ => le_rfl)
  simpa [hN] using this

/-- The elementary inequality behind self-normalised estimates. -/
theorem ratio_sq_le {L x γ Z : ℝ} (hZ : 0 < Z) (h0 : 0 ≤ x) (h1 : x ≤ 1) :
    (x - γ / Z) ^ 2 ≤ 2 / Z ^ 2 * ((L * x - γ) ^ 2 + (L - Z) ^ 2) := by
  have e : x - γ / Z = ((L * x - γ) - x * (L - Z)) / Z := by field_simp; ring
  rw [e, div_pow, div_mul_eq_mul_div, div_le_div_iff_of_pos_right (by positivity)]
  have hx : x ^ 2 * (L - Z) ^ 2 ≤ (L - Z) ^ 2 := by
    have : x ^ 2 ≤ 1 := by nlinarith
    nlinarith [sq_nonneg (L - Z)]
  nlinarith [sq_nonneg ((L * x - γ) + x * (L - Z))]

/-- From the joint error of an estimate and of its normalising constant to the error of the ratio. -/
theorem ratio_of_joint {α : Type} (p : Rand α) (L x : α → ℝ) (h0 : ∀ a, 0 ≤ x a) (h1 : ∀ a, x a ≤ 1) {γ Z c : ℝ}
    (hZ : 0 < Z) (h : ∀ e, 0 ≤ e → p.E (fun a => ENNReal.ofReal (((L a * x a - γ) ^ 2 + (L a - Z) ^ 2) + e))
      ≤ ENNReal.ofReal (2 * c + e)) {e : ℝ} (he : 0 ≤ e) :
    p.E (fun a => ENNReal.ofReal ((x a - γ / Z) ^ 2 + e)) ≤ ENNReal.ofReal (4 * c / Z ^ 2 + e) := by
  have hZ2 : 0 ≤ 2 / Z ^ 2 := by positivity
  calc p.E (fun a => ENNReal.ofReal ((x a - γ / Z) ^ 2 + e))
      ≤ p.E (fun a => ENNReal.ofReal (2 / Z ^ 2) *
          ENNReal.ofReal (((L a * x a - γ) ^ 2 + (L a - Z) ^ 2) + e * Z ^ 2 / 2)) := by
        refine Rand.E_mono _ fun a => ?_
        rw [← ENNReal.ofReal_mul hZ2]
        refine ENNReal.ofReal_le_ofReal ?_
        have := ratio_sq_le (L := L a) (γ := γ) hZ (h0 a) (h1 a)
        rw [mul_add, show 2 / Z ^ 2 * (e * Z ^ 2 / 2) = e by field_simp]
        linarith
    _ = ENNReal.ofReal (2 / Z ^ 2) * _ := Rand.E_const_mul _ ENNReal.ofReal_ne_top _
    _ ≤ ENNReal.ofReal (2 / Z ^ 2) * ENNReal.ofReal (2 * c + e * Z ^ 2 / 2) :=
        mul_le_mul_right (h _ (by positivity)) _
    _ = _ := by
        rw [← ENNReal.ofReal_mul hZ2]
        congr 1
        field_simp
        ring

/-- A bound in mean square bounds the mean. -/
theorem mean_of_sq {α : Type} (p : Rand α) (x : α → ℝ) {r c : ℝ} (hr : 0 ≤ r) (hc : 0 < c)
    (h : ∀ e, 0 ≤ e → p.E (fun a => ENNReal.ofReal ((x a - r) ^ 2 + e)) ≤ ENNReal.ofReal (c + e)) :
    p.E (fun a => ENNReal.ofReal (x a)) ≤ ENNReal.ofReal (r + Real.sqrt c) := by
  set s := Real.sqrt c / 2 with hs
  have hsc := Real.sqrt_pos.2 hc
  have hs0 : 0 < s := by positivity
  have hs2 : Real.sqrt c ^ 2 = c := Real.sq_sqrt hc.le
  have h4 : 0 ≤ 1 / (4 * s) := by positivity
  calc p.E (fun a => ENNReal.ofReal (x a))
      ≤ p.E (fun a => ENNReal.ofReal (1 / (4 * s)) * ENNReal.ofReal ((x a - r) ^ 2 + 4 * s * (r + s))) := by
        refine Rand.E_mono _ fun a => ?_
        rw [← ENNReal.ofReal_mul h4]
        refine ENNReal.ofReal_le_ofReal ?_
        rw [div_mul_eq_mul_div, one_mul, le_div_iff₀ (by positivity)]
        nlinarith [sq_nonneg (x a - r - 2 * s)]
    _ = ENNReal.ofReal (1 / (4 * s)) * _ := Rand.E_const_mul _ ENNReal.ofReal_ne_top _
    _ ≤ ENNReal.ofReal (1 / (4 * s)) * ENNReal.ofReal (c + 4 * s * (r + s)) :=
        mul_le_mul_right (h _ (by positivity)) _
    _ = _ := by
        rw [← ENNReal.ofReal_mul h4]
        congr 1
        have : c = 4 * s ^ 2 := by rw [hs]; linarith
        rw [this, show Real.sqrt (4 * s ^ 2) = 2 * s by
          rw [show 4 * s ^ 2 = (2 * s) ^ 2 by ring, Real.sqrt_sq (by positivity)]]
        field_simp
        ring

/-- Chebyshev's inequality. -/
theorem chebyshev_of_sq {α : Type} (p : Rand α) (x : α → ℝ) {r c ε : ℝ} (hε : 0 < ε)
    (h : p.E (fun a => ENNReal.ofReal ((x a - r) ^ 2)) ≤ ENNReal.ofReal c) [DecidablePred fun a => ε ≤ |x a - r|] :
    p.E (fun a => if ε ≤ |x a - r| then 1 else 0) ≤ ENNReal.ofReal (c / ε ^ 2) := by
  calc p.E (fun a => if ε ≤ |x a - r| then 1 else 0)
      ≤ p.E (fun a => ENNReal.ofReal (1 / ε ^ 2) * ENNReal.ofReal ((x a - r) ^ 2)) := by
        refine Rand.E_mono _ fun a => ?_
        rw [← ENNReal.ofReal_mul (by positivity)]
        split_ifs with ha
        · rw [← ENNReal.ofReal_one]
          refine ENNReal.ofReal_le_ofReal ?_
          rw [div_mul_eq_mul_div, one_mul, le_div_iff₀ (by positivity), one_mul, ← sq_abs (x a - r)]
          exact pow_le_pow_left₀ hε.le ha 2
        · exact zero_le
    _ = ENNReal.ofReal (1 / ε ^ 2) * _ := Rand.E_const_mul _ ENNReal.ofReal_ne_top _
    _ ≤ ENNReal.ofReal (1 / ε ^ 2) * ENNReal.ofReal c := mul_le_mul_right h _
    _ = _ := by rw [← ENNReal.ofReal_mul (by positivity)]; congr 1; ring

omit [MeasurableSpace U] in
theorem avg_nonneg {φ : U → ℝ} (h0 : ∀ u, 0 ≤ φ u) (x : Fin N → U) : 0 ≤ (∑ i, φ (x i)) / N :=
  div_nonneg (Finset.sum_nonneg fun _ _ => h0 _) (Nat.cast_nonneg _)

omit [MeasurableSpace U] in
theorem avg_le_one {φ : U → ℝ} (h1 : ∀ u, φ u ≤ 1) (x : Fin N → U) : (∑ i, φ (x i)) / N ≤ 1 := by
  refine div_le_one_of_le₀ ?_ (Nat.cast_nonneg _)
  calc ∑ i, φ (x i) ≤ ∑ _i : Fin N, (1 : ℝ) := Finset.sum_le_sum fun _ _ => h1 _
    _ = N := by simp

theorem filter_mean_sq [NeZero N] {m : Funs N U V} {S : StateSpace U V} {res : Smc.Resampling N}
    (vs : Arr1 V) (ts : Arr1 ℝ) (hm : SmcImplements m S vs.1) (hres : UnbiasedSums res) (hvar : SmallVariance res)
    (ht : ts.2.length = vs.2.length) {b : ℝ} (hb : ∀ s ∈ S.steps vs.1 vs.2 ts.toList, ∀ u, s.g u ≤ b) (key : Key) (log rl : Bool)
    {φ : U → ℝ} (hφ : Measurable φ) (h0 : ∀ u, 0 ≤ φ u) (h1 : ∀ u, φ u ≤ 1) {e : ℝ} (he : 0 ≤ e) :
    (bootstrapFilter m res vs ts key log rl).E (fun out => ENNReal.ofReal
        (((∑ i, φ (out.final i)) / N - S.filterMean vs ts φ) ^ 2 + e))
      ≤ ENNReal.ofReal (4 * ((2 * vs.2.length + 1) * Real.exp b ^ (2 * vs.2.length) / N)
          / (S.filterInt vs ts fun _ => 1).toReal ^ 2 + e) := by
  have hN : (N : ℝ) ≠ 0 := by exact_mod_cast NeZero.ne N
  refine ratio_of_joint _ (fun out => Real.exp (-out.nell)) _ (fun out => avg_nonneg h0 _)
    (fun out => avg_le_one h1 _) (filterInt_one_pos vs ts hb) (fun e he => ?_) he
  have := filter_sq (J := Bool) vs ts hm hres hvar ht hb key log rl (φ := fun j => if j then φ else fun _ => 1)
    (by intro j; cases j <;> simp [hφ]) (by intro j u; cases j <;> simp [h0]) (by intro j u; cases j <;> simp [h1]) he
  simpa [hN] using this

/-- **C79, filtering distribution.** The plain average of `φ` over the final particles deviates from the exact
filtering mean by at most `4 (2K+1) e^{2Kb} / (Z² N)` in mean square, `Z` the marginal likelihood. -/
theorem C79_filter [NeZero N] {m : Funs N U V} {S : StateSpace U V} {res : Smc.Resampling N}
    (vs : Arr1 V) (ts : Arr1 ℝ) (hm : SmcImplements m S vs.1) (hres : UnbiasedSums res) (hvar : SmallVariance res)
    (ht : ts.2.length = vs.2.length) {b : ℝ} (hb : ∀ s ∈ S.steps vs.1 vs.2 ts.toList, ∀ u, s.g u ≤ b) (key : Key) (log rl : Bool)
    {φ : U → ℝ} (hφ : Measurable φ) (h0 : ∀ u, 0 ≤ φ u) (h1 : ∀ u, φ u ≤ 1) :
    (bootstrapFilter m res vs ts key log rl).E (fun out => ENNReal.ofReal
        (((∑ i, φ (out.final i)) / N - S.filterMean vs ts φ) ^ 2))
      ≤ ENNReal.ofReal (4 * ((2 * vs.2.length + 1) * Real.exp b ^ (2 * vs.2.length) / N)
          / (S.filterInt vs ts fun _ => 1).toReal ^ 2) := by
  simpa using filter_mean_sq vs ts hm hres hvar ht hb key log rl hφ h0 h1 le_rfl

/-- **C79, in probability.** The probability of an error of at least `ε` is at most `1/(N ε²)` times the
constant above. -/
theorem C79_probability [NeZero N] {m : Funs N U V} {S : StateSpace U V} {res : Smc.Resampling N}
    (vs : Arr1 V) (ts : Arr1 ℝ) (hm : SmcImplements m S vs.1) (hres : UnbiasedSums res) (hvar : SmallVariance res)
    (ht : ts.2.length = vs.2.length) {b : ℝ} (hb : ∀ s ∈ S.steps vs.1 vs.2 ts.toList, ∀ u, s.g u ≤ b) (key : Key) (log rl : Bool)
    {φ : U → ℝ} (hφ : Measurable φ) (h0 : ∀ u, 0 ≤ φ u) (h1 : ∀ u, φ u ≤ 1) {ε : ℝ} (hε : 0 < ε)
    [DecidablePred fun out : FilterOut N U => ε ≤ |(∑ i, φ (out.final i)) / N - S.filterMean vs ts φ|] :
    (bootstrapFilter m res vs ts key log rl).E (fun out =>
        if ε ≤ |(∑ i, φ (out.final i)) / N - S.filterMean vs ts φ| then 1 else 0)
      ≤ ENNReal.ofReal (4 * ((2 * vs.2.length + 1) * Real.exp b ^ (2 * vs.2.length) / N)
          / (S.filterInt vs ts fun _ => 1).toReal ^ 2 / ε ^ 2) := by
  have h := C79_filter vs ts hm hres hvar ht hb key log rl hφ h0 h1
  generalize bootstrapFilter m res vs ts key log rl = p at h ⊢
  generalize S.filterMean vs ts φ = r at *
  exact chebyshev_of_sq p (fun out => (∑ i, φ (out.final i)) / N) hε h

theorem E_randint [NeZero N] (key : Key) (F : Fin N → ℝ≥0∞) : (randint key N).E F = (N : ℝ≥0∞)⁻¹ * ∑ i, F i := by
  unfold randint
  rw [Rand.E_sample, lintegral_smul_measure, lintegral_count, tsum_fintype, smul_eq_mul]

/-- **C79, one draw.** A particle at a uniformly drawn index has the filtering law up to an error of order
`1/√N`: `E φ` exceeds the filtering mean by at most `2 √((2K+1)/N) e^{Kb} / Z`, for every `φ` with values in `[0,1]`
(hence also for `1 - φ`). -/
theorem C79_uniform_index [NeZero N] {m : Funs N U V} {S : StateSpace U V} {res : Smc.Resampling N}
    (vs : Arr1 V) (ts : Arr1 ℝ) (hm : SmcImplements m S vs.1) (hres : UnbiasedSums res) (hvar : SmallVariance res)
    (ht : ts.2.length = vs.2.length) {b : ℝ} (hb : ∀ s ∈ S.steps vs.1 vs.2 ts.toList, ∀ u, s.g u ≤ b) (key key' : Key) (log rl : Bool)
    {φ : U → ℝ} (hφ : Measurable φ) (h0 : ∀ u, 0 ≤ φ u) (h1 : ∀ u, φ u ≤ 1) :
    (bootstrapFilter m res vs ts key log rl >>= fun out => (fun i => out.final i) <$> randint key' N).E
        (fun u => ENNReal.ofReal (φ u))
      ≤ ENNReal.ofReal (S.filterMean vs ts φ
          + Real.sqrt (4 * ((2 * vs.2.length + 1) * Real.exp b ^ (2 * vs.2.length) / N)
            / (S.filterInt vs ts fun _ => 1).toReal ^ 2)) := by
  have hN : (0 : ℝ) < N := by exact_mod_cast Nat.pos_of_ne_zero (NeZero.ne N)
  have hZ := filterInt_one_pos vs ts hb
  have e : ∀ out : FilterOut N U, ((fun i => out.final i) <$> randint key' N).E (fun u => ENNReal.ofReal (φ u))
      = ENNReal.ofReal ((∑ i, φ (out.final i)) / N) := by
    intro out
    rw [Rand.E_map, E_randint, ENNReal.ofReal_div_of_pos hN, ENNReal.ofReal_sum_of_nonneg fun i _ => h0 _,
      ENNReal.ofReal_natCast, ENNReal.div_eq_inv_mul]
  rw [Rand.E_bind]
  simp only [e]
  exact mean_of_sq _ _ (div_nonneg ENNReal.toReal_nonneg ENNReal.toReal_nonneg) (by positivity)
    fun e he => filter_mean_sq vs ts hm hres hvar ht hb key log rl hφ h0 h1 he

/-! ### The filter inside the pseudo-marginal sampler -/

/-- All estimates of a finite family at once. -/
theorem pmcmc_sq [NeZero N] {J : Type} [Fintype J] {m : Funs N U V} {S : StateSpace U V} {res : Smc.Resampling N}
    (vs : Arr1 V) (ts : Arr1 ℝ) (hm : SmcImplements m S vs.1) (hres : UnbiasedSums res) (hvar : SmallVariance res)
    (ht : ts.2.length = vs.2.length) {b : ℝ} (hb : ∀ s ∈ S.steps vs.1 vs.2 ts.toList, ∀ u, s.g u ≤ b) (k₀ key : Key)
    {φ : J → U → ℝ} (hφ : ∀ j, Measurable (φ j)) (h0 : ∀ j u, 0 ≤ φ j u) (h1 : ∀ j u, φ j u ≤ 1)
    {e : ℝ} (he : 0 ≤ e) :
    (m.initSampler k₀ vs.1 N >>= fun u0s => pmcmcFilterStep m res key vs u0s ts).E (fun out => ENNReal.ofReal
        (∑ j, (Real.exp out.2 * ((∑ i, φ j (out.1 i)) / N)
          - (S.filterInt vs ts fun u => ENNReal.ofReal (φ j u)).toReal) ^ 2 + e))
      ≤ ENNReal.ofReal (Fintype.card J * ((2 * vs.2.length + 1) * Real.exp b ^ (2 * vs.2.length) / N) + e) := by
  simp only [pmcmcFilterStep, Rand.E_bind, Rand.pure_eq, Rand.E_ret]
  set a : J → ℝ := fun j => (S.filterInt vs ts fun u => ENNReal.ofReal (φ j u)).toReal with ha
  have hs := hb
  have hl := steps_length S vs.2 ts.2 vs.1 ht ts.1
  have ha' : ∀ j, a j = ∫ u, futR (φ j) (S.steps vs.1 vs.2 (ts.1 :: ts.2)) u ∂S.init := fun j =>
    filterInt_eq vs ts hb (hφ j) (h1 j)
  have h2 : ∀ x : Fin N → U, _ := fun x => E_pmcmc_scan_sq hm hres hvar hφ h0 h1 a he vs.2 ts.2
    (splitAll key ts.2.length) vs.1 ts.1 x 0 ht (by simp [splitAll, ht]) hb
  simp only [Prod.mk.eta] at h2
  refine (Rand.E_mono _ h2).trans ?_
  simp only [Real.exp_zero, one_mul, one_pow, mul_one, add_assoc, ha']
  have hmeas : ∀ j, Measurable fun x : Fin N → U => ∑ i, futR (φ j) (S.steps vs.1 vs.2 (ts.1 :: ts.2)) (x i) := fun j =>
    Finset.measurable_fun_sum _ fun i _ => (measurable_futR (hφ j) _).comp (measurable_pi_apply i)
  rw [hm.init]
  · refine (init_sq (fun j => measurable_futR (hφ j) _) (M := Real.exp b ^ vs.2.length) (fun j => futR_nonneg _ _)
      (fun j u => by rw [← hl]; exact futR_le (h1 j) hs u) (by positivity)).trans
        (ENNReal.ofReal_le_ofReal (le_of_eq ?_))
    rw [pow_mul']
    ring
  · fun_prop

/-- **C79, pseudo-marginal filter.** The estimate `exp(log_ell) · (mean of φ over the particles)` has the same mean
square error bound as that of the bootstrap filter. -/
theorem C79_pmcmc_estimate [NeZero N] {m : Funs N U V} {S : StateSpace U V} {res : Smc.Resampling N}
    (vs : Arr1 V) (ts : Arr1 ℝ) (hm : SmcImplements m S vs.1) (hres : UnbiasedSums res) (hvar : SmallVariance res)
    (ht : ts.2.length = vs.2.length) {b : ℝ} (hb : ∀ s ∈ S.steps vs.1 vs.2 ts.toList, ∀ u, s.g u ≤ b) (k₀ key : Key)
    {φ : U → ℝ} (hφ : Measurable φ) (h0 : ∀ u, 0 ≤ φ u) (h1 : ∀ u, φ u ≤ 1) :
    (m.initSampler k₀ vs.1 N >>= fun u0s => pmcmcFilterStep m res key vs u0s ts).E (fun out => ENNReal.ofReal
        ((Real.exp out.2 * ((∑ i, φ (out.1 i)) / N)
          - (S.filterInt vs ts fun u => ENNReal.ofReal (φ u)).toReal) ^ 2))
      ≤ ENNReal.ofReal ((2 * vs.2.length + 1) * Real.exp b ^ (2 * vs.2.length) / N) := by
  have := pmcmc_sq (J := Unit) vs ts hm hres hvar ht hb k₀ key (φ := fun _ => φ) (fun _ => hφ) (fun _ => h0)
    (fun _ => h1) le_rfl
  simpa using this

/-- **C79, pseudo-marginal likelihood.** -/
theorem C79_pmcmc_likelihood [NeZero N] {m : Funs N U V} {S : StateSpace U V} {res : Smc.Resampling N}
    (vs : Arr1 V) (ts : Arr1 ℝ) (hm : SmcImplements m S vs.1) (hres : UnbiasedSums res) (hvar : SmallVariance res)
    (ht : ts.2.length = vs.2.length) {b : ℝ} (hb : ∀ s ∈ S.steps vs.1 vs.2 ts.toList, ∀ u, s.g u ≤ b) (k₀ key : Key) :
    (m.initSampler k₀ vs.1 N >>= fun u0s => pmcmcFilterStep m res key vs u0s ts).E (fun out => ENNReal.ofReal
        ((Real.exp out.2 - (S.filterInt vs ts fun _ => 1).toReal) ^ 2))
      ≤ ENNReal.ofReal ((2 * vs.2.length + 1) * Real.exp b ^ (2 * vs.2.length) / N) := by
  have hN : (N : ℝ) ≠ 0 := by exact_mod_cast NeZero.ne N
  have := C79_pmcmc_estimate vs ts hm hres hvar ht hb k₀ key (φ := fun _ => 1) measurable_const
    (fun _ => zero_le_one) (fun _ => le_rfl)
  simpa [hN] using this

/-- **C79, particles of the pseudo-marginal filter.** -/
theorem C79_pmcmc_filter [NeZero N] {m : Funs N U V} {S : StateSpace U V} {res : Smc.Resampling N}
    (vs : Arr1 V) (ts : Arr1 ℝ) (hm : SmcImplements m S vs.1) (hres : UnbiasedSums res) (hvar : SmallVariance res)
    (ht : ts.2.length = vs.2.length) {b : ℝ} (hb : ∀ s ∈ S.steps vs.1 vs.2 ts.toList, ∀ u, s.g u ≤ b) (k₀ key : Key)
    {φ : U → ℝ} (hφ : Measurable φ) (h0 : ∀ u, 0 ≤ φ u) (h1 : ∀ u, φ u ≤ 1) :
    (m.initSampler k₀ vs.1 N >>= fun u0s => pmcmcFilterStep m res key vs u0s ts).E (fun out => ENNReal.ofReal
        (((∑ i, φ (out.1 i)) / N - S.filterMean vs ts φ) ^ 2))
      ≤ ENNReal.ofReal (4 * ((2 * vs.2.length + 1) * Real.exp b ^ (2 * vs.2.length) / N)
          / (S.filterInt vs ts fun _ => 1).toReal ^ 2) := by
  have hN : (N : ℝ) ≠ 0 := by exact_mod_cast NeZero.ne N
  have := ratio_of_joint (m.initSampler k₀ vs.1 N >>= fun u0s => pmcmcFilterStep m res key vs u0s ts)
    (fun out => Real.exp out.2) (fun out => (∑ i, φ (out.1 i)) / N)
    (fun out => avg_nonneg h0 _) (fun out => avg_le_one h1 _)
    (γ := (S.filterInt vs ts fun u => ENNReal.ofReal (φ u)).toReal)
    (c := (2 * vs.2.length + 1) * Real.exp b ^ (2 * vs.2.length) / N) (filterInt_one_pos vs ts hb) (fun e he => ?_)
    le_rfl
  · simpa [StateSpace.filterMean] using this
  have := pmcmc_sq (J := Bool) vs ts hm hres hvar ht hb k₀ key (φ := fun j => if j then φ else fun _ => 1)
    (by intro j; cases j <;> simp [hφ]) (by intro j u; cases j <;> simp [h0]) (by intro j u; cases j <;> simp [h1]) he
  simpa [hN] using this

/-! ### The hypotheses can be met -/

theorem exampleModel_le (v v' t u : ℝ) : exampleModel.logG v v' t u ≤ 0 := by
  show -(v - v' - t * u) ^ 2 / 2 ≤ 0
  have := sq_nonneg (v - v' - t * u)
  linarith

/-- With a hundred particles, two observations and likelihoods at most one the likelihood estimate has a mean square
error of at most one twentieth. -/
example (key : Key) : (bootstrapFilter (smcFuns exampleModel 100) Resampling.stratified (0, [1, 2]) (0, [1, 2])
    key true true).E (fun out => ENNReal.ofReal
      ((Real.exp (-out.nell) - (exampleModel.filterInt (0, [1, 2]) (0, [1, 2]) (fun _ => 1)).toReal) ^ 2))
      ≤ ENNReal.ofReal (1 / 20) := by
  have := C79_likelihood (0, [1, 2]) (0, [1, 2]) (implements_smcFuns exampleModel 100 0) sums_stratified
    smallVariance_stratified rfl (steps_le exampleModel_le _ _ _) key true true
  refine this.trans (ENNReal.ofReal_le_ofReal ?_)
  norm_num

example (key : Key) : ((smcFuns exampleModel 100).initSampler (split key 2 0) 0 100 >>= fun u0s =>
    pmcmcFilterStep (smcFuns exampleModel 100) Resampling.killing (split key 2 1) (0, [1, 2]) u0s (0, [1, 2])).E
      (fun out => ENNReal.ofReal
        ((Real.exp out.2 - (exampleModel.filterInt (0, [1, 2]) (0, [1, 2]) (fun _ => 1)).toReal) ^ 2))
      ≤ ENNReal.ofReal (1 / 20) := by
  have := C79_pmcmc_likelihood (0, [1, 2]) (0, [1, 2]) (implements_smcFuns exampleModel 100 0) sums_killing
    smallVariance_killing rfl (steps_le exampleModel_le _ _ _) (split key 2 0) (split key 2 1)
  refine this.trans (ENNReal.ofReal_le_ofReal ?_)
  norm_num

end Props
end Fbs
