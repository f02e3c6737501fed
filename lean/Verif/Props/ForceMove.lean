import Verif.Model.ForceMove
import Verif.Lemmas.Law
import Verif.Spec.Resampling
import Verif.Props.Killing
import Mathlib.Analysis.Complex.ExponentialBounds

/-!
# The forced move (C12, C13)
-/

open MeasureTheory
open scoped ENNReal

namespace Fbs
namespace Props

open Jax Spec Gibbs

variable {M : ℕ}

theorem threshold_lt_one (M : ℕ) : forceThreshold M < 1 := by
  unfold forceThreshold
  refine max_lt ?_ (by norm_num)
  linarith [Real.exp_pos (-(M : ℝ))]

theorem one_sub_threshold_le (M : ℕ) : 1 - forceThreshold M ≤ 1e-12 := by
  have := le_max_right (1 - Real.exp (-(M : ℝ))) (1 - 1e-12)
  unfold forceThreshold
  linarith

/-- Probability that `u * d < t` for uniform `u`. -/
noncomputable def accP (d t : ℝ) : ℝ := if t ≤ 0 then 0 else if d ≤ t then 1 else t / d

theorem accP_nonneg {d t : ℝ} : 0 ≤ accP d t := by
  unfold accP
  split_ifs with h1 h2
  · exact le_rfl
  · exact zero_le_one
  · push Not at h1 h2
    exact div_nonneg h1.le (h1.trans h2).le

theorem accP_le_one {d t : ℝ} : accP d t ≤ 1 := by
  unfold accP
  split_ifs with h1 h2
  · exact zero_le_one
  · exact le_rfl
  · push Not at h1 h2
    exact div_le_one_of_le₀ h2.le (h1.trans h2).le

theorem unif_accept {d t : ℝ} (hd : 0 ≤ d) :
    unifMeasure {u | u * d < t} = ENNReal.ofReal (accP d t) := by
  have hm : MeasurableSet {u : ℝ | u * d < t} := measurableSet_lt (by fun_prop) measurable_const
  unfold unifMeasure
  rw [Measure.restrict_apply hm]
  unfold accP
  split_ifs with h1 h2
  · have : {u : ℝ | u * d < t} ∩ Set.Ico 0 1 = ∅ := by
      ext u
      simp only [Set.mem_inter_iff, Set.mem_ofPred_eq, Set.mem_Ico, Set.mem_empty_iff_false, iff_false]
      rintro ⟨h, h0, -⟩
      have := mul_nonneg h0 hd
      linarith
    simp [this]
  · push Not at h1
    have : {u : ℝ | u * d < t} ∩ Set.Ico 0 1 = Set.Ico 0 1 := by
      ext u
      simp only [Set.mem_inter_iff, Set.mem_ofPred_eq, Set.mem_Ico, and_iff_right_iff_imp]
      rintro ⟨h0, hu⟩
      rcases hd.eq_or_lt with h | h
      · rw [← h]; simpa using h1
      · calc u * d < 1 * d := by exact mul_lt_mul_of_pos_right hu h
          _ ≤ t := by simpa using h2
    rw [this]; simp
  · push Not at h1 h2
    have hd' : 0 < d := h1.trans h2
    have : {u : ℝ | u * d < t} ∩ Set.Ico 0 1 = Set.Ico 0 (t / d) := by
      ext u
      simp only [Set.mem_inter_iff, Set.mem_ofPred_eq, Set.mem_Ico]
      rw [lt_div_iff₀ hd']
      constructor
      · rintro ⟨h, h0, -⟩; exact ⟨h0, h⟩
      · rintro ⟨h0, h⟩
        refine ⟨h, h0, ?_⟩
        by_contra hu
        push Not at hu
        have : 1 * d ≤ u * d := mul_le_mul_of_nonneg_right hu hd
        linarith
    rw [this]; simp

theorem restWeights_weights [NeZero M] {w : Fin M → ℝ} (hw : Weights w) (k : Fin M) :
    Weights (restWeights w k) := by
  unfold restWeights
  simp only
  split_ifs with h
  · have hlt : 0 < 1 - w k := by linarith [threshold_lt_one M]
    refine ⟨fun m => div_nonneg ?_ hlt.le, ?_⟩
    · by_cases hm : m = k
      · subst hm; simp [atSet]
      · simp only [atSet, Function.update_of_ne hm]; exact hw.nonneg m
    · rw [← Finset.sum_div]
      have : ∑ m, atSet w k 0 m = 1 - w k := by
        unfold atSet
        rw [Finset.sum_update_of_mem (Finset.mem_univ k), zero_add]
        have := Finset.sum_sdiff_eq_sub (f := w) (Finset.subset_univ ({k} : Finset (Fin M)))
        rw [this, hw.sum_one]; simp
      rw [this, div_self hlt.ne']
  · have hM : (0 : ℝ) < M := by exact_mod_cast Nat.pos_of_ne_zero (NeZero.ne M)
    refine ⟨fun m => by positivity, ?_⟩
    simp [hM.ne']

/-- Proposal times acceptance probability of a move from `k` to `i`. -/
noncomputable def moveP (w : Fin M → ℝ) (k i : Fin M) : ℝ :=
  restWeights w k i * accP (1 - w i) (1 - w k)

theorem Weights.le_one {w : Fin M → ℝ} (hw : Weights w) (i : Fin M) : w i ≤ 1 := by
  rw [← hw.sum_one]
  exact Finset.single_le_sum (fun j _ => hw.nonneg j) (Finset.mem_univ i)

theorem moveP_nonneg [NeZero M] {w : Fin M → ℝ} (hw : Weights w) (k i : Fin M) : 0 ≤ moveP w k i :=
  mul_nonneg ((restWeights_weights hw k).nonneg i) accP_nonneg

theorem sum_moveP_le [NeZero M] {w : Fin M → ℝ} (hw : Weights w) (k : Fin M) :
    ∑ i, moveP w k i ≤ 1 := by
  rw [← (restWeights_weights hw k).sum_one]
  refine Finset.sum_le_sum fun i _ => ?_
  exact mul_le_of_le_one_right ((restWeights_weights hw k).nonneg i) accP_le_one

/-- The law of the index returned by `force_move`. -/
theorem E_forceMove [NeZero M] {w : Fin M → ℝ} (hw : Weights w) (key : Key) (k : Fin M)
    (F : Fin M → ℝ≥0∞) :
    (forceMove key w k).E (fun r => F r.1)
      = ∑ i, ENNReal.ofReal (moveP w k i) * F i + ENNReal.ofReal (1 - ∑ i, moveP w k i) * F k := by
  have hr := restWeights_weights hw k
  have h1 : ∀ i, (uniform (split key 2 1)).E
      (fun u => F (open scoped Classical in if u * (1 - w i) < 1 - w k then i else k))
      = ENNReal.ofReal (accP (1 - w i) (1 - w k)) * F i
        + ENNReal.ofReal (1 - accP (1 - w i) (1 - w k)) * F k := by
    intro i
    have hm : MeasurableSet {u : ℝ | u * (1 - w i) < 1 - w k} :=
      measurableSet_lt (by fun_prop) measurable_const
    have hd : 0 ≤ 1 - w i := by linarith [Weights.le_one hw i]
    unfold uniform
    rw [Rand.E_sample]
    have hf : ∀ u : ℝ, F (open scoped Classical in if u * (1 - w i) < 1 - w k then i else k)
        = {u : ℝ | u * (1 - w i) < 1 - w k}.indicator (fun _ => F i) u
          + {u : ℝ | u * (1 - w i) < 1 - w k}ᶜ.indicator (fun _ => F k) u := by
      intro u
      by_cases h : u * (1 - w i) < 1 - w k
      · simp [h]
      · simp [h]
    rw [lintegral_congr hf, lintegral_add_left (measurable_const.indicator hm),
      lintegral_indicator_const hm, lintegral_indicator_const hm.compl, prob_compl_eq_one_sub hm,
      unif_accept hd, ENNReal.ofReal_sub _ accP_nonneg, ENNReal.ofReal_one]
    ring
  have h2 : (forceMove key w k).E (fun r => F r.1)
      = (choice (split key 2 0) (restWeights w k)).E (fun i => (uniform (split key 2 1)).E
        (fun u => F (open scoped Classical in if u * (1 - w i) < 1 - w k then i else k))) := by
    simp only [forceMove, Rand.E_bind, Rand.pure_eq, Rand.E_ret]
  rw [h2]
  simp only [h1]
  rw [E_choice hr.nonneg (Weights.total_pos hr)]
  simp only [cat_normalised hr, mul_add, ← mul_assoc, Finset.sum_add_distrib]
  congr 1
  · refine Finset.sum_congr rfl fun i _ => ?_
    rw [moveP, ENNReal.ofReal_mul (hr.nonneg i)]
  · rw [← Finset.sum_mul]
    congr 1
    simp only [← ENNReal.ofReal_mul (hr.nonneg _)]
    rw [← ENNReal.ofReal_sum_of_nonneg]
    · congr 1
      have : (1 : ℝ) - ∑ i, moveP w k i = ∑ i, restWeights w k i - ∑ i, moveP w k i := by
        rw [hr.sum_one]
      rw [this, ← Finset.sum_sub_distrib]
      refine Finset.sum_congr rfl fun i _ => ?_
      rw [moveP]; ring
    · intro i _
      exact mul_nonneg (hr.nonneg i) (by linarith [accP_le_one (d := 1 - w i) (t := 1 - w k)])

/-- The weights stay away from the numerically degenerate branch. -/
def Regular (w : Fin M → ℝ) : Prop := ∀ k, w k < forceThreshold M ∨ w k = 1

theorem moveP_of_lt {w : Fin M → ℝ} {k i : Fin M} (hk : w k < forceThreshold M) (hik : i ≠ k) :
    moveP w k i = w i / (1 - w k) * accP (1 - w i) (1 - w k) := by
  unfold moveP restWeights
  simp only [if_pos hk, atSet, Function.update_of_ne hik]

theorem moveP_self_of_lt {w : Fin M → ℝ} {k : Fin M} (hk : w k < forceThreshold M) :
    moveP w k k = 0 := by
  unfold moveP restWeights
  simp only [if_pos hk, atSet, Function.update_self, zero_div, zero_mul]

theorem moveP_of_not_lt {w : Fin M → ℝ} {k i : Fin M} (hk : ¬ w k < forceThreshold M) :
    moveP w k i = 1 / (M : ℝ) * accP (1 - w i) (1 - w k) := by
  unfold moveP restWeights
  simp only [if_neg hk]

theorem moveP_of_one {w : Fin M → ℝ} {k i : Fin M} (hk : w k = 1) : moveP w k i = 0 := by
  unfold moveP accP
  simp [hk]

theorem Weights.eq_zero_of_one {w : Fin M → ℝ} (hw : Weights w) {k i : Fin M} (hk : w k = 1) (h : i ≠ k) :
    w i = 0 := by
  have h1 : w k + w i ≤ ∑ j, w j := by
    rw [← Finset.sum_pair (f := w) h.symm]
    exact Finset.sum_le_sum_of_subset_of_nonneg (Finset.subset_univ _) fun j _ _ => hw.nonneg j
  rw [hw.sum_one, hk] at h1
  linarith [hw.nonneg i]

theorem flow_symm_of_lt {w : Fin M → ℝ} {k i : Fin M} (hk : w k < forceThreshold M)
    (hi : w i < forceThreshold M) : w k * moveP w k i = w i * moveP w i k := by
  by_cases h : i = k
  · subst h; rfl
  have hk' : 0 < 1 - w k := by linarith [threshold_lt_one M]
  have hi' : 0 < 1 - w i := by linarith [threshold_lt_one M]
  rw [moveP_of_lt hk h, moveP_of_lt hi (Ne.symm h)]
  unfold accP
  rw [if_neg (not_le.2 hk'), if_neg (not_le.2 hi')]
  by_cases h1 : 1 - w i ≤ 1 - w k
  · rw [if_pos h1]
    by_cases h2 : 1 - w k ≤ 1 - w i
    · rw [if_pos h2, le_antisymm h1 h2]; field_simp
    · rw [if_neg h2]; field_simp
  · rw [if_neg h1, if_pos (le_of_not_ge h1)]
    field_simp

theorem flow_symm [NeZero M] {w : Fin M → ℝ} (hw : Weights w) (hr : Regular w) (k i : Fin M) :
    w k * moveP w k i = w i * moveP w i k := by
  by_cases h : i = k
  · subst h; rfl
  rcases hr k with hk | hk
  · rcases hr i with hi | hi
    · exact flow_symm_of_lt hk hi
    · rw [moveP_of_one hi, Weights.eq_zero_of_one hw hi (Ne.symm h)]; simp
  · rw [moveP_of_one hk, Weights.eq_zero_of_one hw hk h]; simp

/-- **C12 (detailed balance).** With `k ~ Cat(w)` and `i` returned by `force_move(key, w, k)`, the
pairs `(k, i)` and `(i, k)` have the same law. -/
theorem C12_force_move_reversible [NeZero M] {w : Fin M → ℝ} (hw : Weights w) (hr : Regular w)
    (key : Key) (H : Fin M → Fin M → ℝ≥0∞) :
    ∑ k, ENNReal.ofReal (w k) * (forceMove key w k).E (fun r => H k r.1)
      = ∑ k, ENNReal.ofReal (w k) * (forceMove key w k).E (fun r => H r.1 k) := by
  have h1 : ∀ H : Fin M → Fin M → ℝ≥0∞,
      ∑ k, ENNReal.ofReal (w k) * (forceMove key w k).E (fun r => H k r.1)
        = ∑ k, ∑ i, ENNReal.ofReal (w k * moveP w k i) * H k i
          + ∑ k, ENNReal.ofReal (w k) * (ENNReal.ofReal (1 - ∑ i, moveP w k i) * H k k) := by
    intro H
    rw [← Finset.sum_add_distrib]
    refine Finset.sum_congr rfl fun k _ => ?_
    rw [E_forceMove hw key k (fun i => H k i), mul_add, Finset.mul_sum]
    congr 1
    refine Finset.sum_congr rfl fun i _ => ?_
    rw [ENNReal.ofReal_mul (hw.nonneg k), mul_assoc]
  rw [h1 H, h1 (fun a b => H b a), Finset.sum_comm]
  congr 1
  refine Finset.sum_congr rfl fun k _ => Finset.sum_congr rfl fun i _ => ?_
  rw [flow_symm hw hr]

theorem prob_forceMove [NeZero M] (key : Key) (w : Fin M → ℝ) (k : Fin M) : (forceMove key w k).IsProb := by
  unfold forceMove choice uniform
  refine Rand.IsProb.bind ?_ fun i => Rand.IsProb.bind ?_ fun u => trivial
  · exact Rand.IsProb.bind ⟨inferInstance, fun _ => trivial⟩ fun _ => trivial
  · exact ⟨inferInstance, fun _ => trivial⟩

/-- **C12 (invariance).** If `k ~ Cat(w)` then the index returned by `force_move` is again `Cat(w)`. -/
theorem C12_force_move_invariant [NeZero M] {w : Fin M → ℝ} (hw : Weights w) (hr : Regular w)
    (key : Key) (F : Fin M → ℝ≥0∞) :
    ∑ k, ENNReal.ofReal (w k) * (forceMove key w k).E (fun r => F r.1)
      = ∑ k, ENNReal.ofReal (w k) * F k := by
  rw [C12_force_move_reversible hw hr key (fun _ i => F i)]
  refine Finset.sum_congr rfl fun k _ => ?_
  rw [Rand.E_const (prob_forceMove key w k)]

/-- **C12 (degenerate weight).** If the reference has weight one it is kept, whatever the draws. -/
theorem C12_force_move_keeps_certain [NeZero M] {w : Fin M → ℝ} (hw : Weights w) (key : Key) {k : Fin M}
    (hk : w k = 1) {r : Fin M × ℝ} (h : (forceMove key w k).Returns r) : r.1 = k := by
  simp only [forceMove, Rand.returns_bind, Rand.pure_eq, Rand.returns_ret] at h
  obtain ⟨i, -, u, hu, rfl⟩ := h
  have hu' : u ∈ Set.Ico (0 : ℝ) 1 := Rand.returns_sample.1 hu
  have : ¬ u * (1 - w i) < 1 - w k := by
    rw [hk]
    have := mul_nonneg hu'.1 (show 0 ≤ 1 - w i by linarith [Weights.le_one hw i])
    linarith
  simp [this]

theorem flow_out_le [NeZero M] {w : Fin M → ℝ} (hw : Weights w) {k : Fin M}
    (hk : ¬ w k < forceThreshold M) {i : Fin M} (hik : i ≠ k) :
    w k * moveP w k i ≤ (1 - w k) / M := by
  have hM : (0 : ℝ) < M := by exact_mod_cast Nat.pos_of_ne_zero (NeZero.ne M)
  have hk1 := Weights.le_one hw k
  have hsum : w k + w i ≤ 1 := by
    rw [← Finset.sum_pair (f := w) (Ne.symm hik), ← hw.sum_one]
    exact Finset.sum_le_sum_of_subset_of_nonneg (Finset.subset_univ _) fun j _ _ => hw.nonneg j
  have hacc : w k * accP (1 - w i) (1 - w k) ≤ 1 - w k := by
    unfold accP
    split_ifs with h1 h2
    · simp; linarith
    · linarith
    · push Not at h1 h2
      rw [mul_div_assoc', div_le_iff₀ (h1.trans h2)]
      nlinarith
  unfold moveP restWeights
  simp only [if_neg hk]
  calc w k * (1 / (M : ℝ) * accP (1 - w i) (1 - w k))
      = (w k * accP (1 - w i) (1 - w k)) / M := by ring
    _ ≤ (1 - w k) / M := by gcongr

/-- **C12 (all weights).** Including the numerically degenerate branch the law of the returned index
differs from `w` by at most `1e-12` at every index. -/
theorem C12_force_move_near_invariant_partial [NeZero M] {w : Fin M → ℝ} (hw : Weights w) (key : Key)
    (i : Fin M) :
    let p := ∑ k, ENNReal.ofReal (w k) * (forceMove key w k).E (fun r => if r.1 = i then 1 else 0)
    p ≤ ENNReal.ofReal (w i) + ENNReal.ofReal 1e-12 ∧ ENNReal.ofReal (w i) ≤ p + ENNReal.ofReal 1e-12 := by
  have hM : (0 : ℝ) < M := by exact_mod_cast Nat.pos_of_ne_zero (NeZero.ne M)
  intro p
  have hmn := fun a b => moveP_nonneg hw a b
  have hp : p = ENNReal.ofReal (∑ k, w k * moveP w k i + w i * (1 - ∑ j, moveP w i j)) := by
    have h1 : ∀ k, ENNReal.ofReal (w k) * (forceMove key w k).E (fun r => if r.1 = i then 1 else 0)
        = ENNReal.ofReal (w k * moveP w k i + if k = i then w k * (1 - ∑ j, moveP w k j) else 0) := by
      intro k
      rw [E_forceMove hw key k (fun a => if a = i then 1 else 0), ENNReal.ofReal_add, ENNReal.ofReal_mul (hw.nonneg k), mul_add]
      · congr 1
        · simp
        · split_ifs with h
          · rw [ENNReal.ofReal_mul (hw.nonneg k), mul_one]
          · simp
      · exact mul_nonneg (hw.nonneg k) (hmn k i)
      · split_ifs with h
        · exact mul_nonneg (hw.nonneg k) (by linarith [sum_moveP_le hw k])
        · exact le_rfl
    have hnn : ∀ k, 0 ≤ w k * moveP w k i + if k = i then w k * (1 - ∑ j, moveP w k j) else 0 := by
      intro k
      refine add_nonneg (mul_nonneg (hw.nonneg k) (hmn k i)) ?_
      split_ifs with h
      · exact mul_nonneg (hw.nonneg k) (by linarith [sum_moveP_le hw k])
      · exact le_rfl
    show ∑ k, _ = _
    rw [Finset.sum_congr rfl fun k _ => h1 k, ← ENNReal.ofReal_sum_of_nonneg fun k _ => hnn k,
      Finset.sum_add_distrib]
    congr 2
    simp
  -- the real difference
  have hdiff : |∑ k, (w k * moveP w k i - w i * moveP w i k)| ≤ 1e-12 := by
    by_cases hr : ∀ k, w k < forceThreshold M
    · have : ∑ k, (w k * moveP w k i - w i * moveP w i k) = 0 :=
        Finset.sum_eq_zero fun k _ => by rw [flow_symm_of_lt (hr k) (hr i), sub_self]
      rw [this]; norm_num
    · push Not at hr
      obtain ⟨k₀, hk₀⟩ := hr
      have heps : 1 - w k₀ ≤ 1e-12 := by linarith [one_sub_threshold_le M]
      have hothers : ∑ k ∈ Finset.univ.erase k₀, w k = 1 - w k₀ := by
        rw [← hw.sum_one, ← Finset.add_sum_erase _ _ (Finset.mem_univ k₀)]; ring
      have hsmall : ∀ k, k ≠ k₀ → w k ≤ 1 - w k₀ := fun k hk => by
        rw [← hothers]
        exact Finset.single_le_sum (fun j _ => hw.nonneg j) (Finset.mem_erase.2 ⟨hk, Finset.mem_univ k⟩)
      have hreg : ∀ k, k ≠ k₀ → w k < forceThreshold M := fun k hk => by
        have h2 : (1 : ℝ) - 1e-12 ≤ forceThreshold M := le_max_right _ _
        have := hsmall k hk
        have h3 : (1e-12 : ℝ) < 1 - 1e-12 := by norm_num
        linarith
      have hin : ∀ k, w k * moveP w k k₀ ≤ w k := fun k =>
        mul_le_of_le_one_right (hw.nonneg k) ((Finset.single_le_sum (fun j _ => hmn k j)
          (Finset.mem_univ k₀)).trans (sum_moveP_le hw k))
      by_cases hi : i = k₀
      · subst hi
        rw [← Finset.add_sum_erase _ _ (Finset.mem_univ i), sub_self, zero_add, Finset.sum_sub_distrib]
        have hA0 : 0 ≤ ∑ k ∈ Finset.univ.erase i, w k * moveP w k i :=
          Finset.sum_nonneg fun k _ => mul_nonneg (hw.nonneg k) (hmn k i)
        have hA1 : ∑ k ∈ Finset.univ.erase i, w k * moveP w k i ≤ 1 - w i := by
          rw [← hothers]; exact Finset.sum_le_sum fun k _ => hin k
        have hB0 : 0 ≤ ∑ k ∈ Finset.univ.erase i, w i * moveP w i k :=
          Finset.sum_nonneg fun k _ => mul_nonneg (hw.nonneg i) (hmn i k)
        have hB1 : ∑ k ∈ Finset.univ.erase i, w i * moveP w i k ≤ 1 - w i := by
          calc ∑ k ∈ Finset.univ.erase i, w i * moveP w i k
              ≤ ∑ k ∈ Finset.univ.erase i, (1 - w i) / M :=
                Finset.sum_le_sum fun k hk => flow_out_le hw (not_lt.2 hk₀) (Finset.ne_of_mem_erase hk)
            _ ≤ ∑ _k : Fin M, (1 - w i) / M :=
                Finset.sum_le_sum_of_subset_of_nonneg (Finset.erase_subset _ _) fun _ _ _ =>
                  div_nonneg (by linarith [Weights.le_one hw i]) hM.le
            _ = 1 - w i := by
                rw [Finset.sum_const, Finset.card_univ, Fintype.card_fin, nsmul_eq_mul]
                field_simp
        rw [abs_le]; constructor <;> linarith
      · rw [Finset.sum_eq_single k₀]
        · have hA0 : 0 ≤ w k₀ * moveP w k₀ i := mul_nonneg (hw.nonneg _) (hmn _ _)
          have hA1 : w k₀ * moveP w k₀ i ≤ 1 - w k₀ := by
            refine (flow_out_le hw (not_lt.2 hk₀) hi).trans ?_
            refine div_le_self (by linarith [Weights.le_one hw k₀]) ?_
            exact_mod_cast Nat.one_le_iff_ne_zero.2 (NeZero.ne M)
          have hB0 : 0 ≤ w i * moveP w i k₀ := mul_nonneg (hw.nonneg _) (hmn _ _)
          have hB1 : w i * moveP w i k₀ ≤ 1 - w k₀ := (hin i).trans (hsmall i hi)
          rw [abs_le]; constructor <;> linarith
        · intro k _ hk
          rw [flow_symm_of_lt (hreg k hk) (hreg i hi), sub_self]
        · simp
  have heq : ∑ k, w k * moveP w k i + w i * (1 - ∑ j, moveP w i j)
      = w i + ∑ k, (w k * moveP w k i - w i * moveP w i k) := by
    rw [Finset.sum_sub_distrib, ← Finset.mul_sum]; ring
  rw [hp, heq]
  rw [abs_le] at hdiff
  rw [← ENNReal.ofReal_add (hw.nonneg i) (by norm_num)]
  refine ⟨ENNReal.ofReal_le_ofReal (by linarith), ?_⟩
  refine (ENNReal.ofReal_le_ofReal ?_).trans ENNReal.ofReal_add_le
  linarith

/-- **C12 (finding).** In the degenerate branch the returned index is not distributed according to
the weights: already for two particles with weights `(1 - 1e-13, 1e-13)`. -/
theorem C12_degenerate_not_invariant (key : Key) :
    ∃ w : Fin 2 → ℝ, Weights w ∧ ∃ F : Fin 2 → ℝ≥0∞,
      ∑ k, ENNReal.ofReal (w k) * (forceMove key w k).E (fun r => F r.1)
        ≠ ∑ k, ENNReal.ofReal (w k) * F k := by
  have hw : Weights ![(1 - 1e-13 : ℝ), 1e-13] := by
    constructor
    · intro i; fin_cases i <;> norm_num
    · simp
  refine ⟨_, hw, ![0, 1], ?_⟩
  have ht1 : ¬ ((1 : ℝ) - 1e-13 < forceThreshold 2) := by
    rw [not_lt]
    unfold forceThreshold
    refine max_le ?_ (by norm_num)
    have h1 : Real.exp (-((2 : ℕ) : ℝ)) ≥ 1e-13 := by
      have h2 : Real.exp 1 ≤ 3 := by linarith [Real.exp_one_lt_d9]
      have h3 : Real.exp (-((2 : ℕ) : ℝ)) = (Real.exp 1 ^ 2)⁻¹ := by
        rw [Real.exp_neg, ← Real.exp_nat_mul]; norm_num
      rw [h3]
      have h4 : Real.exp 1 ^ 2 ≤ 9 := by nlinarith [Real.exp_pos 1]
      calc (1e-13 : ℝ) ≤ 9⁻¹ := by norm_num
        _ ≤ (Real.exp 1 ^ 2)⁻¹ := by gcongr
    linarith
  have ht2 : (1e-13 : ℝ) < forceThreshold 2 :=
    lt_of_lt_of_le (by norm_num) (le_max_right _ _)
  have m01 : moveP ![(1 - 1e-13 : ℝ), 1e-13] 0 1 = 1 / 2 * (1e-13 / (1 - 1e-13)) := by
    rw [moveP_of_not_lt (by simpa using ht1)]
    unfold accP
    norm_num
  have m00 : moveP ![(1 - 1e-13 : ℝ), 1e-13] 0 0 = 1 / 2 := by
    rw [moveP_of_not_lt (by simpa using ht1)]
    unfold accP
    norm_num
  have m11 : moveP ![(1 - 1e-13 : ℝ), 1e-13] 1 1 = 0 := by
    exact moveP_self_of_lt (by simpa using ht2)
  have m10 : moveP ![(1 - 1e-13 : ℝ), 1e-13] 1 0 = 1 := by
    rw [moveP_of_lt (by simpa using ht2) (by decide)]
    unfold accP
    norm_num
  have e0 := E_forceMove hw key 0 ![0, 1]
  have e1 := E_forceMove hw key 1 ![0, 1]
  rw [Fin.sum_univ_two, Fin.sum_univ_two, e0, e1]
  simp only [Fin.sum_univ_two, m01, m00, m11, m10, Matrix.cons_val_zero, Matrix.cons_val_one, mul_zero,
    mul_one, zero_add, add_zero]
  norm_num
  rw [← ENNReal.ofReal_mul (by norm_num)]
  intro h
  rw [ENNReal.ofReal_eq_ofReal_iff (by norm_num) (by norm_num)] at h
  norm_num at h

/-! ### C13: the reported acceptance value -/

theorem ereal_coe_sum {ι : Type} (T : Finset ι) (f : ι → ℝ) :
    ((∑ i ∈ T, f i : ℝ) : EReal) = ∑ i ∈ T, (f i : EReal) := by
  classical
  induction T using Finset.induction_on with
  | empty => simp
  | insert a T ha ih => rw [Finset.sum_insert ha, Finset.sum_insert ha, EReal.coe_add, ih]

theorem forceAlpha_eq {w : Fin M → ℝ} (k : Fin M) (hlt : ∀ m, w m < 1) :
    forceAlpha w k = min 1 (max 0 (∑ m, (1 - w k) * restWeights w k m / (1 - w m))) := by
  have h : ∀ m, nanDiv ((1 - w k) * restWeights w k m) (1 - w m)
      = (((1 - w k) * restWeights w k m / (1 - w m) : ℝ) : EReal) := by
    intro m
    unfold nanDiv
    rw [if_neg (by linarith [hlt m])]
  unfold forceAlpha
  simp only [h]
  rw [← ereal_coe_sum]
  have : min (1 : EReal) (max 0 ((∑ m, (1 - w k) * restWeights w k m / (1 - w m) : ℝ) : EReal))
      = ((min 1 (max 0 (∑ m, (1 - w k) * restWeights w k m / (1 - w m))) : ℝ) : EReal) := by
    rw [EReal.coe_strictMono.monotone.map_min, EReal.coe_strictMono.monotone.map_max]; rfl
  rw [this, EReal.toReal_coe]

theorem accP_le_div {d t : ℝ} (hd : 0 < d) (ht : 0 ≤ t) : accP d t ≤ t / d := by
  unfold accP
  split_ifs with h1 h2
  · positivity
  · rw [le_div_iff₀ hd]; linarith
  · exact le_rfl

theorem prob_moved [NeZero M] {w : Fin M → ℝ} (hw : Weights w) (key : Key) (k : Fin M) :
    (forceMove key w k).E (fun r => if r.1 = k then 0 else 1)
      = ENNReal.ofReal (∑ i ∈ Finset.univ.erase k, moveP w k i) := by
  rw [E_forceMove hw key k (fun i => if i = k then 0 else 1)]
  simp only [if_true, mul_zero, add_zero]
  rw [ENNReal.ofReal_sum_of_nonneg fun i _ => moveP_nonneg hw k i,
    ← Finset.add_sum_erase _ _ (Finset.mem_univ k)]
  simp only [if_true, mul_zero, zero_add]
  refine Finset.sum_congr rfl fun i hi => ?_
  rw [if_neg (Finset.ne_of_mem_erase hi), mul_one]

theorem alpha_ge_moved [NeZero M] {w : Fin M → ℝ} (hw : Weights w) (k : Fin M) :
    ∑ i ∈ Finset.univ.erase k, moveP w k i ≤ forceAlpha w k := by
  have hr := restWeights_weights hw k
  have hle1 : ∑ i ∈ Finset.univ.erase k, moveP w k i ≤ 1 :=
    (Finset.sum_le_sum_of_subset_of_nonneg (Finset.erase_subset _ _)
      fun i _ _ => moveP_nonneg hw k i).trans (sum_moveP_le hw k)
  by_cases hlt : ∀ m, w m < 1
  · rw [forceAlpha_eq k hlt]
    refine le_min hle1 (le_max_of_le_right ?_)
    calc ∑ i ∈ Finset.univ.erase k, moveP w k i ≤ ∑ i, moveP w k i :=
          Finset.sum_le_sum_of_subset_of_nonneg (Finset.erase_subset _ _)
            fun i _ _ => moveP_nonneg hw k i
      _ ≤ _ := by
          refine Finset.sum_le_sum fun i _ => ?_
          unfold moveP
          rw [mul_comm (1 - w k), mul_div_assoc]
          exact mul_le_mul_of_nonneg_left (accP_le_div (by linarith [hlt i]) (by linarith [hlt k])) (hr.nonneg i)
  · push Not at hlt
    obtain ⟨m, hm⟩ := hlt
    have hm1 : w m = 1 := le_antisymm (Weights.le_one hw m) hm
    by_cases hkm : k = m
    · subst hkm
      have : ∑ i ∈ Finset.univ.erase k, moveP w k i = 0 :=
        Finset.sum_eq_zero fun i _ => moveP_of_one hm1
      rw [this]
      unfold forceAlpha
      refine EReal.toReal_nonneg (le_min zero_le_one (le_max_left _ _))
    · have hk0 : w k = 0 := Weights.eq_zero_of_one hw hm1 hkm
      have hth : (0 : ℝ) < forceThreshold M := lt_of_lt_of_le (by norm_num) (le_max_right _ _)
      have hnn : ∀ i, 0 ≤ nanDiv ((1 - w k) * restWeights w k i) (1 - w i) := by
        intro i
        have h1 : 0 ≤ (1 - w k) * restWeights w k i :=
          mul_nonneg (by linarith [Weights.le_one hw k]) (hr.nonneg i)
        unfold nanDiv
        split_ifs with h2 h3 h4
        · exact le_rfl
        · exact le_top
        · exact absurd (lt_of_le_of_ne h1 (Ne.symm h3)) h4
        · exact EReal.coe_nonneg.2 (div_nonneg h1 (by linarith [Weights.le_one hw i]))
      have hterm : nanDiv ((1 - w k) * restWeights w k m) (1 - w m) = ⊤ := by
        unfold nanDiv restWeights
        simp only [hk0, if_pos hth, atSet, Function.update_of_ne (Ne.symm hkm), hm1]
        norm_num
      have hsum : ∑ i, nanDiv ((1 - w k) * restWeights w k i) (1 - w i) = ⊤ := by
        refine top_le_iff.1 ?_
        rw [← hterm]
        exact Finset.single_le_sum (f := fun i => nanDiv ((1 - w k) * restWeights w k i) (1 - w i))
          (fun i _ => hnn i) (Finset.mem_univ m)
      unfold forceAlpha
      rw [hsum]
      simpa using hle1

theorem returns_alpha [NeZero M] {w : Fin M → ℝ} {key : Key} {k : Fin M} {r : Fin M × ℝ}
    (h : (forceMove key w k).Returns r) : r.2 = forceAlpha w k := by
  simp only [forceMove, Rand.returns_bind, Rand.pure_eq, Rand.returns_ret] at h
  obtain ⟨i, -, u, -, rfl⟩ := h
  rfl

/-- **C13 (what holds).** The reported value is an upper bound of the probability of moving away. -/
theorem C13_alpha_upper_bound_partial [NeZero M] {w : Fin M → ℝ} (hw : Weights w) (key key' : Key)
    (k : Fin M) {r : Fin M × ℝ} (h : (forceMove key w k).Returns r) :
    (forceMove key' w k).E (fun r => if r.1 = k then 0 else 1) ≤ ENNReal.ofReal r.2 ∧ 0 ≤ r.2 ∧ r.2 ≤ 1 := by
  rw [returns_alpha h, prob_moved hw]
  have h1 := alpha_ge_moved hw k
  refine ⟨ENNReal.ofReal_le_ofReal h1, ?_, ?_⟩
  · exact (Finset.sum_nonneg fun i _ => moveP_nonneg hw k i).trans h1
  · unfold forceAlpha
    have : min (1 : EReal) (max 0 (∑ m, nanDiv ((1 - w k) * restWeights w k m) (1 - w m))) ≤ 1 := min_le_left _ _
    have h2 := EReal.toReal_le_toReal this (ne_of_gt (lt_of_lt_of_le EReal.bot_lt_zero
      (le_min zero_le_one (le_max_left _ _)))) (by simpa using EReal.coe_ne_top 1)
    simpa using h2

/-- **C13 (what holds).** It is exact when the reference has the largest or the smallest weight. -/
theorem C13_alpha_exact_partial [NeZero M] {w : Fin M → ℝ} (hw : Weights w) (key key' : Key)
    {k : Fin M} (hk : w k < forceThreshold M)
    (hord : (∀ i, w i ≤ w k) ∨ (∀ i, w k ≤ w i)) {r : Fin M × ℝ} (h : (forceMove key w k).Returns r) :
    (forceMove key' w k).E (fun r => if r.1 = k then 0 else 1) = ENNReal.ofReal r.2 := by
  have hr := restWeights_weights hw k
  have hk1 : 0 < 1 - w k := by linarith [threshold_lt_one M]
  have hrk : restWeights w k k = 0 := by
    unfold restWeights; simp [if_pos hk, atSet]
  rw [returns_alpha h, prob_moved hw]
  congr 1
  rcases hord with hmax | hmin
  · have hlt : ∀ m, w m < 1 := fun m => by linarith [hmax m]
    have hsum : ∑ m, (1 - w k) * restWeights w k m / (1 - w m) = ∑ m, moveP w k m := by
      refine Finset.sum_congr rfl fun i _ => ?_
      unfold moveP accP
      rw [if_neg (not_le.2 hk1)]
      by_cases h1 : 1 - w i ≤ 1 - w k
      · have : w i = w k := le_antisymm (hmax i) (by linarith)
        rw [if_pos h1, this]; field_simp
      · rw [if_neg h1]; ring
    have hself : ∑ m, moveP w k m = ∑ i ∈ Finset.univ.erase k, moveP w k i := by
      rw [← Finset.add_sum_erase _ _ (Finset.mem_univ k), moveP_self_of_lt hk, zero_add]
    rw [forceAlpha_eq k hlt, hsum, max_eq_right (Finset.sum_nonneg fun i _ => moveP_nonneg hw k i),
      min_eq_right (sum_moveP_le hw k), hself]
  · have h1 : ∑ i ∈ Finset.univ.erase k, moveP w k i = 1 := by
      have : ∀ i, moveP w k i = restWeights w k i := by
        intro i
        unfold moveP accP
        rw [if_neg (not_le.2 hk1), if_pos (by linarith [hmin i]), mul_one]
      simp only [this]
      have h2 := Finset.add_sum_erase Finset.univ (restWeights w k) (Finset.mem_univ k)
      rw [hrk, zero_add, hr.sum_one] at h2
      exact h2
    have h2 := alpha_ge_moved hw k
    have h3 := (C13_alpha_upper_bound_partial hw key key' k h).2.2
    rw [returns_alpha h] at h3
    rw [h1] at h2 ⊢
    exact le_antisymm h2 h3

/-- **C13 (finding).** The reported value is in general not the acceptance probability: with weights
`(0.1, 0.3, 0.6)` and reference `1` it is one, but the reference is kept with positive probability. -/
theorem C13_alpha_wrong (key key' : Key) : ∃ (w : Fin 3 → ℝ) (k : Fin 3), Weights w ∧ Regular w ∧
    ∀ r, (forceMove key w k).Returns r →
      r.2 = 1 ∧ (forceMove key' w k).E (fun r => if r.1 = k then 0 else 1) < 1 := by
  have hw : Weights ![(1/10 : ℝ), 3/10, 6/10] := by
    constructor
    · intro i; fin_cases i <;> norm_num
    · simp [Fin.sum_univ_three]; norm_num
  have hth : (6/10 : ℝ) < forceThreshold 3 := lt_of_lt_of_le (by norm_num) (le_max_right _ _)
  have hlt : ∀ i, ![(1/10 : ℝ), 3/10, 6/10] i < forceThreshold 3 := by
    intro i
    refine lt_of_le_of_lt ?_ hth
    fin_cases i <;> norm_num
  refine ⟨_, 1, hw, fun k => Or.inl (hlt k), ?_⟩
  intro r h
  have hre : ∀ i, i ≠ (1 : Fin 3) → restWeights ![(1/10 : ℝ), 3/10, 6/10] 1 i
      = ![(1/10 : ℝ), 3/10, 6/10] i / (7/10) := by
    intro i hi
    have h1 := hlt 1
    unfold restWeights
    simp only [if_pos h1, atSet, Function.update_of_ne hi]
    norm_num
  constructor
  · rw [returns_alpha h, forceAlpha_eq 1 fun m => (hlt m).trans (threshold_lt_one 3)]
    refine min_eq_left (le_max_of_le_right ?_)
    have hnn : ∀ i, 0 ≤ restWeights ![(1/10 : ℝ), 3/10, 6/10] 1 i := (restWeights_weights hw 1).nonneg
    rw [Fin.sum_univ_three, hre 0 (by decide), hre 2 (by decide)]
    have := hnn 1
    simp only [Matrix.cons_val_zero, Matrix.cons_val_one, Matrix.cons_val]
    have h2 : 0 ≤ (1 - 3 / 10) * restWeights ![(1/10 : ℝ), 3/10, 6/10] 1 1 / (1 - 3/10 : ℝ) := by
      apply div_nonneg (mul_nonneg _ this) <;> norm_num
    norm_num at h2 ⊢
    linarith
  · rw [prob_moved hw, ENNReal.ofReal_lt_one]
    have : (Finset.univ.erase (1 : Fin 3)) = {0, 2} := by decide
    rw [this, Finset.sum_pair (by decide), moveP_of_lt (hlt 1) (by decide),
      moveP_of_lt (hlt 1) (by decide)]
    have h2 : ![(1/10 : ℝ), 3/10, 6/10] 2 = 6/10 := rfl
    rw [h2]
    unfold accP
    norm_num

/-! ### Concrete cases -/

example (key : Key) (F : Fin 3 → ℝ≥0∞) :
    ∑ k, ENNReal.ofReal (![(1/10 : ℝ), 3/10, 6/10] k) *
        (forceMove key ![(1/10 : ℝ), 3/10, 6/10] k).E (fun r => F r.1)
      = ∑ k, ENNReal.ofReal (![(1/10 : ℝ), 3/10, 6/10] k) * F k := by
  refine C12_force_move_invariant ⟨?_, ?_⟩ ?_ key F
  · intro i; fin_cases i <;> norm_num
  · simp [Fin.sum_univ_three]; norm_num
  · intro i
    refine Or.inl (lt_of_le_of_lt (b := (6/10 : ℝ)) ?_ (lt_of_lt_of_le (by norm_num) (le_max_right _ _)))
    fin_cases i <;> norm_num

end Props
end Fbs
