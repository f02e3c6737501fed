import Verif.Props.ForceMove

/-!
# C13: when the reported acceptance value of the forced move is right
-/

open MeasureTheory
open scoped ENNReal

namespace Fbs
namespace Props

open Jax Spec Gibbs

variable {M : ℕ}

theorem moveP_eq_max [NeZero M] {w : Fin M → ℝ} {k i : Fin M} (hk : w k < forceThreshold M) (hik : i ≠ k) :
    moveP w k i = w i / max (1 - w k) (1 - w i) := by
  have hk1 : 0 < 1 - w k := by linarith [threshold_lt_one M]
  rw [moveP_of_lt hk hik]
  unfold accP
  rw [if_neg (not_le.2 hk1)]
  split_ifs with h
  · rw [max_eq_left h, mul_one]
  · push Not at h
    rw [max_eq_right h.le]
    have : 0 < 1 - w i := hk1.trans h
    field_simp

/-- **C13, the acceptance probability.** The probability that the forced move leaves the reference `k`: particle
`i` is reached with probability `w_i / max(1 - w_k, 1 - w_i)`. -/
theorem C13_acceptance [NeZero M] {w : Fin M → ℝ} (hw : Weights w) (key : Key) {k : Fin M}
    (hk : w k < forceThreshold M) :
    (forceMove key w k).E (fun r => if r.1 = k then 0 else 1)
      = ENNReal.ofReal (∑ i ∈ Finset.univ.erase k, w i / max (1 - w k) (1 - w i)) := by
  rw [prob_moved hw]
  congr 1
  exact Finset.sum_congr rfl fun i hi => moveP_eq_max hk (Finset.ne_of_mem_erase hi)

/-- **C13, the reported value.** What `force_move` reports is `∑ w_i / (1 - w_i)` over the other particles,
clipped at one. -/
theorem C13_reported [NeZero M] {w : Fin M → ℝ} (hw : Weights w) (key : Key) {k : Fin M}
    (hk : w k < forceThreshold M) (hlt : ∀ m, w m < 1) {r : Fin M × ℝ} (h : (forceMove key w k).Returns r) :
    r.2 = min 1 (∑ i ∈ Finset.univ.erase k, w i / (1 - w i)) := by
  have hk1 : 0 < 1 - w k := by linarith [hlt k]
  have hsum : ∑ m, (1 - w k) * restWeights w k m / (1 - w m) = ∑ i ∈ Finset.univ.erase k, w i / (1 - w i) := by
    rw [← Finset.add_sum_erase _ _ (Finset.mem_univ k)]
    have h0 : restWeights w k k = 0 := by unfold restWeights; simp [if_pos hk, atSet]
    rw [h0, mul_zero, zero_div, zero_add]
    refine Finset.sum_congr rfl fun i hi => ?_
    unfold restWeights
    simp only [if_pos hk, atSet, Function.update_of_ne (Finset.ne_of_mem_erase hi)]
    field_simp
  rw [returns_alpha h, forceAlpha_eq k hlt, hsum, max_eq_right]
  exact Finset.sum_nonneg fun i _ => div_nonneg (hw.nonneg i) (by linarith [hlt i])

/-- **C13, exactly when it is right.** The reported value is the probability of accepting if and only if no other
particle is heavier than the reference, or no other particle of positive weight is lighter. -/
theorem C13_alpha_exact_iff_partial [NeZero M] {w : Fin M → ℝ} (hw : Weights w) (key key' : Key) {k : Fin M}
    (hk : w k < forceThreshold M) {r : Fin M × ℝ} (h : (forceMove key w k).Returns r) :
    (forceMove key' w k).E (fun r => if r.1 = k then 0 else 1) = ENNReal.ofReal r.2 ↔
      (∀ i, w i ≤ w k) ∨ (∀ i, 0 < w i → w k ≤ w i) := by
  have hk1 : 0 < 1 - w k := by linarith [threshold_lt_one M]
  have hmax : ∀ i, 0 < max (1 - w k) (1 - w i) := fun i => hk1.trans_le (le_max_left _ _)
  have hone : ∑ i ∈ Finset.univ.erase k, w i / (1 - w k) = 1 := by
    rw [← Finset.sum_div, div_eq_one_iff_eq hk1.ne', eq_sub_iff_add_eq, add_comm]
    exact (Finset.add_sum_erase _ _ (Finset.mem_univ k)).trans hw.sum_one
  have hub := C13_alpha_upper_bound_partial hw key key' k h
  constructor
  · intro he
    by_contra hc
    push Not at hc
    obtain ⟨⟨a, ha⟩, b, hb0, hb⟩ := hc
    have hak : a ≠ k := fun e => by rw [e] at ha; exact lt_irrefl _ ha
    have hbk : b ≠ k := fun e => by rw [e] at hb; exact lt_irrefl _ hb
    have hlt : ∀ m, w m < 1 := fun m => by
      refine lt_of_le_of_ne (Weights.le_one hw m) fun e => ?_
      by_cases hbm : b = m
      · rw [← hbm] at e; linarith
      · exact hb0.ne' (Weights.eq_zero_of_one hw e hbm)
    rw [C13_acceptance hw key' hk, C13_reported hw key hk hlt h, ENNReal.ofReal_eq_ofReal_iff
      (Finset.sum_nonneg fun i _ => div_nonneg (hw.nonneg i) (hmax i).le)
      (le_min zero_le_one (Finset.sum_nonneg fun i _ => div_nonneg (hw.nonneg i) (by linarith [hlt i])))] at he
    have h1 : ∑ i ∈ Finset.univ.erase k, w i / max (1 - w k) (1 - w i) < 1 := by
      refine lt_of_lt_of_eq ?_ hone
      refine Finset.sum_lt_sum (fun i _ => div_le_div_of_nonneg_left (hw.nonneg i) hk1 (le_max_left _ _))
        ⟨b, Finset.mem_erase.2 ⟨hbk, Finset.mem_univ b⟩, div_lt_div_of_pos_left hb0 hk1 ?_⟩
      exact lt_max_of_lt_right (by linarith)
    have h2 : ∑ i ∈ Finset.univ.erase k, w i / max (1 - w k) (1 - w i)
        < ∑ i ∈ Finset.univ.erase k, w i / (1 - w i) := by
      refine Finset.sum_lt_sum (fun i _ => div_le_div_of_nonneg_left (hw.nonneg i) (by linarith [hlt i])
        (le_max_right _ _)) ⟨a, Finset.mem_erase.2 ⟨hak, Finset.mem_univ a⟩,
          div_lt_div_of_pos_left ((hw.nonneg k).trans_lt ha) (by linarith [hlt a]) ?_⟩
      exact lt_max_of_lt_left (by linarith)
    exact absurd he (lt_min h1 h2).ne
  · rintro (hle | hge)
    · exact C13_alpha_exact_partial hw key key' hk (Or.inl hle) h
    · refine le_antisymm hub.1 ?_
      have h1 : ∑ i ∈ Finset.univ.erase k, w i / max (1 - w k) (1 - w i) = 1 := by
        refine Eq.trans ?_ hone
        refine Finset.sum_congr rfl fun i _ => ?_
        rcases (hw.nonneg i).eq_or_lt with h0 | h0
        · rw [← h0]; simp
        · rw [max_eq_left (by linarith [hge i h0])]
      rw [C13_acceptance hw key' hk, h1]
      exact ENNReal.ofReal_le_ofReal hub.2.2

/-- Weights `(1/10, 3/10, 6/10)`: neither side holds for the middle particle, so the reported value is wrong. -/
example (key key' : Key) {r : Fin 3 × ℝ} (h : (forceMove key ![(1/10 : ℝ), 3/10, 6/10] 1).Returns r) :
    (forceMove key' ![(1/10 : ℝ), 3/10, 6/10] 1).E (fun r => if r.1 = 1 then 0 else 1) ≠ ENNReal.ofReal r.2 := by
  have hw : Weights ![(1/10 : ℝ), 3/10, 6/10] := ⟨fun i => by fin_cases i <;> norm_num, by
    simp [Fin.sum_univ_three]; norm_num⟩
  have hk : ![(1/10 : ℝ), 3/10, 6/10] 1 < forceThreshold 3 := lt_of_lt_of_le (by norm_num) (le_max_right _ _)
  rw [Ne, C13_alpha_exact_iff_partial hw key key' hk h]
  push Not
  exact ⟨⟨2, by norm_num [Matrix.cons_val_two]⟩, 0, by norm_num, by norm_num⟩

/-- For the heaviest one it is right: the acceptance probability is `1/9 + 3/7 = 34/63`. -/
example (key : Key) : (forceMove key ![(1/10 : ℝ), 3/10, 6/10] 2).E (fun r => if r.1 = 2 then 0 else 1)
    = ENNReal.ofReal (34 / 63) := by
  have hw : Weights ![(1/10 : ℝ), 3/10, 6/10] := ⟨fun i => by fin_cases i <;> norm_num, by
    simp [Fin.sum_univ_three]; norm_num⟩
  have hk : ![(1/10 : ℝ), 3/10, 6/10] 2 < forceThreshold 3 := lt_of_lt_of_le (show (6/10 : ℝ) < _ by norm_num) (le_max_right _ _)
  rw [C13_acceptance hw key hk, show Finset.univ.erase (2 : Fin 3) = {0, 1} by decide, Finset.sum_pair (by decide)]
  norm_num [Matrix.cons_val_two, Matrix.head_cons, Matrix.tail_cons]

end Props
end Fbs
