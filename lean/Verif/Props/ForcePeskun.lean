import Verif.Props.ForceAlpha
import Verif.Lemmas.ResVar

/-!
# C96: the forced move moves more than a fresh draw of the index
-/

open MeasureTheory
open scoped ENNReal

namespace Fbs
namespace Props

open Jax Spec Gibbs

variable {M : ℕ}

theorem weight_le_moveP [NeZero M] {w : Fin M → ℝ} (hw : Weights w) {k i : Fin M} (hk : w k < forceThreshold M) (hik : i ≠ k) :
    w i ≤ moveP w k i := by
  have hk1 : 0 < 1 - w k := by linarith [threshold_lt_one M]
  rw [moveP_eq_max hk hik, le_div_iff₀ (hk1.trans_le (le_max_left _ _))]
  exact mul_le_of_le_one_right (hw.nonneg i) (max_le (by linarith [hw.nonneg k]) (by linarith [hw.nonneg i]))

/-- **C96, every distance.** From every index `k` away from the degenerate branch the forced move covers on average
at least the distance which an independent draw of the index (the selection without `explicit_backward`) covers,
whatever the distance `d`. -/
theorem C96_jump [NeZero M] {w : Fin M → ℝ} (hw : Weights w) (hr : Regular w) (key key' : Key) (k : Fin M)
    (d : Fin M → ℝ≥0∞) (hd : d k = 0) :
    (choice key w).E d ≤ (forceMove key' w k).E (fun r => d r.1) := by
  rw [E_choice hw.nonneg (Weights.total_pos hw), E_forceMove hw, hd, mul_zero, add_zero]
  refine Finset.sum_le_sum fun i _ => ?_
  rw [cat_normalised hw]
  by_cases hik : i = k
  · rw [hik, hd]; simp
  · refine mul_le_mul_left ?_ _
    rcases hr k with hk | hk
    · exact ENNReal.ofReal_le_ofReal (weight_le_moveP hw hk hik)
    · rw [Weights.eq_zero_of_one hw hk hik]; simp

/-- **C96, moves.** The reference is left strictly more often than by an independent draw, which leaves it with
probability `1 - w_k`. -/
theorem C96_moves [NeZero M] {w : Fin M → ℝ} (hw : Weights w) (key key' : Key) {k : Fin M}
    (hk0 : 0 < w k) (hk : w k < forceThreshold M) :
    (choice key w).E (fun i => if i = k then 0 else 1) = ENNReal.ofReal (1 - w k) ∧
    (choice key w).E (fun i => if i = k then 0 else 1)
      < (forceMove key' w k).E (fun r => if r.1 = k then 0 else 1) := by
  have hk1 : 0 < 1 - w k := by linarith [threshold_lt_one M]
  have hs : ∑ i ∈ Finset.univ.erase k, w i = 1 - w k := by
    rw [eq_sub_iff_add_eq, add_comm]
    exact (Finset.add_sum_erase _ _ (Finset.mem_univ k)).trans hw.sum_one
  have h1 : (choice key w).E (fun i => if i = k then 0 else 1) = ENNReal.ofReal (1 - w k) := by
    rw [E_choice hw.nonneg (Weights.total_pos hw), ← hs,
      ENNReal.ofReal_sum_of_nonneg fun i _ => hw.nonneg i, ← Finset.add_sum_erase _ _ (Finset.mem_univ k)]
    simp only [if_true, mul_zero, zero_add]
    refine Finset.sum_congr rfl fun i hi => ?_
    rw [if_neg (Finset.ne_of_mem_erase hi), cat_normalised hw, mul_one]
  refine ⟨h1, ?_⟩
  obtain ⟨j, hj, hj0⟩ : ∃ j ∈ Finset.univ.erase k, 0 < w j := by
    by_contra hc
    push Not at hc
    linarith [Finset.sum_nonpos hc]
  rw [h1, C13_acceptance hw key' hk, ENNReal.ofReal_lt_ofReal_iff']
  have hlt : ∑ i ∈ Finset.univ.erase k, w i < ∑ i ∈ Finset.univ.erase k, w i / max (1 - w k) (1 - w i) := by
    refine Finset.sum_lt_sum (fun i hi => ?_) ⟨j, hj, ?_⟩
    · rw [← moveP_eq_max hk (Finset.ne_of_mem_erase hi)]
      exact weight_le_moveP hw hk (Finset.ne_of_mem_erase hi)
    · rw [lt_div_iff₀ (hk1.trans_le (le_max_left _ _))]
      exact mul_lt_of_lt_one_right hj0 (max_lt (by linarith) (by linarith))
  rw [hs] at hlt
  exact ⟨hlt, hk1.trans hlt⟩

/-- **C96, negative correlation.** Started in the weights, two successive indices are at least as far apart in mean
square as two independent ones, for every function of the index: the index and the one selected from it are never
positively correlated. -/
theorem C96_square_jump [NeZero M] {w : Fin M → ℝ} (hw : Weights w) (hr : Regular w) (key : Key) (f : Fin M → ℝ) :
    ENNReal.ofReal (2 * weightVar w f)
      ≤ ∑ k, ENNReal.ofReal (w k) * (forceMove key w k).E (fun r => ENNReal.ofReal ((f r.1 - f k) ^ 2)) := by
  have h1 : ENNReal.ofReal (2 * weightVar w f)
      = ∑ k, ENNReal.ofReal (w k) * (choice key w).E (fun i => ENNReal.ofReal ((f i - f k) ^ 2)) := by
    simp only [E_choice hw.nonneg (Weights.total_pos hw), cat_normalised hw, ← ENNReal.ofReal_mul (hw.nonneg _)]
    have h2 : ∀ k, ∑ i, ENNReal.ofReal (w i * (f i - f k) ^ 2) = ENNReal.ofReal (∑ i, w i * (f i - f k) ^ 2) :=
      fun k => (ENNReal.ofReal_sum_of_nonneg fun i _ => mul_nonneg (hw.nonneg i) (sq_nonneg _)).symm
    simp only [h2, ← ENNReal.ofReal_mul (hw.nonneg _)]
    rw [← ENNReal.ofReal_sum_of_nonneg fun k _ => mul_nonneg (hw.nonneg k)
      (Finset.sum_nonneg fun i _ => mul_nonneg (hw.nonneg i) (sq_nonneg _))]
    congr 1
    have h3 : ∀ k, ∑ i, w i * (f i - f k) ^ 2 = ∑ i, w i * f i ^ 2 - 2 * f k * ∑ i, w i * f i + f k ^ 2 := by
      intro k
      have : ∀ i, w i * (f i - f k) ^ 2 = w i * f i ^ 2 - 2 * f k * (w i * f i) + w i * f k ^ 2 := fun i => by ring
      simp only [this, Finset.sum_add_distrib, Finset.sum_sub_distrib, ← Finset.mul_sum, ← Finset.sum_mul, hw.sum_one]
      ring
    set m := ∑ i, w i * f i with hm
    set q := ∑ i, w i * f i ^ 2 with hq
    have h4 : ∀ k, w k * (q - 2 * f k * m + f k ^ 2) = q * w k - 2 * m * (w k * f k) + w k * f k ^ 2 :=
      fun k => by ring
    rw [weightVar_eq hw]
    simp only [h3, h4, Finset.sum_add_distrib, Finset.sum_sub_distrib, ← Finset.mul_sum, hw.sum_one, ← hm, ← hq]
    ring
  rw [h1]
  refine Finset.sum_le_sum fun k _ => mul_le_mul_right ?_ _
  exact C96_jump hw hr key key k (fun i => ENNReal.ofReal ((f i - f k) ^ 2)) (by simp)

/-- **C96, the degenerate branch.** With a weight numerically one the proposal is uniform, and the forced move leaves
the heavy particle less often than an independent draw: the restriction to regular weights is needed. -/
theorem C96_degenerate (key key' : Key) : ∃ (w : Fin 2 → ℝ) (k : Fin 2), Weights w ∧
    (forceMove key' w k).E (fun r => if r.1 = k then 0 else 1) < (choice key w).E (fun i => if i = k then 0 else 1) := by
  have hw : Weights ![(1 - 1e-13 : ℝ), 1e-13] := ⟨fun i => by fin_cases i <;> norm_num, by
    simp [Fin.sum_univ_two]⟩
  have hth : ¬ ![(1 - 1e-13 : ℝ), 1e-13] 0 < forceThreshold 2 := by
    rw [not_lt]
    refine max_le ?_ (by norm_num)
    have h1 : Real.exp (-((2 : ℕ) : ℝ)) ≥ 1e-13 := by
      have h2 : Real.exp 2 ≤ 9 := by
        have := Real.exp_one_lt_d9
        have h3 : Real.exp 2 = Real.exp 1 * Real.exp 1 := by rw [← Real.exp_add]; norm_num
        rw [h3]
        nlinarith [Real.exp_pos 1]
      rw [Real.exp_neg, ge_iff_le, le_inv_comm₀ (by norm_num) (Real.exp_pos _)]
      push_cast
      exact h2.trans (by norm_num)
    simp only [Matrix.cons_val_zero]
    linarith
  refine ⟨_, 0, hw, ?_⟩
  rw [prob_moved hw, E_choice hw.nonneg (Weights.total_pos hw), show Finset.univ.erase (0 : Fin 2) = {1} by decide,
    Finset.sum_singleton, moveP_of_not_lt hth, Fin.sum_univ_two]
  simp only [cat_normalised hw, if_true, mul_zero, zero_add, one_ne_zero, if_false, mul_one, Matrix.cons_val_one,
    Matrix.cons_val_zero, accP]
  rw [ENNReal.ofReal_lt_ofReal_iff (by norm_num)]
  norm_num

example (key key' : Key) : ENNReal.ofReal (4 / 10)
    < (forceMove key' ![(1/10 : ℝ), 3/10, 6/10] 2).E (fun r => if r.1 = 2 then 0 else 1) := by
  have hw : Weights ![(1/10 : ℝ), 3/10, 6/10] := ⟨fun i => by fin_cases i <;> norm_num, by
    simp [Fin.sum_univ_three]; norm_num⟩
  have h := C96_moves hw key key' (k := 2) (show (0 : ℝ) < 6/10 by norm_num)
    (lt_of_lt_of_le (show (6/10 : ℝ) < _ by norm_num) (le_max_right _ _))
  rw [h.1] at h
  refine lt_of_eq_of_lt ?_ h.2
  congr 1
  show (4/10 : ℝ) = 1 - 6/10
  norm_num

end Props
end Fbs
