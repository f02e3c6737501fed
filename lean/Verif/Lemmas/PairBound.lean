import Verif.Lemmas.Minor
import Verif.Props.Consistency

/-!
# Pairs of free positions in the conditional resampling schemes
-/

open MeasureTheory ProbabilityTheory
open scoped ENNReal

namespace Fbs
namespace Csmc

open Jax Spec Props

variable {N : ℕ}

/-- Two different free positions of a conditional resampling step: together with an index drawn at one of them, the
indices at the others are drawn at most `N` times as often as by the weights. -/
def PairBound (res : CondResampling N) : Prop :=
  ∀ key w, Weights w → ∀ i j (C D : Fin N → ℝ≥0∞),
    (res key w i j true).E (fun A => ∑ k ∈ Finset.univ.erase j, ∑ l ∈ Finset.univ.erase j,
        if l = k then 0 else C (A k) * D (A l))
      ≤ (N * ∑ a, ENNReal.ofReal (w a) * D a) * (res key w i j true).E fun A => ∑ k ∈ Finset.univ.erase j, C (A k)

/-- Two coordinates of a finite product law. -/
theorem sum_prod_pair {κ : Fin N → Fin N → ℝ≥0∞} (h : ∀ m, ∑ a, κ m a = 1) {m l : Fin N} (hml : l ≠ m)
    (C D : Fin N → ℝ≥0∞) :
    ∑ A : Fin N → Fin N, (∏ j, κ j (A j)) * (C (A m) * D (A l)) = (∑ a, κ m a * C a) * ∑ a, κ l a * D a := by
  rw [sum_update κ m (h m)]
  simp only [Function.update_self, Function.update_of_ne hml]
  have e : ∀ B : Fin N → Fin N, (∏ j, κ j (B j)) * ∑ a, κ m a * (C a * D (B l))
      = (∑ a, κ m a * C a) * ((∏ j, κ j (B j)) * D (B l)) := fun B => by
    have : ∑ a, κ m a * (C a * D (B l)) = (∑ a, κ m a * C a) * D (B l) := by
      rw [Finset.sum_mul]
      exact Finset.sum_congr rfl fun a _ => by ring
    rw [this]; ring
  simp only [e]
  rw [← Finset.mul_sum, sum_prod_marg h l D]

/-- Pairs of coordinates outside of `J` of a finite product law. -/
theorem sum_prod_pairs {κ : Fin N → Fin N → ℝ≥0∞} (h : ∀ m, ∑ a, κ m a = 1) {D : Fin N → ℝ≥0∞} {B : ℝ≥0∞}
    (hB : ∑ m, ∑ a, κ m a * D a ≤ B) (J : Fin N) (C : Fin N → ℝ≥0∞) :
    ∑ A : Fin N → Fin N, (∏ j, κ j (A j)) * (∑ m ∈ Finset.univ.erase J, ∑ l ∈ Finset.univ.erase J,
        if l = m then 0 else C (A m) * D (A l))
      ≤ B * ∑ A : Fin N → Fin N, (∏ j, κ j (A j)) * ∑ m ∈ Finset.univ.erase J, C (A m) := by
  simp only [Finset.mul_sum]
  rw [Finset.sum_comm]
  rw [Finset.sum_comm (s := Finset.univ) (t := Finset.univ.erase J)]
  refine Finset.sum_le_sum fun m _ => ?_
  rw [Finset.sum_comm, ← Finset.mul_sum, sum_prod_marg h m C]
  have e : ∀ l ∈ Finset.univ.erase J, ∑ A : Fin N → Fin N, (∏ j, κ j (A j)) * (if l = m then 0 else C (A m) * D (A l))
      ≤ (∑ a, κ m a * C a) * ∑ a, κ l a * D a := by
    intro l _
    by_cases hl : l = m
    · simp [hl]
    · simp only [if_neg hl]
      rw [sum_prod_pair h hl]
  refine (Finset.sum_le_sum e).trans ?_
  rw [← Finset.mul_sum, mul_comm]
  refine mul_le_mul' ?_ le_rfl
  exact (Finset.sum_le_sum_of_subset (Finset.erase_subset _ _)).trans hB

theorem sum_killMass_col [NeZero N] {w : Fin N → ℝ} (hw : Weights w) (D : Fin N → ℝ≥0∞) :
    ∑ m, ∑ a, killMass w m a * D a = N * ∑ a, ENNReal.ofReal (w a) * D a := by
  have h := sums_killing w [] hw D
  rw [E_killing hw] at h
  simp only [Finset.mul_sum] at h
  rw [Finset.sum_comm] at h
  rw [Finset.mul_sum, ← h]
  exact Finset.sum_congr rfl fun m _ => (sum_prod_marg (sum_killMass hw.nonneg (Weights.total_pos hw)) m D).symm

/-- Rotating the free positions. -/
theorem sum_erase_roll [NeZero N] (j J : Fin N) (f : Fin N → ℝ≥0∞) :
    ∑ k ∈ Finset.univ.erase j, f (k - (j - J)) = ∑ m ∈ Finset.univ.erase J, f m := by
  refine Finset.sum_bij' (fun k _ => k - (j - J)) (fun m _ => m + (j - J)) ?_ ?_ ?_ ?_ ?_
  · intro k hk
    simp only [Finset.mem_erase, Finset.mem_univ, and_true] at hk ⊢
    intro h
    exact hk (by rw [sub_eq_iff_eq_add.1 h]; abel)
  · intro m hm
    simp only [Finset.mem_erase, Finset.mem_univ, and_true] at hm ⊢
    intro h
    exact hm (by rw [eq_sub_of_add_eq h]; abel)
  · intro k _; abel
  · intro m _; abel
  · intro k _; rfl

theorem pairBound_killing [NeZero N] : PairBound (CsmcResampling.killing (n := N)) := by
  intro key w hw i j C D
  have hT := Weights.total_pos hw
  rw [E_csmc_killing_cond hw, E_csmc_killing_cond hw, Finset.mul_sum]
  refine Finset.sum_le_sum fun J _ => ?_
  have e1 : ∀ A : Fin N → Fin N, ∑ k ∈ Finset.univ.erase j, C (roll (Function.update A J i) ((j : ℤ) - (J : ℤ)) k)
      = ∑ m ∈ Finset.univ.erase J, C (A m) := by
    intro A
    simp only [roll_eq]
    rw [sum_erase_roll j J fun m => C (Function.update A J i m)]
    exact Finset.sum_congr rfl fun m hm => by rw [Function.update_of_ne (Finset.ne_of_mem_erase hm)]
  have e2 : ∀ A : Fin N → Fin N, (∑ k ∈ Finset.univ.erase j, ∑ l ∈ Finset.univ.erase j,
        if l = k then 0 else C (roll (Function.update A J i) ((j : ℤ) - (J : ℤ)) k) *
          D (roll (Function.update A J i) ((j : ℤ) - (J : ℤ)) l))
      = ∑ m ∈ Finset.univ.erase J, ∑ l ∈ Finset.univ.erase J, if l = m then 0 else C (A m) * D (A l) := by
    intro A
    simp only [roll_eq]
    have h1 : ∀ k l : Fin N, (if l = k then (0 : ℝ≥0∞) else C (Function.update A J i (k - (j - J))) *
        D (Function.update A J i (l - (j - J)))) = if l - (j - J) = k - (j - J) then 0 else
          C (Function.update A J i (k - (j - J))) * D (Function.update A J i (l - (j - J))) := fun k l => by
      simp only [sub_left_inj]
    simp only [h1]
    rw [sum_erase_roll j J fun m => ∑ l ∈ Finset.univ.erase j, if l - (j - J) = m then 0 else
      C (Function.update A J i m) * D (Function.update A J i (l - (j - J)))]
    refine Finset.sum_congr rfl fun m hm => ?_
    rw [sum_erase_roll j J fun l => if l = m then 0 else C (Function.update A J i m) * D (Function.update A J i l)]
    refine Finset.sum_congr rfl fun l hl => ?_
    rw [Function.update_of_ne (Finset.ne_of_mem_erase hm), Function.update_of_ne (Finset.ne_of_mem_erase hl)]
  simp only [e1, e2]
  rw [mul_left_comm]
  refine mul_le_mul' le_rfl ?_
  exact sum_prod_pairs (sum_killMass hw.nonneg hT) (sum_killMass_col hw D).le J C

theorem pairBound_multinomial [NeZero N] : PairBound (CsmcResampling.multinomial (n := N)) := by
  intro key w hw i j C D
  rw [E_csmc_multinomial hw, E_csmc_multinomial hw]
  have e : ∀ (A : Fin N → Fin N) (k), k ∈ Finset.univ.erase j → Function.update A j i k = A k := fun A k hk =>
    Function.update_of_ne (Finset.ne_of_mem_erase hk) _ _
  have e1 : ∀ A : Fin N → Fin N, ∑ k ∈ Finset.univ.erase j, C (Function.update A j i k)
      = ∑ k ∈ Finset.univ.erase j, C (A k) := fun A => Finset.sum_congr rfl fun k hk => by rw [e A k hk]
  have e2 : ∀ A : Fin N → Fin N, (∑ k ∈ Finset.univ.erase j, ∑ l ∈ Finset.univ.erase j,
        if l = k then 0 else C (Function.update A j i k) * D (Function.update A j i l))
      = ∑ m ∈ Finset.univ.erase j, ∑ l ∈ Finset.univ.erase j, if l = m then 0 else C (A m) * D (A l) := fun A =>
    Finset.sum_congr rfl fun k hk => Finset.sum_congr rfl fun l hl => by rw [e A k hk, e A l hl]
  simp only [if_true, e1, e2]
  refine sum_prod_pairs (κ := fun _ a => ENNReal.ofReal (w a)) (fun _ => sum_ofReal_weights hw) (le_of_eq ?_) j C
  simp

end Csmc
end Fbs
