import Verif.Model.Tables
import Verif.Props.Images

/-!
# C78: the error tables of the image experiments
-/

namespace Fbs
namespace Props

open Tables Images

variable {h w c : ℕ}

theorem clip_eq (x : ℝ) : clip x = max 0 (min x 1) := by
  unfold clip
  simp only
  split_ifs with h1 h2 h2
  · linarith
  · rw [max_eq_left]
    exact (min_le_left _ _).trans h1.le
  · rw [min_eq_right h2.le, max_eq_right zero_le_one]
  · rw [min_eq_left (not_lt.1 h2), max_eq_right (not_lt.1 h1)]

theorem mse_nonneg {κ : Type} [Fintype κ] (a b : κ → ℝ) : 0 ≤ mse a b :=
  div_nonneg (Finset.sum_nonneg fun _ _ => sq_nonneg _) (Nat.cast_nonneg _)

theorem mse_eq_zero {κ : Type} [Fintype κ] [Nonempty κ] (a b : κ → ℝ) : mse a b = 0 ↔ a = b := by
  have hc : (Fintype.card κ : ℝ) ≠ 0 := Nat.cast_ne_zero.2 Fintype.card_ne_zero
  rw [mse, npMean, div_eq_zero_iff, or_iff_left hc, Finset.sum_eq_zero_iff_of_nonneg fun _ _ => sq_nonneg _, funext_iff]
  simp [sub_eq_zero]

/-- **C78, the ratio orders images by their squared error.** -/
theorem C78_psnr {κ : Type} [Fintype κ] [Nonempty κ] (a b b' : κ → ℝ) :
    (psnr a b = ⊤ ↔ a = b) ∧ psnr a b = psnr b a ∧
    (psnr a b ≤ psnr a b' ↔ ∑ i, (a i - b' i) ^ 2 ≤ ∑ i, (a i - b i) ^ 2) := by
  have hc : (0 : ℝ) < Fintype.card κ := Nat.cast_pos.2 Fintype.card_pos
  refine ⟨?_, ?_, ?_⟩
  · rw [psnr]
    split_ifs with h
    · simp [(mse_eq_zero a b).1 h]
    · simp only [EReal.coe_ne_top, false_iff]
      exact fun e => h ((mse_eq_zero a b).2 e)
  · have : mse a b = mse b a := by
      simp only [mse, npMean]
      congr 1
      exact Finset.sum_congr rfl fun i _ => by ring
    simp only [psnr, this]
  · have hle : ∑ i, (a i - b' i) ^ 2 ≤ ∑ i, (a i - b i) ^ 2 ↔ mse a b' ≤ mse a b := by
      simp only [mse, npMean]
      rw [div_le_div_iff_of_pos_right hc]
    rw [hle]
    have h1 := mse_nonneg a b
    have h2 := mse_nonneg a b'
    simp only [psnr]
    split_ifs with h3 h4 h4
    · simp [h3, h4]
    · rw [h3]
      simp only [top_le_iff, EReal.coe_ne_top, false_iff, not_le]
      exact lt_of_le_of_ne h2 (Ne.symm h4)
    · simp [h4, h1]
    · have p1 := lt_of_le_of_ne h1 (Ne.symm h3)
      have p2 := lt_of_le_of_ne h2 (Ne.symm h4)
      rw [EReal.coe_le_coe_iff, mul_le_mul_iff_right₀ (by norm_num), Real.logb_le_logb (by norm_num) (by positivity) (by positivity),
        one_div_le_one_div p1 p2]

/-- **C78, the tabulated values.**  The images that enter the table lie in `[0, 1]`, so the ratio is never negative; and
for a true image in `[0, 1]` clipping never lowers the ratio of a restored image. -/
theorem C78_clipped [NeZero h] [NeZero w] [NeZero c] (img img' : Fin h → Fin w → Fin c → ℝ) :
    (∀ i j k, 0 ≤ toImg img i j k ∧ toImg img i j k ≤ 1) ∧
    0 ≤ psnr (fun p : Fin h × Fin w × Fin c => toImg img p.1 p.2.1 p.2.2) (fun p => toImg img' p.1 p.2.1 p.2.2) ∧
    ((∀ i j k, 0 ≤ img i j k ∧ img i j k ≤ 1) →
      psnr (fun p : Fin h × Fin w × Fin c => img p.1 p.2.1 p.2.2) (fun p => img' p.1 p.2.1 p.2.2) ≤
        psnr (fun p : Fin h × Fin w × Fin c => toImg img p.1 p.2.1 p.2.2) (fun p => toImg img' p.1 p.2.1 p.2.2)) := by
  have h01 : ∀ x, 0 ≤ clip x ∧ clip x ≤ 1 := fun x => by
    rw [clip_eq]
    exact ⟨le_max_left _ _, max_le zero_le_one (min_le_right _ _)⟩
  refine ⟨fun i j k => h01 _, ?_, fun hi => ?_⟩
  · rw [psnr]
    split_ifs with h0
    · simp
    · rw [← EReal.coe_zero, EReal.coe_le_coe_iff]
      have hpos := lt_of_le_of_ne (mse_nonneg _ _) (Ne.symm h0)
      refine mul_nonneg (by norm_num) (Real.logb_nonneg (by norm_num) ?_)
      rw [le_div_iff₀ hpos, one_mul]
      have hc : (0 : ℝ) < Fintype.card (Fin h × Fin w × Fin c) := Nat.cast_pos.2 Fintype.card_pos
      rw [mse, npMean, div_le_one hc]
      refine (Finset.sum_le_sum (g := fun _ => (1 : ℝ)) fun p _ => ?_).trans (by simp)
      have a1 := h01 (img p.1 p.2.1 p.2.2)
      have a2 := h01 (img' p.1 p.2.1 p.2.2)
      simp only [toImg]
      nlinarith [a1.1, a1.2, a2.1, a2.2]
  · have he : toImg img = img := by
      funext i j k
      rw [toImg, clip_eq, min_eq_left (hi i j k).2, max_eq_right (hi i j k).1]
    rw [he]
    refine (C78_psnr _ _ _).2.2.2 (Finset.sum_le_sum fun p _ => ?_)
    simp only [toImg]
    rw [clip_eq]
    obtain ⟨b1, b2⟩ := hi p.1 p.2.1 p.2.2
    generalize img p.1 p.2.1 p.2.2 = x at *
    generalize img' p.1 p.2.1 p.2.2 = y at *
    rcases le_total y 0 with h0 | h0
    · rw [min_eq_left (h0.trans zero_le_one), max_eq_left h0]
      nlinarith
    · rcases le_total y 1 with h1 | h1
      · rw [min_eq_left h1, max_eq_right h0]
      · rw [min_eq_right h1, max_eq_right zero_le_one]
        nlinarith

/-- **C78, the tensor for the perceptual distance (partial).**  The values are scaled to `[-1, 1]` without loss; the
documented layout `(1, c, h, w)`, however, holds only up to exchanging rows and columns: what is returned is the tensor
of the transposed image. -/
theorem C78_tensor_partial (img : Fin h → Fin w → Fin c → ℝ) (hi : ∀ i j k, 0 ≤ img i j k ∧ img i j k ≤ 1) :
    (∀ k a b, -1 ≤ toTorchTensor img 0 k a b ∧ toTorchTensor img 0 k a b ≤ 1) ∧
    (∀ k i j, (toTorchTensor img 0 k j i + 1) / 2 = img i j k) := by
  refine ⟨fun k a b => ?_, fun k i j => ?_⟩
  · have := hi b a k
    simp only [toTorchTensor]
    constructor <;> linarith [this.1, this.2]
  · simp only [toTorchTensor]
    ring

/-- **C78, the documented layout.**  For square images the tensor is `2 * img - 1` at rows and columns of the image, as
the docstring says, exactly for images that equal their transpose. -/
theorem C78_tensor_transposed (img : Fin h → Fin h → Fin c → ℝ) :
    (∀ k i j, toTorchTensor img 0 k i j = 2 * img i j k - 1) ↔ ∀ k i j, img i j k = img j i k := by
  refine forall_congr' fun k => forall_congr' fun i => forall_congr' fun j => ?_
  simp only [toTorchTensor]
  constructor <;> intro h <;> linarith

/-- An image for which the documented layout fails. -/
theorem C78_tensor_counterexample :
    ∃ img : Fin 2 → Fin 2 → Fin 3 → ℝ, (∀ i j k, 0 ≤ img i j k ∧ img i j k ≤ 1) ∧
      ¬ ∀ k i j, toTorchTensor img 0 k i j = 2 * img i j k - 1 := by
  refine ⟨fun i j _ => if i = 0 ∧ j = 1 then 1 else 0, fun i j k => by dsimp only; split_ifs <;> norm_num, fun hh => ?_⟩
  have := (C78_tensor_transposed _).1 hh 0 0 1
  norm_num at this

example : (0 : EReal) ≤ psnr (fun p : Fin 2 × Fin 2 × Fin 1 => toImg (fun _ _ _ => (0.5 : ℝ)) p.1 p.2.1 p.2.2)
    (fun p => toImg (fun _ _ _ => (3 : ℝ)) p.1 p.2.1 p.2.2) := (C78_clipped _ _).2.1

example : psnr (fun _ : Fin 4 => (0 : ℝ)) (fun _ => 1) ≤ psnr (fun _ : Fin 4 => (0 : ℝ)) (fun _ => 1 / 2) :=
  (C78_psnr _ _ _).2.2.2 (by norm_num)

end Props
end Fbs
