import Verif.Model.Attention
import Mathlib.Analysis.Real.Sqrt
import Mathlib.Analysis.SpecialFunctions.Exp
import Mathlib.Algebra.BigOperators.Fin
import Mathlib.Analysis.InnerProductSpace.PiL2

/-!
# C65: attention and normalisation layers
-/

namespace Fbs
namespace Spec

variable {H W C heads dimHead : ℕ}

/-- The weights proportional to `exp s`. -/
noncomputable def softWeight {P : Type} [Fintype P] (s : P → ℝ) (p : P) : ℝ := Real.exp (s p) / ∑ p', Real.exp (s p')

theorem headIdx_lt {part h d : ℕ} (hp : part < 3) (hh : h < heads) (hd : d < dimHead) :
    part * (heads * dimHead) + (h * dimHead + d) < 3 * (heads * dimHead) := by
  have h1 : h * dimHead + d < heads * dimHead := by
    calc h * dimHead + d < h * dimHead + dimHead := by omega
      _ = (h + 1) * dimHead := by ring
      _ ≤ heads * dimHead := Nat.mul_le_mul_right _ hh
  have h2 : part * (heads * dimHead) ≤ 2 * (heads * dimHead) := Nat.mul_le_mul_right _ (by omega)
  omega

theorem outIdx_lt {h d : ℕ} (hh : h < heads) (hd : d < dimHead) : h * dimHead + d < heads * dimHead := by
  calc h * dimHead + d < h * dimHead + dimHead := by omega
    _ = (h + 1) * dimHead := by ring
    _ ≤ heads * dimHead := Nat.mul_le_mul_right _ hh

/-- Query (`part = 0`), key (1) or value (2) of head `h` at a pixel with channels `x`. -/
noncomputable def proj (w : Fin C → Fin (3 * (heads * dimHead)) → ℝ) (part : Fin 3) (x : Fin C → ℝ) (h : Fin heads)
    (d : Fin dimHead) : ℝ :=
  ∑ c, x c * w c ⟨part * (heads * dimHead) + (h * dimHead + d), headIdx_lt part.2 h.2 d.2⟩

/-- The Euclidean norm over all pixels, cut off below at `1e-12`. -/
noncomputable def pixelNorm (f : Fin H × Fin W → ℝ) : ℝ := max (Real.sqrt (∑ p, f p ^ 2)) 1e-12

/-- The similarity of pixels `p` and `p'` under head `h`. -/
noncomputable def similarity (w : Fin C → Fin (3 * (heads * dimHead)) → ℝ) (x : Fin H × Fin W → Fin C → ℝ) (h : Fin heads)
    (p p' : Fin H × Fin W) : ℝ :=
  ∑ d, proj w 0 (x p) h d / pixelNorm (fun r => proj w 0 (x r) h d) *
    (proj w 1 (x p') h d / pixelNorm (fun r => proj w 1 (x r) h d))

/-- The weight of pixel `p'` in the linear attention at pixel `p` under head `h`. -/
noncomputable def linearWeight (w : Fin C → Fin (3 * (heads * dimHead)) → ℝ) (x : Fin H × Fin W → Fin C → ℝ) (h : Fin heads)
    (p p' : Fin H × Fin W) : ℝ :=
  ∑ d, softWeight (fun d => proj w 0 (x p) h d) d * softWeight (fun r => proj w 1 (x r) h d) p'

end Spec

namespace Props

open Spec Attention Nn

variable {B H W C O heads dimHead : ℕ}

theorem softmax_eq {n : ℕ} (x : Fin n → ℝ) (i : Fin n) : softmax x i = softWeight x i := by
  unfold softmax softWeight
  simp only [Real.exp_sub]
  rw [← Finset.sum_div, div_div_div_cancel_right₀ (Real.exp_pos _).ne']

theorem softWeight_nonneg {P : Type} [Fintype P] (s : P → ℝ) (p : P) : 0 ≤ softWeight s p :=
  div_nonneg (Real.exp_pos _).le (Finset.sum_nonneg fun _ _ => (Real.exp_pos _).le)

theorem softWeight_sum {P : Type} [Fintype P] [Nonempty P] (s : P → ℝ) : ∑ p, softWeight s p = 1 := by
  unfold softWeight
  rw [← Finset.sum_div, div_self]
  exact (Finset.sum_pos (fun _ _ => Real.exp_pos _) Finset.univ_nonempty).ne'

theorem softWeight_comp {P Q : Type} [Fintype P] [Fintype Q] (e : P ≃ Q) (s : Q → ℝ) (p : P) :
    softWeight (fun p => s (e p)) p = softWeight s (e p) := by
  unfold softWeight
  rw [Equiv.sum_comp e fun q => Real.exp (s q)]

theorem splitHeads_conv1 (w : Fin C → Fin (3 * (heads * dimHead)) → ℝ) (x : Tensor B H W C) (part : Fin 3) (b : Fin B)
    (n : Fin (H * W)) (h : Fin heads) (d : Fin dimHead) :
    splitHeads (conv1 w x) part b n h d = proj w part (x b (splitAxis n).1 (splitAxis n).2) h d := by
  simp only [splitHeads, conv1, proj]
  refine Finset.sum_congr rfl fun c _ => ?_
  congr 2
  apply Fin.ext
  simp [splitAxis, finProdFinEquiv]
  ring

theorem sum_pixels (f : Fin (H * W) → ℝ) : ∑ n, f n = ∑ p : Fin H × Fin W, f (splitAxis.symm p) :=
  (Equiv.sum_comp splitAxis.symm f).symm

/-- **C65, attention.**  Each output pixel is an affine function of averages of the values over all pixels, with weights
proportional to the exponential of `scale` times the similarity. -/
theorem C65_attention (scale : ℝ) (wqkv : Fin C → Fin (3 * (heads * dimHead)) → ℝ)
    (wout : Fin (heads * dimHead) → Fin C → ℝ) (bout : Fin C → ℝ) (x : Tensor B H W C) (b : Fin B) (i : Fin H) (j : Fin W)
    (c : Fin C) :
    attention scale wqkv wout bout x b i j c = bout c + ∑ h : Fin heads, ∑ d : Fin dimHead,
      (∑ p : Fin H × Fin W, softWeight (fun p' => scale * similarity wqkv (fun r => x b r.1 r.2) h (i, j) p') p *
        proj wqkv 2 (x b p.1 p.2) h d) * wout ⟨h * dimHead + d, outIdx_lt h.2 d.2⟩ c := by
  have hidx : ∀ (h : Fin heads) (d : Fin dimHead), (splitAxis.symm (h, d) : Fin (heads * dimHead)) =
      ⟨h * dimHead + d, outIdx_lt h.2 d.2⟩ := by
    intro h d
    apply Fin.ext
    simp [splitAxis, finProdFinEquiv]
    ring
  have hsim : ∀ (h : Fin heads) (p p' : Fin H × Fin W),
      (∑ d, l2norm (splitHeads (conv1 wqkv x) 0) (1e-12) b (splitAxis.symm p) h d *
        l2norm (splitHeads (conv1 wqkv x) 1) (1e-12) b (splitAxis.symm p') h d) * scale =
      scale * similarity wqkv (fun r => x b r.1 r.2) h p p' := by
    intro h p p'
    rw [mul_comm]
    congr 1
    refine Finset.sum_congr rfl fun d _ => ?_
    simp only [l2norm, pixelNorm, sum_pixels, splitHeads_conv1, Equiv.apply_symm_apply, sq_abs]
  simp only [attention, conv1Bias, conv1]
  rw [add_comm, ← Equiv.sum_comp (splitAxis (a := heads) (b := dimHead)).symm, Fintype.sum_prod_type]
  congr 1
  refine Finset.sum_congr rfl fun h _ => Finset.sum_congr rfl fun d _ => ?_
  rw [hidx h d, ← hidx h d]
  simp only [Equiv.apply_symm_apply, sum_pixels, softmax_eq, splitHeads_conv1]
  congr 1
  refine Finset.sum_congr rfl fun p _ => ?_
  rw [← softWeight_comp splitAxis.symm]
  simp only [hsim]

/-- **C65, linear attention.**  The computation through `context` gives, per head, averages of the values over all
pixels, divided by `H W √dim_head`; the weights are the inner products of the two softmaxes. -/
theorem C65_linear (wqkv : Fin C → Fin (3 * (heads * dimHead)) → ℝ) (wout : Fin (heads * dimHead) → Fin C → ℝ)
    (bout gamma : Fin C → ℝ) (x : Tensor B H W C) :
    linearAttention wqkv wout bout gamma x = layerNorm gamma fun b i j c =>
      bout c + ∑ h : Fin heads, ∑ d : Fin dimHead,
        ((∑ p : Fin H × Fin W, linearWeight wqkv (fun r => x b r.1 r.2) h (i, j) p * proj wqkv 2 (x b p.1 p.2) h d) /
          ((H * W : ℕ) * Real.sqrt dimHead)) * wout ⟨h * dimHead + d, outIdx_lt h.2 d.2⟩ c := by
  have hidx : ∀ (h : Fin heads) (d : Fin dimHead), (splitAxis.symm (h, d) : Fin (heads * dimHead)) =
      ⟨h * dimHead + d, outIdx_lt h.2 d.2⟩ := by
    intro h d
    apply Fin.ext
    simp [splitAxis, finProdFinEquiv]
    ring
  unfold linearAttention
  simp only
  congr 1
  funext b i j c
  simp only [conv1Bias, conv1]
  rw [add_comm, ← Equiv.sum_comp (splitAxis (a := heads) (b := dimHead)).symm, Fintype.sum_prod_type]
  congr 1
  refine Finset.sum_congr rfl fun h _ => Finset.sum_congr rfl fun e _ => ?_
  rw [hidx h e, ← hidx h e]
  simp only [Equiv.apply_symm_apply, sum_pixels, softmax_eq, splitHeads_conv1, linearWeight]
  congr 1
  rw [Finset.sum_div]
  simp only [Finset.sum_mul, Finset.sum_div]
  rw [Finset.sum_comm]
  refine Finset.sum_congr rfl fun p _ => Finset.sum_congr rfl fun d _ => ?_
  have hk : softWeight (fun n' => proj wqkv 1 (x b (splitAxis n').1 (splitAxis n').2) h d) (splitAxis.symm p) =
      softWeight (fun r : Fin H × Fin W => proj wqkv 1 (x b r.1 r.2) h d) p := by
    rw [← softWeight_comp splitAxis.symm]
    simp only [Equiv.apply_symm_apply]
  have hq : splitHeads (conv1 wqkv x) 0 b (splitAxis.symm (i, j)) h = fun d => proj wqkv 0 (x b i j) h d := by
    funext d
    rw [splitHeads_conv1, Equiv.apply_symm_apply]
  rw [hk, hq]
  ring

/-- **C65, the weights of the linear attention** are non-negative and sum to one. -/
theorem C65_linear_weights [NeZero dimHead] (w : Fin C → Fin (3 * (heads * dimHead)) → ℝ) (x : Fin H × Fin W → Fin C → ℝ)
    (h : Fin heads) (p : Fin H × Fin W) :
    (∀ p', 0 ≤ linearWeight w x h p p') ∧ ∑ p', linearWeight w x h p p' = 1 := by
  have : Nonempty (Fin H × Fin W) := ⟨p⟩
  constructor
  · exact fun p' => Finset.sum_nonneg fun d _ => mul_nonneg (softWeight_nonneg _ _) (softWeight_nonneg _ _)
  · unfold linearWeight
    rw [Finset.sum_comm]
    simp only [← Finset.mul_sum, softWeight_sum, mul_one]

/-- **C65, averages.**  If all values of a head lie between `lo` and `hi`, so do the averages computed by `Attention`, and
those of `LinearAttention` before the division. -/
theorem C65_range [NeZero dimHead] (scale : ℝ) (w : Fin C → Fin (3 * (heads * dimHead)) → ℝ) (x : Fin H × Fin W → Fin C → ℝ)
    (h : Fin heads) (d : Fin dimHead) {lo hi : ℝ} (hv : ∀ p, lo ≤ proj w 2 (x p) h d ∧ proj w 2 (x p) h d ≤ hi)
    (p : Fin H × Fin W) :
    (lo ≤ ∑ p', softWeight (fun p' => scale * similarity w x h p p') p' * proj w 2 (x p') h d ∧
      ∑ p', softWeight (fun p' => scale * similarity w x h p p') p' * proj w 2 (x p') h d ≤ hi) ∧
    (lo ≤ ∑ p', linearWeight w x h p p' * proj w 2 (x p') h d ∧
      ∑ p', linearWeight w x h p p' * proj w 2 (x p') h d ≤ hi) := by
  have : Nonempty (Fin H × Fin W) := ⟨p⟩
  have key : ∀ a : Fin H × Fin W → ℝ, (∀ p', 0 ≤ a p') → ∑ p', a p' = 1 →
      lo ≤ ∑ p', a p' * proj w 2 (x p') h d ∧ ∑ p', a p' * proj w 2 (x p') h d ≤ hi := by
    intro a ha hs
    constructor
    · calc lo = ∑ p', a p' * lo := by rw [← Finset.sum_mul, hs, one_mul]
        _ ≤ _ := Finset.sum_le_sum fun p' _ => mul_le_mul_of_nonneg_left (hv p').1 (ha p')
    · calc ∑ p', a p' * proj w 2 (x p') h d ≤ ∑ p', a p' * hi :=
            Finset.sum_le_sum fun p' _ => mul_le_mul_of_nonneg_left (hv p').2 (ha p')
        _ = hi := by rw [← Finset.sum_mul, hs, one_mul]
  exact ⟨key _ (softWeight_nonneg _) (softWeight_sum _), key _ (C65_linear_weights w x h p).1 (C65_linear_weights w x h p).2⟩

/-- Moving the pixels of every image of the batch. -/
def movePixels (σ : Equiv.Perm (Fin H × Fin W)) (x : Tensor B H W C) : Tensor B H W C :=
  fun b i j => x b (σ (i, j)).1 (σ (i, j)).2

theorem similarity_move (w : Fin C → Fin (3 * (heads * dimHead)) → ℝ) (x : Fin H × Fin W → Fin C → ℝ)
    (σ : Equiv.Perm (Fin H × Fin W)) (h : Fin heads) (p p' : Fin H × Fin W) :
    similarity w (fun r => x (σ r)) h p p' = similarity w x h (σ p) (σ p') := by
  simp only [similarity, pixelNorm]
  refine Finset.sum_congr rfl fun d _ => ?_
  rw [Equiv.sum_comp σ fun r => proj w 0 (x r) h d ^ 2, Equiv.sum_comp σ fun r => proj w 1 (x r) h d ^ 2]

/-- **C65, no positions.**  The layers do not know where a pixel is: moving the pixels of the input moves those of the
output. -/
theorem C65_equivariant (σ : Equiv.Perm (Fin H × Fin W)) (scale : ℝ) (wqkv : Fin C → Fin (3 * (heads * dimHead)) → ℝ)
    (wout : Fin (heads * dimHead) → Fin C → ℝ) (bout gamma gamma' : Fin C → ℝ) (x : Tensor B H W C) :
    attnBlock (attention scale wqkv wout bout) gamma (movePixels σ x) =
        movePixels σ (attnBlock (attention scale wqkv wout bout) gamma x) ∧
      attnBlock (linearAttention wqkv wout bout gamma') gamma (movePixels σ x) =
        movePixels σ (attnBlock (linearAttention wqkv wout bout gamma') gamma x) := by
  have hn : ∀ (g : Fin C → ℝ) (x : Tensor B H W C), layerNorm g (movePixels σ x) = movePixels σ (layerNorm g x) :=
    fun _ _ => rfl
  constructor
  · funext b i j c
    simp only [attnBlock, hn]
    generalize layerNorm gamma x = y
    show attention scale wqkv wout bout (movePixels σ y) b i j c + _ =
      attention scale wqkv wout bout y b (σ (i, j)).1 (σ (i, j)).2 c + _
    rw [C65_attention, C65_attention]
    congr 2
    refine Finset.sum_congr rfl fun h _ => Finset.sum_congr rfl fun d _ => ?_
    congr 1
    symm
    rw [← Equiv.sum_comp σ]
    refine Finset.sum_congr rfl fun p _ => ?_
    have h1 : (fun p' => scale * similarity wqkv (fun r => movePixels σ y b r.1 r.2) h (i, j) p') =
        fun p' => (fun p' => scale * similarity wqkv (fun r => y b r.1 r.2) h (σ (i, j)) p') (σ p') :=
      funext fun p' => by
        simp only
        rw [← similarity_move]
        rfl
    rw [h1, softWeight_comp σ fun p' => scale * similarity wqkv (fun r => y b r.1 r.2) h (σ (i, j)) p']
    rfl
  · funext b i j c
    simp only [attnBlock, hn]
    generalize layerNorm gamma x = y
    show linearAttention wqkv wout bout gamma' (movePixels σ y) b i j c + _ =
      movePixels σ (linearAttention wqkv wout bout gamma' y) b i j c + _
    congr 1
    rw [C65_linear, C65_linear, ← hn]
    congr 1
    funext b i j c
    simp only [movePixels]
    congr 1
    refine Finset.sum_congr rfl fun h _ => Finset.sum_congr rfl fun d _ => ?_
    congr 2
    symm
    rw [← Equiv.sum_comp σ]
    refine Finset.sum_congr rfl fun p _ => ?_
    congr 1
    refine Finset.sum_congr rfl fun d _ => ?_
    congr 1
    exact (softWeight_comp σ (fun r => proj wqkv 1 (y b r.1 r.2) h d) p).symm

/-- **C65, batches.**  The result for one image does not depend on the other images of the batch. -/
theorem C65_batch {B' : ℕ} (scale : ℝ) (wqkv : Fin C → Fin (3 * (heads * dimHead)) → ℝ)
    (wout : Fin (heads * dimHead) → Fin C → ℝ) (bout gamma gamma' : Fin C → ℝ) (x : Tensor B H W C) (x' : Tensor B' H W C)
    {b : Fin B} {b' : Fin B'} (h : x b = x' b') :
    attnBlock (attention scale wqkv wout bout) gamma x b = attnBlock (attention scale wqkv wout bout) gamma x' b' ∧
      attnBlock (linearAttention wqkv wout bout gamma') gamma x b =
        attnBlock (linearAttention wqkv wout bout gamma') gamma x' b' := by
  have hn : layerNorm gamma x b = layerNorm gamma x' b' := by
    funext i j c
    simp only [layerNorm, h]
  constructor
  · funext i j c
    simp only [attnBlock, C65_attention, hn, h]
  · funext i j c
    simp only [attnBlock, C65_linear, h]
    congr 1
    simp only [layerNorm, hn]

/-- **C65, `l2norm`.**  The default axis of `l2norm` is the pixel axis: for each channel of each head the sum of squares
over the pixels becomes one, unless the norm is below `1e-12`. -/
theorem C65_l2norm {n a d : ℕ} (t : Fin B → Fin n → Fin a → Fin d → ℝ) (b : Fin B) (h : Fin a) (k : Fin d) :
    ∑ i, l2norm t (1e-12) b i h k ^ 2 ≤ 1 ∧
      (1e-12 ≤ Real.sqrt (∑ i, t b i h k ^ 2) → ∑ i, l2norm t (1e-12) b i h k ^ 2 = 1) := by
  have hs : 0 ≤ ∑ i, t b i h k ^ 2 := Finset.sum_nonneg fun _ _ => sq_nonneg _
  have he : ∑ i, l2norm t (1e-12) b i h k ^ 2 =
      (∑ i, t b i h k ^ 2) / max (Real.sqrt (∑ i, t b i h k ^ 2)) 1e-12 ^ 2 := by
    simp only [l2norm, sq_abs, div_pow, Finset.sum_div]
  rw [he]
  constructor
  · refine div_le_one_of_le₀ ?_ (sq_nonneg _)
    calc ∑ i, t b i h k ^ 2 = Real.sqrt (∑ i, t b i h k ^ 2) ^ 2 := (Real.sq_sqrt hs).symm
      _ ≤ _ := pow_le_pow_left₀ (Real.sqrt_nonneg _) (le_max_left _ _) 2
  · intro hge
    rw [max_eq_left hge, Real.sq_sqrt hs, div_self]
    intro h0
    rw [h0, Real.sqrt_zero] at hge
    norm_num at hge

/-- **C65, similarities.**  They are at most `dim_head` in absolute value. -/
theorem C65_similarity_bound (w : Fin C → Fin (3 * (heads * dimHead)) → ℝ) (x : Fin H × Fin W → Fin C → ℝ) (h : Fin heads)
    (p p' : Fin H × Fin W) : |similarity w x h p p'| ≤ dimHead := by
  have h1 : ∀ (part : Fin 3) (d : Fin dimHead) (p : Fin H × Fin W),
      |proj w part (x p) h d / pixelNorm (fun r => proj w part (x r) h d)| ≤ 1 := by
    intro part d p
    have hpos : 0 < pixelNorm fun r => proj w part (x r) h d := lt_max_of_lt_right (by norm_num)
    rw [abs_div, abs_of_pos hpos, div_le_one hpos]
    refine le_max_of_le_left (Real.abs_le_sqrt ?_)
    exact Finset.single_le_sum (f := fun r => proj w part (x r) h d ^ 2) (fun _ _ => sq_nonneg _) (Finset.mem_univ p)
  calc |similarity w x h p p'| ≤ ∑ d : Fin dimHead, 1 := by
        refine (Finset.abs_sum_le_sum_abs _ _).trans (Finset.sum_le_sum fun d _ => ?_)
        rw [abs_mul]
        exact mul_le_one₀ (h1 0 d p) (abs_nonneg _) (h1 1 d p')
    _ = dimHead := by simp

/-- **C65, not cosine similarity.**  The documentation of `l2norm` promises the last axis, which would make the
similarities cosines; with axis 1 they reach `dim_head`. -/
theorem C65_not_cosine (dimHead : ℕ) :
    ∃ (w : Fin 1 → Fin (3 * (1 * dimHead)) → ℝ) (x : Fin 1 × Fin 1 → Fin 1 → ℝ),
      similarity w x (0 : Fin 1) (0, 0) (0, 0) = dimHead := by
  refine ⟨fun _ _ => 1, fun _ _ => 1, ?_⟩
  have h1 : (1e-12 : ℝ) ≤ 1 := by norm_num
  simp [similarity, pixelNorm, proj, max_eq_left h1]

/-- **C65, layer norm.**  Before the multiplication by the parameter the channels of a pixel have mean zero and mean
square `var / (var + 1e-5)`. -/
theorem C65_layerNorm [NeZero C] (x : Tensor B H W C) (b : Fin B) (i : Fin H) (j : Fin W) :
    (∑ c, layerNorm (fun _ => 1) x b i j c = 0) ∧
      (∑ c, layerNorm (fun _ => 1) x b i j c ^ 2) / C =
        (∑ c, (x b i j c - (∑ k, x b i j k) / C) ^ 2) / C /
          ((∑ c, (x b i j c - (∑ k, x b i j k) / C) ^ 2) / C + 1e-5) := by
  have hC : (C : ℝ) ≠ 0 := Nat.cast_ne_zero.2 (NeZero.ne C)
  set m := (∑ k, x b i j k) / C with hm
  have hsum : ∑ k, x b i j k = C * m := by rw [hm]; field_simp
  have hvar : (∑ k, x b i j k ^ 2) / C - m ^ 2 = (∑ c, (x b i j c - m) ^ 2) / C := by
    have : ∑ c, (x b i j c - m) ^ 2 = ∑ k, x b i j k ^ 2 - C * m ^ 2 := by
      simp only [sub_sq, Finset.sum_add_distrib, Finset.sum_sub_distrib, ← Finset.mul_sum, ← Finset.sum_mul, hsum]
      simp
      ring
    rw [this]
    field_simp
  have hv0 : 0 ≤ (∑ c, (x b i j c - m) ^ 2) / C :=
    div_nonneg (Finset.sum_nonneg fun _ _ => sq_nonneg _) (Nat.cast_nonneg _)
  set v := (∑ c, (x b i j c - m) ^ 2) / C with hv
  have heq : ∀ c, layerNorm (fun _ => 1) x b i j c = (x b i j c - m) * (Real.sqrt (v + 1e-5))⁻¹ := by
    intro c
    simp only [layerNorm, ← hm, hvar, max_eq_right hv0, mul_one]
  constructor
  · simp only [heq, ← Finset.sum_mul, Finset.sum_sub_distrib, hsum]
    simp
  · have hpos : 0 < v + 1e-5 := by positivity
    have h2 : Real.sqrt (v + 1e-5) ^ 2 = v + 1e-5 := Real.sq_sqrt hpos.le
    simp only [heq, mul_pow, inv_pow, h2, ← Finset.sum_mul]
    rw [div_eq_mul_inv v, hv]
    ring

/-- **C65, weight standardisation.**  Per output channel the kernel used by the convolution has mean zero and variance
`var / (var + eps)`, and adding a constant to the kernel changes nothing. -/
theorem C65_standardised {R : Type} [Fintype R] [Nonempty R] {eps : ℝ} (heps : 0 < eps) (kernel : R → Fin O → ℝ) (o : Fin O) :
    (∑ r, standardizedKernel eps kernel r o = 0) ∧
      (∑ r, standardizedKernel eps kernel r o ^ 2) / Fintype.card R =
        (∑ r, (kernel r o - (∑ r', kernel r' o) / Fintype.card R) ^ 2) / Fintype.card R /
          ((∑ r, (kernel r o - (∑ r', kernel r' o) / Fintype.card R) ^ 2) / Fintype.card R + eps) ∧
      ∀ (a : Fin O → ℝ) (r : R), standardizedKernel eps (fun r o => kernel r o + a o) r o = standardizedKernel eps kernel r o := by
  have hn : (Fintype.card R : ℝ) ≠ 0 := Nat.cast_ne_zero.2 Fintype.card_ne_zero
  set m := (∑ r', kernel r' o) / Fintype.card R with hm
  have hsum : ∑ r', kernel r' o = Fintype.card R * m := by rw [hm]; field_simp
  set v := (∑ r, (kernel r o - m) ^ 2) / Fintype.card R with hv
  have hv0 : 0 ≤ v := div_nonneg (Finset.sum_nonneg fun _ _ => sq_nonneg _) (Nat.cast_nonneg _)
  have heq : ∀ r, standardizedKernel eps kernel r o = (kernel r o - m) / Real.sqrt (v + eps) := by
    intro r
    simp only [standardizedKernel, ← hm, sq_abs, ← hv]
  refine ⟨?_, ?_, fun a r => ?_⟩
  · simp only [heq, ← Finset.sum_div, Finset.sum_sub_distrib, hsum]
    simp
  · have h2 : Real.sqrt (v + eps) ^ 2 = v + eps := Real.sq_sqrt (by positivity)
    simp only [heq, div_pow, h2, ← Finset.sum_div]
    rw [div_right_comm, hv]
  · have hm' : (∑ r', (kernel r' o + a o)) / Fintype.card R = m + a o := by
      rw [Finset.sum_add_distrib, hsum]
      simp
      field_simp
    rw [heq]
    simp only [standardizedKernel, hm', add_sub_add_right_eq_sub, sq_abs, ← hv]

/-- Two heads, an image of 2 by 2 pixels with three channels. -/
example (x : Tensor 1 2 2 3) (wqkv : Fin 3 → Fin (3 * (2 * 4)) → ℝ) (wout : Fin (2 * 4) → Fin 3 → ℝ) (bout gamma : Fin 3 → ℝ) :
    attnBlock (attention 10 wqkv wout bout) gamma (movePixels (Equiv.prodComm _ _) x) =
      movePixels (Equiv.prodComm _ _) (attnBlock (attention 10 wqkv wout bout) gamma x) :=
  (C65_equivariant (Equiv.prodComm _ _) 10 wqkv wout bout gamma gamma x).1

/-- All values equal to two: so are the averages. -/
example (x : Fin 2 × Fin 2 → Fin 1 → ℝ) (hx : ∀ p, x p 0 = 1) (p : Fin 2 × Fin 2) :
    ∑ p', softWeight (fun p' => 10 * similarity (heads := 1) (dimHead := 1) (fun _ _ => 2) x 0 p p') p' *
      proj (heads := 1) (dimHead := 1) (fun _ _ => 2) 2 (x p') 0 0 ≤ 2 :=
  (C65_range (heads := 1) (dimHead := 1) 10 (fun _ _ => 2) x 0 0 (lo := 2) (hi := 2)
    (fun p => by simp [proj, hx]) p).1.2

/-- A kernel with entries 1 and 3. -/
example : ∑ r : Fin 2, standardizedKernel (O := 1) 1e-5 (fun (r : Fin 2) _ => 1 + 2 * ((r : ℕ) : ℝ)) r 0 = 0 :=
  (C65_standardised (by norm_num) _ 0).1

end Props
end Fbs
