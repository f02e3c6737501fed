import Verif.Model.Models
import Verif.Props.Unet

/-!
# C71: which inputs the small networks accept
-/

namespace Fbs
namespace Props

open Models

/-! ### Broadcasting and embeddings -/

theorem embed_scalar (d : ℕ) : embed d [] = some [d / 2 + d / 2] := by
  simp [embed, bcast, bcastRev, concatLast, Unet.assert]

theorem embed_vector {d : ℕ} (hd : d / 2 ≠ 1) (b : ℕ) :
    embed d [b] = if b = d / 2 ∨ b = 1 then some [d / 2 + d / 2] else none := by
  by_cases h1 : b = d / 2
  · simp [embed, bcast, bcastRev, concatLast, Unet.assert, h1]
  · by_cases h2 : b = 1
    · subst h2
      simp [embed, bcast, bcastRev, concatLast, Unet.assert, h1]
    · simp [embed, bcast, bcastRev, h1, h2, hd]

theorem bcast_rows {n m d : ℕ} (h : m = n ∨ m = 1) : bcast [n, d] [m, d] = some [n, d] := by
  rcases h with rfl | rfl
  · simp [bcast, bcastRev]
  · by_cases h : n = 1 <;> simp [bcast, bcastRev, h]

theorem bcast_rows_none {n m d : ℕ} (h : m ≠ n) (h1 : m ≠ 1) (h2 : n ≠ 1) : bcast [n, d] [m, d] = none := by
  simp [bcast, bcastRev, h1, h2, h.symm]

/-! ### `CrescentMLP` -/

theorem crescentLayer_eq {n m : ℕ} (h : m = n ∨ m = 1) (e d f : ℕ) : crescentLayer [m, e] [n, d] f = some [n, f] := by
  simp [crescentLayer, crescentTimeBlock, dense, bcast_rows h]

theorem crescent_fold {n m : ℕ} (h : m = n ∨ m = 1) (e : ℕ) (hs : List ℕ) (d : ℕ) :
    ∃ d', hs.foldlM (crescentLayer [m, e]) [n, d] = some [n, d'] := by
  induction hs generalizing d with
  | nil => exact ⟨d, rfl⟩
  | cons f hs ih =>
    obtain ⟨d', h'⟩ := ih f
    refine ⟨d', ?_⟩
    rw [List.foldlM_cons, crescentLayer_eq h]
    exact h'

theorem embedBatch_32 (m : ℕ) : embedBatch 32 [m] = some [m, 32] ∧ embedBatch 32 [] = some [1, 32] := by
  simp [embedBatch, embed_scalar]

/-- **C71, `CrescentMLP`.**  A batch of `n` points with one time for all of them or one time each gives `n` outputs, for every
choice of hidden layers (the axis of a batch of one point is lost). -/
theorem C71_crescent (hiddens : List ℕ) {dim n : ℕ} (hd : dim ≠ 1) (d : ℕ) :
    crescentMLP hiddens dim [n, d] [n] = some (if n = 1 then [dim] else [n, dim]) ∧
    crescentMLP hiddens dim [n, d] [] = some (if n = 1 then [dim] else [n, dim]) := by
  have key : ∀ m, m = n ∨ m = 1 → (do
      let x ← hiddens.foldlM (crescentLayer [m, 32]) [n, d]
      let x ← dense dim x
      pure (squeeze x)) = some (if n = 1 then [dim] else [n, dim]) := by
    intro m hm
    obtain ⟨d', h'⟩ := crescent_fold hm 32 hiddens d
    rw [h']
    by_cases h1 : n = 1 <;> simp [dense, squeeze, h1, hd]
  refine ⟨?_, ?_⟩
  · simp only [crescentMLP, (embedBatch_32 n).1]
    exact key n (Or.inl rfl)
  · simp only [crescentMLP, (embedBatch_32 n).2]
    exact key 1 (Or.inr rfl)

/-- **C71, `CrescentMLP`.**  A single point with a scalar time gives a single output. -/
theorem C71_crescent_single {h : ℕ} (hiddens : List ℕ) {dim : ℕ} (hd : dim ≠ 1) (d : ℕ) :
    crescentMLP (h :: hiddens) dim [d] [] = some [dim] := by
  have h1 : crescentLayer [1, 32] [d] h = some [1, h] := by
    simp [crescentLayer, crescentTimeBlock, dense, bcast, bcastRev]
  obtain ⟨d', h'⟩ := crescent_fold (n := 1) (m := 1) (Or.inl rfl) 32 hiddens h
  simp only [crescentMLP, (embedBatch_32 0).2, Option.bind_eq_bind, Option.bind_some, List.foldlM_cons, h1, h']
  simp [dense, squeeze, hd]

/-- **C71, `CrescentMLP`.**  Numbers of points and of times that differ, both not one, are refused. -/
theorem C71_crescent_refuses {h : ℕ} (hiddens : List ℕ) {dim n m : ℕ} (hm : m ≠ n) (h1 : m ≠ 1) (h2 : n ≠ 1) (d : ℕ) :
    crescentMLP (h :: hiddens) dim [n, d] [m] = none := by
  have h3 : crescentLayer [m, 32] [n, d] h = none := by
    simp [crescentLayer, crescentTimeBlock, dense, bcast_rows_none hm h1 h2]
  simp only [crescentMLP, (embedBatch_32 m).1, Option.bind_eq_bind, Option.bind_some, List.foldlM_cons, h3, Option.bind_none]

/-! ### `GMSBMLP` -/

/-- **C71, `GMSBMLP`.**  A batch of `n` points with one time for all of them or one time each gives `n` outputs, a batch of one
point included. -/
theorem C71_gmsb (dim n d : ℕ) :
    gmsbMLP dim [n, d] [n] = some [n, dim] ∧ gmsbMLP dim [n, d] [] = some [n, dim] := by
  have h : ∀ m, m = n ∨ m = 1 → broadcastTo [m, 32] [n, 32] = some [n, 32] := by
    rintro m (rfl | rfl)
    · simp [broadcastTo, bcast, bcastRev, Unet.assert]
    · by_cases h1 : n = 1
      · simp [broadcastTo, bcast, bcastRev, Unet.assert, h1]
      · simp [broadcastTo, bcast, bcastRev, Unet.assert, Ne.symm h1]
  constructor
  · simp [gmsbMLP, (embedBatch_32 n).1, dense, h n (Or.inl rfl), concatLast, Unet.assert]
  · simp [gmsbMLP, (embedBatch_32 n).2, dense, h 1 (Or.inr rfl), concatLast, Unet.assert]

/-- **C71 fails for single points of `GMSBMLP`.**  A point without a batch axis is refused, whatever the times. -/
theorem C71_gmsb_single_refused (dim d : ℕ) (t : List ℕ) : gmsbMLP dim [d] t = none := by
  rcases h : gmsbMLP dim [d] t with _ | r
  · rfl
  simp only [gmsbMLP, dense, broadcastTo, concatLast, Option.bind_eq_bind, Option.bind_eq_some_iff] at h
  obtain ⟨e, -, e', -, x, hx, x', hx', e2, ⟨e3, h3, u, hu, he⟩, z, ⟨u', hu', -⟩, -⟩ := h
  simp at hx; subst hx
  simp at hx'; subst hx'
  have he : e3 = e2 := Option.some.inj he
  subst he
  simp only [Unet.assert] at hu hu'
  split at hu
  · rename_i hc
    rw [hc] at hu'
    simp at hu'
  · exact absurd hu (by simp)

/-! ### Networks that cannot be trained on batches -/

theorem concat_rank_ne {x y : List ℕ} (h : x.length ≠ y.length) : concatLast x y = none := by
  rw [concatLast, Unet.assert, if_neg]
  · rfl
  · rintro ⟨h1, h2, h3⟩
    have h4 := congrArg List.length h3
    have h5 := List.length_pos_of_ne_nil h1
    have h6 := List.length_pos_of_ne_nil h2
    simp only [List.length_dropLast] at h4
    omega

theorem dense_length {f : ℕ} {x y : List ℕ} (h : dense f x = some y) : y.length = x.length := by
  rw [dense] at h
  split at h
  · exact absurd h (by simp)
  · rename_i hx
    have := List.length_pos_of_ne_nil hx
    rw [← Option.some.inj h, List.length_append, List.length_dropLast, List.length_singleton]
    omega

theorem embed_length_one {d b : ℕ} {y : List ℕ} {t : List ℕ} (ht : t = [] ∨ t = [b]) (h : embed d t = some y) : y.length = 1 := by
  rcases ht with rfl | rfl
  · rw [embed_scalar] at h
    rw [← Option.some.inj h]; rfl
  · by_cases hd : d / 2 = 1
    · have : embed d [b] = some [b + b] := by
        by_cases hb : b = 1 <;> simp [embed, bcast, bcastRev, concatLast, Unet.assert, hd, hb]
      rw [this] at h
      rw [← Option.some.inj h]; rfl
    · rw [embed_vector hd] at h
      split at h
      · rw [← Option.some.inj h]; rfl
      · exact absurd h (by simp)

/-- **C71 fails for `MNISTAutoEncoder`.**  Single images of any size are mapped to two images of 784 pixels; every batch is
refused, with one time for all samples and with one time for each. -/
theorem C71_auto_encoder (d : ℕ) (dimIn : List ℕ) (hdim : dimIn ≠ []) (n : ℕ) (t : List ℕ) (ht : t = [] ∨ t = [n]) :
    autoEncoder [d] [] = some [2 * 784] ∧ autoEncoder (n :: dimIn) t = none := by
  constructor
  · simp [autoEncoder, dense, embed_scalar, concatLast, Unet.assert, squeeze]
  · rcases h : autoEncoder (n :: dimIn) t with _ | r
    · rfl
    simp only [autoEncoder, Option.bind_eq_bind, Option.bind_eq_some_iff] at h
    obtain ⟨x1, h1, x2, h2, t1, h3, t2, h4, t3, h5, z, hz, -⟩ := h
    rw [concat_rank_ne] at hz
    · exact absurd hz (by simp)
    · have := List.length_pos_of_ne_nil hdim
      rw [dense_length h2, dense_length h1, dense_length h5, dense_length h4, embed_length_one ht h3, List.length_cons]
      omega

/-- **C71 fails for `make_simple_st_nn`.**  The default network is refused for every input shape and batch size: its two
halves have different ranks. -/
theorem C71_simple_refused (embedDim : ℕ) (dimIn : List ℕ) (hdim : dimIn ≠ []) (n : ℕ) :
    makeSimpleStNn embedDim dimIn n = none ∧ makeStNn (classicMLP embedDim) dimIn n = none := by
  have key : ∀ t, t = [] ∨ t = [n] → classicMLP embedDim (n :: dimIn) t = none := by
    intro t ht
    rcases h : classicMLP embedDim (n :: dimIn) t with _ | r
    · rfl
    simp only [classicMLP, Option.bind_eq_bind, Option.bind_eq_some_iff] at h
    obtain ⟨-, -, x1, h1, x2, h2, t1, h3, t2, h4, t3, h5, z, hz, -⟩ := h
    rw [concat_rank_ne] at hz
    · exact absurd hz (by simp)
    · have := List.length_pos_of_ne_nil hdim
      rw [dense_length h2, dense_length h1, dense_length h5, dense_length h4, embed_length_one ht h3, List.length_cons]
      omega
  exact ⟨by simp [makeSimpleStNn, key [] (Or.inl rfl)], key [n] (Or.inr rfl)⟩

/-- A single point with a scalar time is accepted by that network. -/
theorem C71_classic_single (d : ℕ) : classicMLP 128 [d] [] = some (if d = 1 then [] else [d]) := by
  by_cases h : d = 1 <;> simp [classicMLP, dense, embed_scalar, concatLast, Unet.assert, squeeze, h]

/-! ### `MNISTResConv` -/

theorem resConv_eq {n : ℕ} (hn : 0 < n) {x : List ℕ} (hx : x.prod = n * 784) (hb : batchOf x = n)
    {t : List ℕ} (ht : embed 32 t = some [32]) : resConv true x t = some (if n = 1 then [784] else [n, 784]) := by
  have h1 : reshape x [n, 28, 28, 1] = some [n, 28, 28, 1] := by
    simp [reshape, Unet.assert, hx]
  have h2 : n * 28 * 28 / n = 784 := by
    rw [Nat.mul_assoc, Nat.mul_div_cancel_left _ hn]
  have h3 : squeeze [n, 784] = if n = 1 then [784] else [n, 784] := by
    by_cases h : n = 1 <;> simp [squeeze, h]
  have h4 : ∀ a b c, bcast4 ⟨n, a, b, c⟩ ⟨n, a, b, c⟩ = some ⟨n, a, b, c⟩ := by
    intro a b c
    simp [bcast4, bcast, bcastRev]
  have h5 : bcast4 ⟨n, 7, 7, 64⟩ ⟨1, 1, 1, 64⟩ = some ⟨n, 7, 7, 64⟩ := by
    by_cases h : n = 1 <;> simp [bcast4, bcast, bcastRev, h]
  simp [resConv, hb, h1, ht, dense, Unet.groupNorm, convSame, Unet.assert, Unet.pixelShuffle, h4, h5, hn, h2, h3]

/-- **C71, `MNISTResConv` with one time.**  A batch of `n` images, or a single image, with a scalar time keeps its number of
images. -/
theorem C71_res_conv {n : ℕ} (hn : 0 < n) {dimIn : List ℕ} (hd : dimIn.prod = 784) :
    resConv true (n :: dimIn) [] = some (if n = 1 then [784] else [n, 784]) ∧ resConv true [784] [] = some [784] := by
  have hne : dimIn ≠ [] := by rintro rfl; simp at hd
  have hl := List.length_pos_of_ne_nil hne
  have ht : embed 32 [] = some [32] := embed_scalar 32
  constructor
  · refine resConv_eq hn (by simp [hd]) ?_ ht
    rw [batchOf, if_neg (by simp; omega)]; rfl
  · exact resConv_eq one_pos (by simp) rfl ht

/-- **C71 fails for `MNISTResConv` with one time per image.**  `make_st_nn`, which initialises a network with one time for each
sample, works with it for the batch sizes 1 and 16 only. -/
theorem C71_res_conv_make (dimIn : List ℕ) (n : ℕ) :
    (∃ r, makeStNn (resConv true) dimIn n = some r) ↔ (n = 1 ∨ n = 16) ∧ dimIn.prod = 784 := by
  constructor
  · rintro ⟨r, h⟩
    simp only [makeStNn, resConv, Option.bind_eq_bind, Option.bind_eq_some_iff] at h
    obtain ⟨s, hs, -, -, -, -, t1, ht, -⟩ := h
    rw [embed_vector (by norm_num)] at ht
    split at ht
    · rename_i h1
      have h1 : n = 1 ∨ n = 16 := by omega
      refine ⟨h1, ?_⟩
      have h2 : (n :: dimIn).prod = [batchOf (n :: dimIn), 28, 28, 1].prod := by
        by_contra hc
        simp only [reshape, Unet.assert, if_neg hc] at hs
        exact absurd hs (by simp)
      by_cases hd : dimIn = []
      · subst hd
        simp [batchOf] at h2; omega
      · have := List.length_pos_of_ne_nil hd
        rw [batchOf, if_neg (by simp; omega)] at h2
        simp at h2
        omega
    · exact absurd ht (by simp)
  · rintro ⟨hn, hd⟩
    have hne : dimIn ≠ [] := by rintro rfl; simp at hd
    have hl := List.length_pos_of_ne_nil hne
    refine ⟨_, resConv_eq (n := n) (by omega) (by simp [hd]) ?_ ?_⟩
    · rw [batchOf, if_neg (by simp; omega)]; rfl
    · rw [embed_vector (by norm_num), if_pos (by omega)]

/-- **C71 fails for the other decoder of `MNISTResConv`.**  It refuses every input. -/
theorem C71_res_conv_resize (x t : List ℕ) : resConv false x t = none := by
  rcases h : resConv false x t with _ | r
  · rfl
  simp only [resConv, Option.bind_eq_bind, Option.bind_eq_some_iff, Unet.assert] at h
  obtain ⟨-, -, -, -, -, -, -, -, -, -, -, -, -, -, -, -, u, hu, -⟩ := h
  simp at hu

/-- **C71, strided convolutions.**  A convolution with padding `'SAME'` has one output row (column) for each multiple of the
stride that is the index of a row (column) of the input. -/
theorem C71_conv_same (features : ℕ) {s : ℕ} (hs : 0 < s) (x : Unet.Shape) :
    (convSame features s x).b = x.b ∧ (convSame features s x).c = features ∧
      (convSame features s x).h = ((Finset.range x.h).filter (s ∣ ·)).card ∧
      (convSame features s x).w = ((Finset.range x.w).filter (s ∣ ·)).card := by
  have h : ∀ n : ℕ, (n + s - 1) / s = ((Finset.range n).filter (s ∣ ·)).card := by
    intro n
    have h1 : (Finset.range n).filter (s ∣ ·) = (Finset.range ((n + s - 1) / s)).image (s * ·) := by
      ext i
      have h2 : ∀ j, j < (n + s - 1) / s ↔ s * j < n := fun j => by
        rw [Nat.lt_iff_add_one_le, Nat.le_div_iff_mul_le hs, Nat.add_one_mul, Nat.mul_comm j s]
        omega
      simp only [Finset.mem_filter, Finset.mem_range, Finset.mem_image, h2]
      constructor
      · rintro ⟨hi, j, rfl⟩
        exact ⟨j, hi, rfl⟩
      · rintro ⟨j, hj, rfl⟩
        exact ⟨hj, dvd_mul_right _ _⟩
    rw [h1, Finset.card_image_of_injective _ (fun a b hab => Nat.eq_of_mul_eq_mul_left hs hab), Finset.card_range]
  exact ⟨rfl, rfl, h _, h _⟩

/-! ### The hypotheses can be met -/

/-- The crescent experiment: three coordinates, 64 points. -/
example : crescentMLP [256, 256, 128, 64, 32, 16] 3 [64, 3] [64] = some [64, 3] := (C71_crescent _ (by norm_num) 3).1

example : makeStNn (resConv true) [28, 28] 64 = none :=
  Option.eq_none_iff_forall_ne_some.2 fun r h => by
    have := ((C71_res_conv_make [28, 28] 64).1 ⟨r, h⟩).1
    omega

/-- Seven rows and columns: four of them have even indices. -/
example : (convSame 64 2 ⟨3, 7, 7, 32⟩).h = ((Finset.range 7).filter (2 ∣ ·)).card :=
  (C71_conv_same 64 two_pos ⟨3, 7, 7, 32⟩).2.2.1

example : ([28, 28] : List ℕ).prod = 784 ∧ ([784] : List ℕ).prod = 784 := by decide

end Props
end Fbs
