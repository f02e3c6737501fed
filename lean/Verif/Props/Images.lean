import Verif.Model.Images
import Mathlib.Tactic.Linarith
import Mathlib.Tactic.FieldSimp
import Mathlib.Tactic.Ring

/-!
# C45, C51: image helpers
-/

open scoped ENNReal

namespace Fbs
namespace Props

open Images Jax

variable {h w c : ℕ}

/-! ### Channels -/

/-- **C45.**  Cutting a joined pair of images gives the pair back. -/
theorem C45_unpack_concat {P α : Type} {c : ℕ} (x y : P → List α) (hx : ∀ p, (x p).length = c) :
    Images.unpack c (Images.concat x y) = (x, y) := by
  refine Prod.ext (funext fun p => ?_) (funext fun p => ?_)
  · show (x p ++ y p).take c = x p
    rw [← hx p, List.take_left]
  · show (x p ++ y p).drop c = y p
    rw [← hx p, List.drop_left]

/-- **C45.**  Joining the parts of a cut array gives the array back, and the first part has `c` channels when the array
has at least as many. -/
theorem C45_concat_unpack {P α : Type} (c : ℕ) (xy : P → List α) :
    Images.concat (Images.unpack c xy).1 (Images.unpack c xy).2 = xy ∧
    ∀ p, c ≤ (xy p).length → ((Images.unpack c xy).1 p).length = c :=
  ⟨funext fun _ => List.take_append_drop _ _, fun _ hp => by
    rw [Images.unpack, List.length_take, min_eq_left hp]⟩

/-- **C45.**  With `expand=True` two arrays without channel axis become the two channels. -/
theorem C45_expand {P α : Type} (x y : P → α) :
    concatExpand x y = (fun p => [x p, y p]) ∧
    Images.unpack 1 (concatExpand x y) = (fun p => [x p], fun p => [y p]) := ⟨rfl, rfl⟩

/-! ### Normalisation -/

/-- **C45, clip.**  Values land in `[0, 1]`, the order is kept, values in `[0, 1]` are unchanged (so clipping twice is
clipping once), and no value of `[0, 1]` is nearer. -/
theorem C45_clip (x : ℝ) :
    (0 ≤ clip x ∧ clip x ≤ 1) ∧ (∀ y, x ≤ y → clip x ≤ clip y) ∧ (0 ≤ x → x ≤ 1 → clip x = x) ∧
    clip (clip x) = clip x ∧ ∀ z, 0 ≤ z → z ≤ 1 → |clip x - x| ≤ |z - x| := by
  have hb : ∀ x : ℝ, clip x = max 0 (min 1 x) := by
    intro x
    unfold clip
    by_cases h1 : x < 0
    · have : ¬ (0 : ℝ) > 1 := by norm_num
      simp only [h1, if_true, this, if_false]
      rw [min_eq_right (by linarith), max_eq_left h1.le]
    · simp only [h1, if_false]
      split
      · rw [min_eq_left (by linarith), max_eq_right zero_le_one]
      · rw [min_eq_right (by linarith), max_eq_right (not_lt.1 h1)]
  have hmem : ∀ x, 0 ≤ clip x ∧ clip x ≤ 1 := fun x => by
    rw [hb]; exact ⟨le_max_left _ _, max_le zero_le_one (min_le_left _ _)⟩
  have hid : ∀ x, 0 ≤ x → x ≤ 1 → clip x = x := fun x h0 h1 => by
    rw [hb, min_eq_right h1, max_eq_right h0]
  refine ⟨hmem x, fun y hy => ?_, hid x, hid _ (hmem x).1 (hmem x).2, fun z h0 h1 => ?_⟩
  · rw [hb, hb]; exact max_le_max le_rfl (min_le_min le_rfl hy)
  · rcases lt_or_ge x 0 with hx | hx
    · rw [hb, min_eq_right (by linarith), max_eq_left hx.le, abs_of_nonneg (by linarith), abs_of_nonneg (by linarith)]
      linarith
    · rcases le_or_gt x 1 with hx1 | hx1
      · rw [hid x hx hx1, sub_self, abs_zero]; exact abs_nonneg _
      · rw [hb, min_eq_left hx1.le, max_eq_right zero_le_one, abs_of_neg (by linarith), abs_of_nonpos (by linarith)]
        linarith

section Norm
variable [NeZero h] [NeZero w]

theorem minOver_le (img : Fin h → Fin w → Fin c → ℝ) (i j k) : minOver img k ≤ img i j k :=
  Finset.inf'_le (f := fun p : Fin h × Fin w => img p.1 p.2 k) (Finset.mem_univ (i, j))

theorem le_maxOver (img : Fin h → Fin w → Fin c → ℝ) (i j k) : img i j k ≤ maxOver img k :=
  Finset.le_sup' (f := fun p : Fin h × Fin w => img p.1 p.2 k) (Finset.mem_univ (i, j))

theorem exists_min (img : Fin h → Fin w → Fin c → ℝ) (k) : ∃ i j, img i j k = minOver img k := by
  obtain ⟨p, -, hp⟩ := Finset.exists_mem_eq_inf' (s := (Finset.univ : Finset (Fin h × Fin w)))
    ⟨(0, 0), Finset.mem_univ _⟩ fun p => img p.1 p.2 k
  exact ⟨p.1, p.2, hp.symm⟩

theorem exists_max (img : Fin h → Fin w → Fin c → ℝ) (k) : ∃ i j, img i j k = maxOver img k := by
  obtain ⟨p, -, hp⟩ := Finset.exists_mem_eq_sup' (s := (Finset.univ : Finset (Fin h × Fin w)))
    ⟨(0, 0), Finset.mem_univ _⟩ fun p => img p.1 p.2 k
  exact ⟨p.1, p.2, hp.symm⟩

/-- **C45, norm.**  The result is defined (not `nan`) at a channel exactly when the channel is not constant. -/
theorem C45_norm_defined (img : Fin h → Fin w → Fin c → ℝ) (k : Fin c) :
    (∀ i j, (minMax img i j k).isSome) ↔ ∃ i j i' j', img i j k ≠ img i' j' k := by
  obtain ⟨i0, j0, h0⟩ := exists_min img k
  obtain ⟨i1, j1, h1⟩ := exists_max img k
  constructor
  · intro hs
    refine ⟨i0, j0, i1, j1, fun he => ?_⟩
    have := hs i0 j0
    rw [minMax, if_pos (by rw [← h0, ← h1, he])] at this
    simp at this
  · rintro ⟨i, j, i', j', hne⟩ a b
    have hmm : maxOver img k ≠ minOver img k := fun he => hne (by
      have e1 := minOver_le img i j k
      have e2 := le_maxOver img i j k
      have e3 := minOver_le img i' j' k
      have e4 := le_maxOver img i' j' k
      linarith)
    rw [minMax, if_neg hmm]; rfl

/-- **C45, norm.**  Where defined, values land in `[0, 1]`, the order within a channel is kept, and both ends
are attained. -/
theorem C45_norm (img : Fin h → Fin w → Fin c → ℝ) (out : Fin h → Fin w → Fin c → ℝ)
    (hout : ∀ i j k, minMax img i j k = some (out i j k)) (k : Fin c) :
    (∀ i j, 0 ≤ out i j k ∧ out i j k ≤ 1) ∧
    (∀ i j i' j', img i j k ≤ img i' j' k ↔ out i j k ≤ out i' j' k) ∧
    (∃ i j, out i j k = 0) ∧ (∃ i j, out i j k = 1) := by
  have hmm : maxOver img k ≠ minOver img k := fun he => by
    have := hout 0 0 k
    rw [minMax, if_pos he] at this
    cases this
  have hlt : minOver img k < maxOver img k :=
    lt_of_le_of_ne ((minOver_le img 0 0 k).trans (le_maxOver img 0 0 k)) hmm.symm
  have hd : 0 < maxOver img k - minOver img k := sub_pos.2 hlt
  have ho : ∀ i j, out i j k = (img i j k - minOver img k) / (maxOver img k - minOver img k) := fun i j => by
    have := hout i j k
    rw [minMax, if_neg hmm] at this
    exact (Option.some.inj this).symm
  refine ⟨fun i j => ?_, fun i j i' j' => ?_, ?_, ?_⟩
  · rw [ho]
    exact ⟨div_nonneg (sub_nonneg.2 (minOver_le img i j k)) hd.le,
      (div_le_one hd).2 (by linarith [le_maxOver img i j k])⟩
  · rw [ho, ho, div_le_div_iff_of_pos_right hd]
    constructor <;> intro _ <;> linarith
  · obtain ⟨i, j, hij⟩ := exists_min img k
    exact ⟨i, j, by rw [ho, hij, sub_self, zero_div]⟩
  · obtain ⟨i, j, hij⟩ := exists_max img k
    exact ⟨i, j, by rw [ho, hij, div_self hd.ne']⟩

/-- **C45, norm.**  Normalising twice is normalising once. -/
theorem C45_norm_idempotent (img : Fin h → Fin w → Fin c → ℝ) (out : Fin h → Fin w → Fin c → ℝ)
    (hout : ∀ i j k, minMax img i j k = some (out i j k)) : ∀ i j k, minMax out i j k = some (out i j k) := by
  intro i j k
  obtain ⟨h1, -, ⟨i0, j0, h3⟩, ⟨i1, j1, h4⟩⟩ := C45_norm img out hout k
  have hmin : minOver out k = 0 := by
    obtain ⟨a, b, hab⟩ := exists_min out k
    exact le_antisymm (h3 ▸ minOver_le out i0 j0 k) (hab ▸ (h1 a b).1)
  have hmax : maxOver out k = 1 := by
    obtain ⟨a, b, hab⟩ := exists_max out k
    exact le_antisymm (hab ▸ (h1 a b).2) (h4 ▸ le_maxOver out i1 j1 k)
  rw [minMax, if_neg (by rw [hmin, hmax]; exact one_ne_zero), hmin, hmax]
  simp

/-- **C45, norm.**  The result does not depend on brightness and contrast. -/
theorem C45_norm_affine (img : Fin h → Fin w → Fin c → ℝ) {a : ℝ} (ha : 0 < a) (b : ℝ) (i j k) :
    minMax (fun i j k => a * img i j k + b) i j k = minMax img i j k := by
  have hmin : minOver (fun i j k => a * img i j k + b) k = a * minOver img k + b := by
    obtain ⟨i0, j0, h0⟩ := exists_min img k
    obtain ⟨i1, j1, h1⟩ := exists_min (fun i j k => a * img i j k + b) k
    refine le_antisymm (h0 ▸ minOver_le (fun i j k => a * img i j k + b) i0 j0 k) (h1 ▸ ?_)
    have := mul_le_mul_of_nonneg_left (minOver_le img i1 j1 k) ha.le
    linarith
  have hmax : maxOver (fun i j k => a * img i j k + b) k = a * maxOver img k + b := by
    obtain ⟨i0, j0, h0⟩ := exists_max img k
    obtain ⟨i1, j1, h1⟩ := exists_max (fun i j k => a * img i j k + b) k
    refine le_antisymm (h1 ▸ ?_) (h0 ▸ le_maxOver (fun i j k => a * img i j k + b) i0 j0 k)
    have := mul_le_mul_of_nonneg_left (le_maxOver img i1 j1 k) ha.le
    linarith
  simp only [minMax, hmin, hmax, add_left_inj, mul_right_inj' ha.ne']
  split
  · rfl
  · rename_i hne
    have hd : maxOver img k - minOver img k ≠ 0 := sub_ne_zero.2 hne
    congr 1
    rw [add_sub_add_right_eq_sub, add_sub_add_right_eq_sub, ← mul_sub, ← mul_sub, mul_div_mul_left _ _ ha.ne']

end Norm

/-! ### Painting -/

theorem corner_bounds {n r a : ℕ} (hr : r ≤ n) (ha : a ≤ 3) : 0 ≤ corner n r a ∧ corner n r a + r ≤ n := by
  have e : (n : ℤ) - r = ((n - r : ℕ) : ℤ) := by omega
  have hc : corner n r a = (((n - r) * a / 3 : ℕ) : ℤ) := by
    rw [corner, e, Int.tdiv_eq_ediv_of_nonneg (by positivity)]
    push_cast; rfl
  have h2 : (n - r) * a / 3 ≤ n - r := by
    calc (n - r) * a / 3 ≤ (n - r) * 3 / 3 := Nat.div_le_div_right (Nat.mul_le_mul_left _ ha)
      _ = n - r := Nat.mul_div_cancel _ (by norm_num)
  rw [hc]
  omega

/-- **C45, paint.**  When the rectangle fits, painting sets all channels of exactly the pixels of one square of the
given size inside the image to zero and leaves the others as they are. -/
theorem C45_paint {key : Key} {img out : Fin h → Fin w → Fin c → ℝ} {r : ℕ} (hh : r ≤ h) (hw : r ≤ w)
    (hp : (paint key img r).Returns out) :
    ∃ i0 j0 : ℕ, i0 + r ≤ h ∧ j0 + r ≤ w ∧ ∀ (x : Fin h) (y : Fin w) (k : Fin c), out x y k =
      if (i0 ≤ x ∧ (x : ℕ) < i0 + r) ∧ j0 ≤ y ∧ (y : ℕ) < j0 + r then 0 else img x y k := by
  obtain ⟨m, -, rfl⟩ := Rand.returns_map.1 hp
  have hm1 : (m : ℕ) / 4 ≤ 3 := by omega
  have hm2 : (m : ℕ) % 4 ≤ 3 := by omega
  obtain ⟨a1, a2⟩ := corner_bounds hh hm1
  obtain ⟨b1, b2⟩ := corner_bounds hw hm2
  refine ⟨(corner h r (m / 4)).toNat, (corner w r (m % 4)).toNat, by omega, by omega, fun x y k => ?_⟩
  have hs : ∀ {n : ℕ} {i : ℤ} (x : Fin n), 0 ≤ i → i + r ≤ n →
      (inSlice n i (i + r) x ↔ i.toNat ≤ x ∧ (x : ℕ) < i.toNat + r) := by
    intro n i x h0 h1
    have := x.2
    rw [inSlice, pyBound, pyBound, if_neg (by omega), if_neg (by omega), min_eq_left (by omega), min_eq_left h1]
    omega
  simp only [mask, hs x a1 a2, hs y b1 b2]
  split <;> simp

/-- **C45, paint fails for rectangles larger than the image.**  A square of side 7 on a `4 × 4` image may blacken a single
pixel: its corner `(-1, -1)` counts from the end. -/
theorem C45_paint_large (key : Key) (img : Fin 4 → Fin 4 → Fin c → ℝ) :
    (paint key img 7).Returns fun x y k => if x = 3 ∧ y = 3 then 0 else img x y k := by
  refine Rand.returns_map.2 ⟨⟨5, by norm_num⟩, Rand.returns_sample.2 trivial, ?_⟩
  have hc : ∀ x : Fin 4, inSlice 4 (corner 4 7 1) (corner 4 7 1 + (7 : ℕ)) x ↔ x = 3 := by decide
  funext x y k
  show _ = img x y k * mask 7 (corner 4 7 1) (corner 4 7 1) x y
  simp only [mask, hc]
  split <;> simp

/-- **C45, paint.**  The corners are reachable: the square may touch each of the four corners of the image. -/
theorem C45_paint_corners (key : Key) (img : Fin h → Fin w → Fin c → ℝ) {r : ℕ} (hh : r ≤ h) (hw : r ≤ w)
    (i0 j0 : ℕ) (hi : i0 = 0 ∨ i0 = h - r) (hj : j0 = 0 ∨ j0 = w - r) :
    (paint key img r).Returns fun x y k =>
      if (i0 ≤ x ∧ (x : ℕ) < i0 + r) ∧ j0 ≤ y ∧ (y : ℕ) < j0 + r then 0 else img x y k := by
  have hc : ∀ {n : ℕ}, r ≤ n → ∀ {i : ℕ}, (i = 0 ∨ i = n - r) → ∃ a : ℕ, a ≤ 3 ∧ corner n r a = i := by
    intro n hn i hi
    rcases hi with rfl | rfl
    · exact ⟨0, by norm_num, by simp [corner]⟩
    · refine ⟨3, le_rfl, ?_⟩
      rw [corner, show ((3 : ℕ) : ℤ) = 3 by rfl, Int.mul_tdiv_cancel _ (by norm_num)]
      omega
  obtain ⟨a, ha, ha'⟩ := hc hh hi
  obtain ⟨b, hb, hb'⟩ := hc hw hj
  refine Rand.returns_map.2 ⟨⟨4 * a + b, by omega⟩, Rand.returns_sample.2 trivial, ?_⟩
  funext x y k
  have e1 : (4 * a + b) / 4 = a := by omega
  have e2 : (4 * a + b) % 4 = b := by omega
  have hs : ∀ {n : ℕ} {i : ℕ} (x : Fin n), i + r ≤ n →
      (inSlice n (i : ℤ) ((i : ℤ) + r) x ↔ i ≤ x ∧ (x : ℕ) < i + r) := by
    intro n i x h1
    have := x.2
    rw [inSlice, pyBound, pyBound, if_neg (by omega), if_neg (by omega), min_eq_left (by omega), min_eq_left (by omega)]
    omega
  simp only [mask, e1, e2, ha', hb', hs (i := i0) x (by omega), hs (i := j0) y (by omega)]
  split <;> simp

/-! ### Downsampling -/

theorem nearest_shrink {r p i : ℕ} (hp : 0 < p) : nearest (r * p) p i = i * r + r / 2 := by
  unfold nearest
  rw [show (2 * i + 1) * (r * p) = p * ((2 * i + 1) * r) by ring, show 2 * p = p * 2 by ring,
    Nat.mul_div_mul_left _ _ hp, show (2 * i + 1) * r = 2 * (i * r) + r by ring, Nat.mul_add_div two_pos]

theorem nearest_grow {r p i : ℕ} (hp : 0 < p) : nearest p (r * p) i = i / r := by
  unfold nearest
  rw [show 2 * (r * p) = (2 * r) * p by ring, Nat.mul_div_mul_right _ _ hp, ← Nat.div_div_eq_div_mul]
  congr 1
  omega

/-- **C51.**  When the ratio divides both sides, downsampling replaces every pixel by the pixel in the middle of its
block (`ratio / 2` from the corner, the pixel that the non-random super-resolution mask observes). -/
theorem C51_down {p q r : ℕ} (hr : 0 < r) (hp : 0 < p) (hq : 0 < q) (img : Fin (r * p) → Fin (r * q) → Fin c → ℝ)
    (hh : 0 < r * p / r) (hw : 0 < r * q / r) (i : Fin (r * p)) (j : Fin (r * q)) (k : Fin c)
    (hi : (i : ℕ) / r * r + r / 2 < r * p) (hj : (j : ℕ) / r * r + r / 2 < r * q) :
    down img r hh hw i j k = img ⟨i / r * r + r / 2, hi⟩ ⟨j / r * r + r / 2, hj⟩ k := by
  have ep : r * p / r = p := Nat.mul_div_cancel_left _ hr
  have eq : r * q / r = q := Nat.mul_div_cancel_left _ hr
  simp only [down]
  congr 2
  · simp only [ep, nearest_shrink hp, nearest_grow hp]
  · simp only [eq, nearest_shrink hq, nearest_grow hq]

theorem block_lt {p r i : ℕ} (hr : 0 < r) (hi : i < r * p) : i / r * r + r / 2 < r * p := by
  have h1 : i / r < p := (Nat.div_lt_iff_lt_mul hr).2 (by rwa [Nat.mul_comm])
  calc i / r * r + r / 2 < i / r * r + r := Nat.add_lt_add_left (Nat.div_lt_self hr one_lt_two) _
    _ = r * (i / r + 1) := by ring
    _ ≤ r * p := Nat.mul_le_mul_left _ h1

/-- **C51.**  Downsampled images are constant on blocks, and downsampling again changes nothing. -/
theorem C51_blocks {p q r : ℕ} (hr : 0 < r) (hp : 0 < p) (hq : 0 < q) (img : Fin (r * p) → Fin (r * q) → Fin c → ℝ)
    (hh : 0 < r * p / r) (hw : 0 < r * q / r) :
    (∀ (i i' : Fin (r * p)) (j j' : Fin (r * q)) (k : Fin c), (i : ℕ) / r = i' / r → (j : ℕ) / r = j' / r →
      down img r hh hw i j k = down img r hh hw i' j' k) ∧
    down (down img r hh hw) r hh hw = down img r hh hw := by
  have hblk : ∀ a : ℕ, (a * r + r / 2) / r = a := fun a => by
    rw [Nat.mul_comm, Nat.mul_add_div hr, Nat.div_eq_of_lt (Nat.div_lt_self hr one_lt_two), Nat.add_zero]
  refine ⟨fun i i' j j' k e1 e2 => ?_, funext fun i => funext fun j => funext fun k => ?_⟩
  · rw [C51_down hr hp hq img hh hw i j k (block_lt hr i.2) (block_lt hr j.2),
      C51_down hr hp hq img hh hw i' j' k (block_lt hr i'.2) (block_lt hr j'.2)]
    simp only [e1, e2]
  · rw [C51_down hr hp hq _ hh hw i j k (block_lt hr i.2) (block_lt hr j.2),
      C51_down hr hp hq img hh hw _ _ k (block_lt hr (block_lt hr i.2)) (block_lt hr (block_lt hr j.2)),
      C51_down hr hp hq img hh hw i j k (block_lt hr i.2) (block_lt hr j.2)]
    simp only [hblk]

/-- The centre of the block of size `r` containing a pixel is a pixel of the image. -/
theorem centre_lt {n r i : ℕ} (hr : 0 < r) (hd : r ∣ n) (hi : i < n) : i / r * r + r / 2 < n := by
  obtain ⟨p, rfl⟩ := hd
  exact block_lt hr hi

theorem down_centre {r : ℕ} (hr : 0 < r) (hdh : r ∣ h) (hdw : r ∣ w) (img : Fin h → Fin w → Fin c → ℝ)
    (hh : 0 < h / r) (hw : 0 < w / r) :
    down img r hh hw = fun (i : Fin h) (j : Fin w) k => img ⟨i / r * r + r / 2, centre_lt hr hdh i.2⟩
      ⟨j / r * r + r / 2, centre_lt hr hdw j.2⟩ k := by
  obtain ⟨p, rfl⟩ := hdh
  obtain ⟨q, rfl⟩ := hdw
  have hp : 0 < p := by rwa [Nat.mul_div_cancel_left _ hr] at hh
  have hq : 0 < q := by rwa [Nat.mul_div_cancel_left _ hr] at hw
  funext i j k
  exact C51_down hr hp hq img hh hw i j k _ _

/-- **C51, law.**  With probability one half each, every pixel is replaced by the centre of its block of 4 or of 8. -/
theorem C51_downsample (key : Key) (img : Fin h → Fin w → Fin c → ℝ) (hh : 8 ≤ h) (hw : 8 ≤ w) (hdh : 8 ∣ h)
    (hdw : 8 ∣ w) (f : (Fin h → Fin w → Fin c → ℝ) → ℝ≥0∞) :
    (downsample key img hh hw).E f =
      (2 : ℝ≥0∞)⁻¹ * f (fun (i : Fin h) (j : Fin w) k => img ⟨i / 4 * 4 + 2, centre_lt (by norm_num) ((by norm_num : 4 ∣ 8).trans hdh) i.2⟩
        ⟨j / 4 * 4 + 2, centre_lt (by norm_num) ((by norm_num : 4 ∣ 8).trans hdw) j.2⟩ k) +
      (2 : ℝ≥0∞)⁻¹ * f (fun (i : Fin h) (j : Fin w) k => img ⟨i / 8 * 8 + 4, centre_lt (by norm_num) hdh i.2⟩
        ⟨j / 8 * 8 + 4, centre_lt (by norm_num) hdw j.2⟩ k) := by
  rw [downsample, Rand.E_map, randint, Rand.E_sample, MeasureTheory.lintegral_smul_measure,
    MeasureTheory.lintegral_count, tsum_fintype, Fin.sum_univ_two]
  rw [if_pos rfl, if_neg (by decide), down_centre (by norm_num) ((by norm_num : 4 ∣ 8).trans hdh)
    ((by norm_num : 4 ∣ 8).trans hdw), down_centre (by norm_num) hdh hdw, smul_eq_mul, mul_add]
  rfl

/-! ### The hypotheses can be met -/

/-- A channel with two values. -/
example : ∃ img : Fin 2 → Fin 1 → Fin 1 → ℝ, ∀ i j, (minMax img i j 0).isSome :=
  ⟨fun i _ _ => (i : ℕ), (C45_norm_defined _ _).2 ⟨0, 0, 1, 0, by simp⟩⟩

/-- The MNIST setting of the code: a square of 15 in a 28 × 28 image. -/
example (key : Key) (img : Fin 28 → Fin 28 → Fin 1 → ℝ) : ∃ out, (paint key img 15).Returns out :=
  ⟨_, C45_paint_corners key img (by norm_num) (by norm_num) 0 13 (Or.inl rfl) (Or.inr rfl)⟩

end Props
end Fbs
