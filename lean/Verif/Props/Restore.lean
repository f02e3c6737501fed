import Verif.Model.Restore
import Mathlib.Data.List.Nodup
import Mathlib.Data.List.Perm.Basic
import Mathlib.Tactic.Ring
import Mathlib.Tactic.Linarith

/-!
# C44: masks for image restoration
-/

namespace Fbs
namespace Props

open Restore Data Jax

variable {α : Type}

/-! ### Index arithmetic -/

theorem mem_prod {β : Type} {l : List α} {m : List β} {p : α × β} : p ∈ l.product m ↔ p.1 ∈ l ∧ p.2 ∈ m :=
  List.mem_product (a := p.1) (b := p.2)

theorem length_prod {β : Type} (l : List α) (m : List β) : (l.product m).length = l.length * m.length :=
  List.length_product l m

theorem ravel_of_lt {w h i j : ℕ} (hi : i < w) (hj : j < h) : ravel w h i j = i * h + j := by
  rw [ravel, min_eq_left (by omega), min_eq_left (by omega)]

theorem product_ravel (h : ℕ) : ∀ w : ℕ,
    ((List.range w).product (List.range h)).map (fun p => p.1 * h + p.2) = List.range (w * h)
  | 0 => by simp [List.product]
  | w + 1 => by
    have ih := product_ravel h w
    rw [List.product] at ih ⊢
    rw [List.range_succ, List.flatMap_append, List.map_append, ih, Nat.succ_mul, List.range_add]
    simp

theorem allInds_eq (w h : ℕ) : allInds w h = List.range (w * h) := by
  rw [← product_ravel, allInds]
  refine List.map_congr_left fun p hp => ?_
  rw [mem_prod, List.mem_range, List.mem_range] at hp
  exact ravel_of_lt hp.1 hp.2

theorem broadcast_eq {β : Type} {l : List α} {m : List β} (h : l.length = m.length) : broadcast l m = .ok (l.zip m) := by
  unfold broadcast
  exact if_pos h

theorem scatter_eq {img x : List α} {inds : List ℕ} (h : x.length = inds.length) :
    scatter img inds x = .ok ((inds.zip x).foldl (fun im p => im.set p.1 p.2) img) := by
  unfold scatter
  exact if_pos h

/-- Removing a set of distinct positions leaves the others, in order and without padding. -/
theorem setdiff_partition {N : ℕ} {l : List ℕ} (hnd : l.Nodup) (hlt : ∀ a ∈ l, a < N) {size : ℕ}
    (hs : size = N - l.length) :
    (l ++ setdiff1d (List.range N) l size).Perm (List.range N) ∧ (setdiff1d (List.range N) l size).length = size := by
  have hp : (l ++ (List.range N).filter fun a => a ∉ l).Perm (List.range N) := by
    refine (List.perm_ext_iff_of_nodup ?_ List.nodup_range).2 fun a => ?_
    · refine List.Nodup.append hnd (List.nodup_range.filter _) ?_
      intro a ha ha'
      simp only [List.mem_filter, decide_eq_true_eq] at ha'
      exact ha'.2 ha
    · simp only [List.mem_append, List.mem_filter, List.mem_range, decide_eq_true_eq]
      constructor
      · rintro (h | h)
        · exact hlt a h
        · exact h.1
      · intro h
        by_cases ha : a ∈ l
        · exact Or.inl ha
        · exact Or.inr ⟨h, ha⟩
  have hlen : ((List.range N).filter fun a => a ∉ l).length = size := by
    have := hp.length_eq
    rw [List.length_append, List.length_range] at this
    omega
  have he : setdiff1d (List.range N) l size = (List.range N).filter fun a => a ∉ l := by
    simp only [setdiff1d]
    rw [hlen, Nat.sub_self, List.replicate_zero, List.append_nil, ← hlen, List.take_length]
  rw [he]
  exact ⟨hp, hlen⟩

/-! ### Inpainting -/

theorem randintTo_lt {key : Key} {m : ℤ} {s : ℕ} (h : (randintTo key m).Returns s) : s = 0 ∨ (s : ℤ) < m := by
  unfold randintTo at h
  split at h
  · obtain ⟨a, -, rfl⟩ := Rand.returns_map.1 h
    right
    have := a.2
    omega
  · obtain ⟨a, -, rfl⟩ := Rand.returns_map.1 h
    exact Or.inl rfl

/-- **C44, inpainting.**  For every image shape, rectangle size and draw, the unobserved pixels are those of a
rectangle of the (clipped) size inside the image, each once, the observed ones are the rest, each once, and the two
index arrays have the sizes that the code declares. -/
theorem C44_inpaint {w h : ℕ} {key : Key} {width height : ℕ} {mask : Mask}
    (hm : (inpaintMask w h key width height).Returns mask) :
    (mask.unobs ++ mask.obs).Perm (List.range (w * h)) ∧
    mask.unobs.length = min width w * min height h ∧
    mask.obs.length = w * h - min width w * min height h ∧
    ∃ shift, shift + min width w ≤ w ∧ shift + min height h ≤ h ∧
      ∀ k < w * h, k ∈ mask.unobs ↔
        (shift ≤ k / h ∧ k / h < shift + min width w) ∧ shift ≤ k % h ∧ k % h < shift + min height h := by
  obtain ⟨shift, hs, hr⟩ := Rand.returns_bind.1 hm
  have := Rand.returns_ret.1 hr
  subst this
  set W := min width w with hW
  set H := min height h with hH
  have hWw : W ≤ w := min_le_right _ _
  have hHh : H ≤ h := min_le_right _ _
  have hsW : shift + W ≤ w ∧ shift + H ≤ h := by
    rcases randintTo_lt hs with h0 | h0
    · subst h0; omega
    · omega
  have hrect : (((List.range W).product (List.range H)).map fun p => ravel w h (p.1 + shift) (p.2 + shift)) =
      ((List.range W).product (List.range H)).map fun p => (p.1 + shift) * h + (p.2 + shift) := by
    refine List.map_congr_left fun p hp => ?_
    rw [mem_prod, List.mem_range, List.mem_range] at hp
    exact ravel_of_lt (by omega) (by omega)
  have hdm : ∀ i j, j < h → (i * h + j) / h = i ∧ (i * h + j) % h = j := fun i j hj =>
    ⟨by rw [Nat.mul_comm, Nat.mul_add_div (by omega), Nat.div_eq_of_lt hj, Nat.add_zero],
     by rw [Nat.mul_comm, Nat.mul_add_mod, Nat.mod_eq_of_lt hj]⟩
  have hnd : (((List.range W).product (List.range H)).map fun p => (p.1 + shift) * h + (p.2 + shift)).Nodup := by
    refine (List.Nodup.product List.nodup_range List.nodup_range).map_on fun p hp q hq hpq => ?_
    rw [mem_prod, List.mem_range, List.mem_range] at hp hq
    have h1 := hdm (p.1 + shift) (p.2 + shift) (by omega)
    have h2 := hdm (q.1 + shift) (q.2 + shift) (by omega)
    rw [hpq] at h1
    exact Prod.ext (by omega) (by omega)
  have hmem : ∀ k, k ∈ (((List.range W).product (List.range H)).map fun p => (p.1 + shift) * h + (p.2 + shift)) ↔
      ∃ i j, i < W ∧ j < H ∧ (i + shift) * h + (j + shift) = k := by
    intro k
    simp only [List.mem_map, mem_prod, List.mem_range, Prod.exists]
    exact ⟨fun ⟨i, j, h1, h2⟩ => ⟨i, j, h1.1, h1.2, h2⟩, fun ⟨i, j, h1, h2, h3⟩ => ⟨i, j, ⟨h1, h2⟩, h3⟩⟩
  have hlt : ∀ a ∈ (((List.range W).product (List.range H)).map fun p => (p.1 + shift) * h + (p.2 + shift)),
      a < w * h := by
    intro a ha
    obtain ⟨i, j, hi, hj, rfl⟩ := (hmem a).1 ha
    calc (i + shift) * h + (j + shift) < (i + shift) * h + h := by omega
      _ = (i + shift + 1) * h := by ring
      _ ≤ w * h := Nat.mul_le_mul_right _ (by omega)
  have hlen : (((List.range W).product (List.range H)).map fun p => (p.1 + shift) * h + (p.2 + shift)).length = W * H := by
    simp [length_prod]
  obtain ⟨hp, hl⟩ := setdiff_partition hnd hlt (size := w * h - W * H) (by rw [hlen])
  simp only [hrect, allInds_eq]
  refine ⟨hp, hlen, hl, shift, hsW.1, hsW.2, fun k hk => ?_⟩
  rw [hmem]
  have hh : 0 < h := Nat.pos_of_ne_zero fun h0 => by subst h0; omega
  constructor
  · rintro ⟨i, j, hi, hj, rfl⟩
    obtain ⟨h1, h2⟩ := hdm (i + shift) (j + shift) (by omega)
    rw [h1, h2]; omega
  · rintro ⟨⟨h1, h2⟩, h3, h4⟩
    refine ⟨k / h - shift, k % h - shift, by omega, by omega, ?_⟩
    rw [Nat.sub_add_cancel h1, Nat.sub_add_cancel h3, Nat.mul_comm, Nat.div_add_mod]

/-! ### Super-resolution -/

theorem shifts_ok {key : Key} {nblocks rate : ℕ} (hr : 0 < rate) {random : Bool} {sh : List (ℕ × ℕ)}
    (h : (shifts key nblocks rate random).Returns sh) :
    sh.length = nblocks ∧ ∀ p ∈ sh, p.1 < rate ∧ p.2 < rate := by
  unfold shifts at h
  split at h
  · obtain ⟨u, -, rfl⟩ := Rand.returns_map.1 h
    refine ⟨by simp, fun p hp => ?_⟩
    obtain ⟨b, rfl⟩ := List.mem_ofFn.1 hp
    exact ⟨Fin.is_lt _, Fin.is_lt _⟩
  · have := Rand.returns_ret.1 h
    subst this
    refine ⟨by simp, fun p hp => ?_⟩
    rw [List.eq_of_mem_replicate hp]
    exact ⟨Nat.div_lt_self hr one_lt_two, Nat.div_lt_self hr one_lt_two⟩

theorem rangeStep_mul {rate : ℕ} (hr : 0 < rate) (p : ℕ) :
    rangeStep (rate * p) rate = (List.range p).map fun i => i * rate := by
  have : (rate * p + rate - 1) / rate = p := by
    rw [show rate * p + rate - 1 = rate * p + (rate - 1) by omega, Nat.mul_add_div hr,
      Nat.div_eq_of_lt (by omega), Nat.add_zero]
  rw [rangeStep, this]

/-- **C44, super-resolution.**  When the rate divides both sides of the image, for every draw the observed and
unobserved pixels partition the image, have the declared sizes, and every block of `rate × rate` pixels contains
exactly one observed pixel; the observed pixels are listed in the order of the blocks. -/
theorem C44_supr {p q rate : ℕ} (hr : 0 < rate) {key : Key} {random : Bool} {r : Except String Mask}
    (hm : (suprMask (rate * p) (rate * q) key rate random).Returns r) :
    ∃ mask, r = .ok mask ∧ (mask.unobs ++ mask.obs).Perm (List.range (rate * p * (rate * q))) ∧
      mask.obs.length = p * q ∧ mask.unobs.length = rate * p * (rate * q) - p * q ∧
      (∀ a < p, ∀ b < q,
        (mask.obs.filter fun k => k / (rate * q) / rate = a ∧ k % (rate * q) / rate = b).length = 1) ∧
      mask.obs.map (fun k => (k / (rate * q) / rate, k % (rate * q) / rate)) = (List.range p).product (List.range q) := by
  rw [suprMask, if_neg hr.ne'] at hm
  obtain ⟨sh, hs, hr'⟩ := Rand.returns_bind.1 hm
  have := Rand.returns_ret.1 hr'
  subst this
  set w := rate * p with hw
  set h := rate * q with hh
  have hnb : w * h / rate ^ 2 = p * q := by
    rw [hw, hh, show rate * p * (rate * q) = rate ^ 2 * (p * q) by ring, Nat.mul_div_cancel_left _ (by positivity)]
  rw [hnb] at hs
  obtain ⟨hsl, hsb⟩ := shifts_ok hr hs
  have hblocks : (rangeStep w rate).product (rangeStep h rate) =
      ((List.range p).product (List.range q)).map fun x => (x.1 * rate, x.2 * rate) := by
    rw [hw, hh, rangeStep_mul hr, rangeStep_mul hr]
    simp only [List.product, List.flatMap_map, List.map_flatMap, List.map_map]
    rfl
  have hbl : ((List.range p).product (List.range q)).length = p * q := by simp [length_prod]
  rw [hblocks]
  rw [broadcast_eq (by rw [List.length_map, hbl, hsl])]
  set P := (List.range p).product (List.range q) with hP
  set obs := (P.zip sh).map fun x => (x.1.1 * rate + x.2.1) * h + (x.1.2 * rate + x.2.2) with hobs
  have hin : ∀ x ∈ P.zip sh, (x.1.1 < p ∧ x.1.2 < q) ∧ x.2.1 < rate ∧ x.2.2 < rate := by
    intro x hx
    have h1 := (List.of_mem_zip (a := x.1) (b := x.2) hx)
    have h2 := h1.1
    rw [hP, mem_prod, List.mem_range, List.mem_range] at h2
    exact ⟨h2, hsb _ h1.2⟩
  have hlt1 : ∀ {a s n : ℕ}, a < n → s < rate → a * rate + s < rate * n := by
    intro a s n ha hs
    calc a * rate + s < a * rate + rate := by omega
      _ = rate * (a + 1) := by ring
      _ ≤ rate * n := Nat.mul_le_mul_left _ ha
  have heq : (((P.map fun x => (x.1 * rate, x.2 * rate)).zip sh).map fun x =>
      ravel w h (x.1.1 + x.2.1) (x.1.2 + x.2.2)) = obs := by
    rw [List.zip_map_left, List.map_map, hobs]
    refine List.map_congr_left fun x hx => ?_
    obtain ⟨⟨h1, h2⟩, h3, h4⟩ := hin x hx
    exact ravel_of_lt (hlt1 h1 h3) (hlt1 h2 h4)
  have hdm : ∀ i j, j < h → (i * h + j) / h = i ∧ (i * h + j) % h = j := fun i j hj =>
    ⟨by rw [Nat.mul_comm, Nat.mul_add_div (by omega), Nat.div_eq_of_lt hj, Nat.add_zero],
     by rw [Nat.mul_comm, Nat.mul_add_mod, Nat.mod_eq_of_lt hj]⟩
  have hdr : ∀ a s, s < rate → (a * rate + s) / rate = a := fun a s hs => by
    rw [Nat.mul_comm, Nat.mul_add_div hr, Nat.div_eq_of_lt hs, Nat.add_zero]
  have hback : obs.map (fun k => (k / h / rate, k % h / rate)) = P := by
    rw [hobs, List.map_map]
    have h1 : (P.zip sh).map ((fun k => (k / h / rate, k % h / rate)) ∘
        fun x => (x.1.1 * rate + x.2.1) * h + (x.1.2 * rate + x.2.2)) = (P.zip sh).map Prod.fst := by
      refine List.map_congr_left fun x hx => ?_
      obtain ⟨⟨h1, h2⟩, h3, h4⟩ := hin x hx
      obtain ⟨e1, e2⟩ := hdm (x.1.1 * rate + x.2.1) (x.1.2 * rate + x.2.2) (hlt1 h2 h4)
      simp only [Function.comp, e1, e2, hdr _ _ h3, hdr _ _ h4]
    rw [h1, List.map_fst_zip (by rw [hbl, hsl])]
  have hPnd : P.Nodup := List.Nodup.product List.nodup_range List.nodup_range
  have hnd : obs.Nodup := List.Nodup.of_map _ (hback ▸ hPnd)
  have hlt : ∀ a ∈ obs, a < w * h := by
    intro a ha
    obtain ⟨x, hx, rfl⟩ := List.mem_map.1 ha
    obtain ⟨⟨h1, h2⟩, h3, h4⟩ := hin x hx
    have e1 := hlt1 h1 h3
    have e2 := hlt1 h2 h4
    calc (x.1.1 * rate + x.2.1) * h + (x.1.2 * rate + x.2.2) < (x.1.1 * rate + x.2.1) * h + h := by omega
      _ = (x.1.1 * rate + x.2.1 + 1) * h := by ring
      _ ≤ w * h := Nat.mul_le_mul_right _ e1
  have hol : obs.length = p * q := by
    have := congrArg List.length hback
    rwa [List.length_map, hbl] at this
  obtain ⟨hp, hl⟩ := setdiff_partition hnd hlt (size := w * h - p * q) (by rw [hol])
  refine ⟨_, rfl, ?_⟩
  simp only [heq, hnb, allInds_eq]
  refine ⟨List.perm_append_comm.trans hp, hol, hl, fun a ha b hb => ?_, hback⟩
  have hc : P.count (a, b) = 1 := List.count_eq_one_of_mem hPnd
    (mem_prod.2 ⟨List.mem_range.2 ha, List.mem_range.2 hb⟩)
  rw [← hback, List.count, List.countP_map, List.countP_eq_length_filter] at hc
  rw [← hc]
  congr 1
  refine List.filter_congr fun k _ => ?_
  rw [Bool.eq_iff_iff]
  simp [Prod.ext_iff]

/-! ### Splitting and joining -/

theorem foldl_set_length {β : Type} (f : β → ℕ) (g : β → α) : ∀ (l : List β) (img : List α),
    (l.foldl (fun im p => im.set (f p) (g p)) img).length = img.length
  | [], _ => rfl
  | b :: l, img => by rw [List.foldl_cons, foldl_set_length f g l, List.length_set]

theorem foldl_set_getElem? : ∀ (inds : List ℕ) (x : List α), x.length = inds.length → inds.Nodup →
    ∀ img : List α, (∀ i ∈ inds, i < img.length) →
    (∀ k, k ∉ inds → ((inds.zip x).foldl (fun im p => im.set p.1 p.2) img)[k]? = img[k]?) ∧
    inds.map (fun i => ((inds.zip x).foldl (fun im p => im.set p.1 p.2) img)[i]?) = x.map some
  | [], [], _, _, img, _ => by simp
  | i :: inds, a :: x, hl, hnd, img, hlt => by
    have hl' : x.length = inds.length := by simpa using hl
    obtain ⟨hi, hnd'⟩ := List.nodup_cons.1 hnd
    obtain ⟨h1, h2⟩ := foldl_set_getElem? inds x hl' hnd' (img.set i a)
      (fun j hj => by rw [List.length_set]; exact hlt j (List.mem_cons_of_mem _ hj))
    simp only [List.zip_cons_cons, List.foldl_cons, List.map_cons]
    refine ⟨fun k hk => ?_, ?_⟩
    · rw [List.mem_cons, not_or] at hk
      rw [h1 k hk.2, List.getElem?_set_ne (Ne.symm hk.1)]
    · rw [h1 i hi, List.getElem?_set_self (hlt i List.mem_cons_self), h2]
  | [], _ :: _, hl, _, _, _ => by simp at hl
  | _ :: _, [], hl, _, _, _ => by simp at hl

theorem gather_some [Inhabited α] (xs : List α) {inds : List ℕ} (h : ∀ i ∈ inds, i < xs.length) :
    (gather xs inds).map some = inds.map fun i => xs[i]? := by
  rw [gather, List.map_map]
  refine List.map_congr_left fun i hi => ?_
  have := h i hi
  have h2 : min i (xs.length - 1) = i := by omega
  simp [h2, List.getD, List.getElem?_eq_getElem this]

theorem map_some_inj {l m : List α} (h : l.map some = m.map some) : l = m :=
  List.map_injective_iff.2 (Option.some_injective _) h

/-- The joined image: at every position of the mask the value that was put there. -/
theorem concat_spec [Inhabited α] (zero : α) {w h : ℕ} {mask : Mask}
    (hp : (mask.unobs ++ mask.obs).Perm (List.range (w * h))) {x y : List α}
    (hx : x.length = mask.unobs.length) (hy : y.length = mask.obs.length) :
    ∃ img, concat zero w h x y mask = .ok img ∧ img.length = w * h ∧
      mask.unobs.map (fun i => img[i]?) = x.map some ∧ mask.obs.map (fun i => img[i]?) = y.map some := by
  have hnd := hp.nodup_iff.2 List.nodup_range
  obtain ⟨hu, ho, hd⟩ := List.nodup_append'.1 hnd
  have hlt : ∀ i ∈ mask.unobs ++ mask.obs, i < w * h := fun i hi => List.mem_range.1 (hp.mem_iff.1 hi)
  have hl0 : (List.replicate (w * h) zero).length = w * h := List.length_replicate
  obtain ⟨-, a2⟩ := foldl_set_getElem? mask.unobs x hx hu (List.replicate (w * h) zero)
    fun i hi => by rw [hl0]; exact hlt i (List.mem_append_left _ hi)
  set im1 := (mask.unobs.zip x).foldl (fun im p => im.set p.1 p.2) (List.replicate (w * h) zero) with him1
  have hl1 : im1.length = w * h := by rw [him1, foldl_set_length, hl0]
  obtain ⟨b1, b2⟩ := foldl_set_getElem? mask.obs y hy ho im1
    fun i hi => by rw [hl1]; exact hlt i (List.mem_append_right _ hi)
  refine ⟨(mask.obs.zip y).foldl (fun im p => im.set p.1 p.2) im1, ?_, by rw [foldl_set_length, hl1], ?_, b2⟩
  · show (scatter (List.replicate (w * h) zero) mask.unobs x).bind (fun img => scatter img mask.obs y) = _
    rw [scatter_eq hx, Except.bind, scatter_eq hy]
  · rw [← a2]
    exact List.map_congr_left fun i hi => b1 i fun hio => hd hi hio

/-- **C44.**  Splitting an image and joining the parts gives the image back, for every mask that partitions the pixels
(all masks of `C44_inpaint` and `C44_supr`) and every image. -/
theorem C44_concat_unpack [Inhabited α] (zero : α) {w h : ℕ} {mask : Mask}
    (hp : (mask.unobs ++ mask.obs).Perm (List.range (w * h))) {img : List α} (hi : img.length = w * h) :
    concat zero w h (unpack img mask).1 (unpack img mask).2 mask = .ok img := by
  have hlt : ∀ i ∈ mask.unobs ++ mask.obs, i < img.length := fun i hi' =>
    hi ▸ List.mem_range.1 (hp.mem_iff.1 hi')
  have gu := gather_some img fun i hi' => hlt i (List.mem_append_left _ hi')
  have go := gather_some img fun i hi' => hlt i (List.mem_append_right _ hi')
  obtain ⟨img', h1, h2, h3, h4⟩ := concat_spec zero hp (x := (unpack img mask).1) (y := (unpack img mask).2)
    (by simp [unpack, gather]) (by simp [unpack, gather])
  rw [h1]
  congr 1
  refine List.ext_getElem? fun k => ?_
  by_cases hk : k < w * h
  · have hk' := hp.mem_iff.2 (List.mem_range.2 hk)
    rw [unpack, gu] at h3
    rw [unpack, go] at h4
    rcases List.mem_append.1 hk' with hk' | hk'
    · exact List.map_inj_left.1 h3 k hk'
    · exact List.map_inj_left.1 h4 k hk'
  · rw [List.getElem?_eq_none (by omega), List.getElem?_eq_none (by omega)]

/-- **C44.**  Joining two parts and splitting again gives the parts back, and the joined image has the declared
shape. -/
theorem C44_unpack_concat [Inhabited α] (zero : α) {w h : ℕ} {mask : Mask}
    (hp : (mask.unobs ++ mask.obs).Perm (List.range (w * h))) {x y : List α} (hx : x.length = mask.unobs.length)
    (hy : y.length = mask.obs.length) :
    ∃ img, concat zero w h x y mask = .ok img ∧ img.length = w * h ∧ unpack img mask = (x, y) := by
  obtain ⟨img, h1, h2, h3, h4⟩ := concat_spec zero hp hx hy
  have hlt : ∀ i ∈ mask.unobs ++ mask.obs, i < img.length := fun i hi' =>
    h2 ▸ List.mem_range.1 (hp.mem_iff.1 hi')
  refine ⟨img, h1, h2, Prod.ext (map_some_inj ?_) (map_some_inj ?_)⟩
  · exact (gather_some img fun i hi' => hlt i (List.mem_append_left _ hi')).trans h3
  · exact (gather_some img fun i hi' => hlt i (List.mem_append_right _ hi')).trans h4

/-! ### The declared shape of the unobserved part -/

/-- **C44.**  The attribute `unobs_shape` is the number of unobserved pixels of every mask drawn for the task, provided
that the rectangle fits into the image, or that the rate divides both sides. -/
theorem C44_unobs_shape_partial {w h : ℕ} {key : Key} {srRandom : Bool} {task : Task} {r : Except String Mask}
    (ht : match task with
      | .inpaint s => s ≤ w ∧ s ≤ h
      | .supr s => 0 < s ∧ s ∣ w ∧ s ∣ h)
    (hr : (genMask w h key srRandom task).Returns r) :
    ∃ mask, r = .ok mask ∧ mask.unobs.length = unobsSize w h task ∧
      (mask.unobs ++ mask.obs).Perm (List.range (w * h)) := by
  cases task with
  | inpaint s =>
    obtain ⟨mask, hm, rfl⟩ := Rand.returns_map.1 hr
    obtain ⟨h1, h2, -, -⟩ := C44_inpaint hm
    refine ⟨mask, rfl, ?_, h1⟩
    rw [h2, min_eq_left ht.1, min_eq_left ht.2, unobsSize, sq]
  | supr s =>
    obtain ⟨hs, ⟨p, rfl⟩, ⟨q, rfl⟩⟩ := ht
    obtain ⟨mask, rfl, h1, -, h3, -⟩ := C44_supr hs hr
    refine ⟨mask, rfl, ?_, h1⟩
    rw [h3, unobsSize, show s * p * (s * q) = s ^ 2 * (p * q) by ring, Nat.mul_assoc,
      Nat.mul_div_cancel_left _ (by positivity), Nat.mul_sub, Nat.mul_comm (p * q), Nat.mul_one]

/-- **C44 fails for larger tasks.**  With a rectangle larger than the image the declared shape is not the number of
unobserved pixels. -/
theorem C44_unobs_shape_counterexample {key : Key} {r : Except String Mask}
    (hr : (genMask 2 2 key true (.inpaint 3)).Returns r) :
    ∃ mask, r = .ok mask ∧ mask.unobs.length = 4 ∧ unobsSize 2 2 (.inpaint 3) = 9 := by
  obtain ⟨mask, hm, rfl⟩ := Rand.returns_map.1 hr
  obtain ⟨-, h2, -, -⟩ := C44_inpaint hm
  exact ⟨mask, rfl, h2, rfl⟩

/-- **C44, super-resolution needs divisibility.**  For a rate that does not divide the sides (here `3` on a `4 × 4`
image: one block of shifts is spread over four blocks) the observed pixels outnumber what the code declares, and the
mask is not a partition. -/
theorem C44_supr_counterexample {key : Key} {r : Except String Mask} (hr : (suprMask 4 4 key 3 false).Returns r) :
    ∃ mask, r = .ok mask ∧ ¬ (mask.unobs ++ mask.obs).Perm (List.range 16) := by
  rw [suprMask, if_neg (by decide)] at hr
  obtain ⟨sh, hs, h2⟩ := Rand.returns_bind.1 hr
  rw [shifts, if_neg (by decide)] at hs
  have h1 := Rand.returns_ret.1 hs
  have h2 := Rand.returns_ret.1 h2
  subst h1 h2
  refine ⟨_, rfl, ?_⟩
  decide

/-! ### The hypotheses can be met -/

example : ([0, 1, 3] ++ [2, 4, 5] : List ℕ).Perm (List.range (2 * 3)) := by decide

example : (0 < 4 ∧ 4 ∣ 64 ∧ 4 ∣ 64) ∧ 15 ≤ 28 := by decide

end Props
end Fbs
