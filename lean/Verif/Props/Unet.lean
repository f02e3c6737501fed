import Verif.Model.Unet
import Mathlib.Algebra.Ring.Parity
import Mathlib.Tactic.Ring
import Mathlib.Tactic.Positivity

/-!
# C49: the UNet preserves image shapes
-/

namespace Fbs
namespace Props

open Unet

/-! ### Modules -/

theorem assert_some {p : Prop} [Decidable p] {u : Unit} : Unet.assert p = some u ↔ p := by
  unfold Unet.assert
  by_cases h : p <;> simp [h]

theorem assert_bind {α : Type} {p : Prop} [Decidable p] {f : Unit → Option α} {r : α} :
    (Unet.assert p >>= f) = some r ↔ p ∧ f () = some r := by
  unfold Unet.assert
  by_cases h : p <;> simp [h]

theorem bind_some {α β : Type} {x : Option α} {f : α → Option β} {r : β} :
    (x >>= f) = some r ↔ ∃ a, x = some a ∧ f a = some r := by
  cases x <;> simp

theorem convDim_same3 (d : ℕ) : convDim d 3 1 1 = d := by unfold convDim; split <;> omega
theorem convDim_same7 (d : ℕ) : convDim d 7 1 3 = d := by unfold convDim; split <;> omega
theorem convDim_same1 (d : ℕ) : convDim d 1 1 0 = d := by unfold convDim; split <;> omega
theorem convDim_half (d : ℕ) : convDim d 4 2 1 = d / 2 := by unfold convDim; split <;> omega

theorem downsample_eq (dim : ℕ) (x : Shape) : downsample dim x = some ⟨x.b, x.h / 2, x.w / 2, dim⟩ := by
  simp [downsample, conv, convDim_half, Unet.assert]

theorem upsample_eq (m : Method) (dim : ℕ) (x : Shape) (r : Shape) :
    upsample m dim x = some r ↔ m ≠ .other ∧ r = ⟨x.b, x.h * 2, x.w * 2, dim⟩ := by
  cases m <;> simp [upsample, conv, convDim_same3, Unet.assert, Unet.pixelShuffle, eq_comm]

/-- **C48, shapes.**  `PixelShuffle` accepts exactly the channel numbers `scale² C`, and then returns `C` channels and
`scale` times as many rows and columns. -/
theorem C48_shape {s : ℕ} (hs : 0 < s) (b h w k : ℕ) (y : Shape) :
    Unet.pixelShuffle s ⟨b, h, w, k⟩ = some y ↔ ∃ c, k = s * s * c ∧ y = ⟨b, h * s, w * s, c⟩ := by
  have hss : 0 < s * s := Nat.mul_pos hs hs
  by_cases hk : k % (s * s) = 0
  · simp only [Unet.pixelShuffle, Unet.assert, hs, hk, and_self, if_true]
    constructor
    · intro h1
      refine ⟨k / (s * s), (Nat.mul_div_cancel' (Nat.dvd_of_mod_eq_zero hk)).symm, ?_⟩
      exact (Option.some.inj h1).symm
    · rintro ⟨c, rfl, rfl⟩
      show some _ = some _
      rw [Nat.mul_div_cancel_left _ hss]
  · simp only [Unet.pixelShuffle, Unet.assert, hk, and_false, if_false]
    constructor
    · intro h1; exact absurd h1 (by simp)
    · rintro ⟨c, rfl, -⟩
      exact absurd (Nat.mul_mod_right _ _) hk

theorem resnet_eq (dim g e : ℕ) (x r : Shape) :
    resnetBlock dim g e x = some r ↔ e = x.b ∧ 0 < g ∧ g ∣ dim ∧ r = ⟨x.b, x.h, x.w, dim⟩ := by
  obtain ⟨b, h, w, c⟩ := x
  simp only [resnetBlock, groupNorm, conv, convDim_same3, convDim_same1, assert_bind, Nat.dvd_iff_mod_eq_zero]
  by_cases h1 : 0 < g ∧ dim % g = 0
  · by_cases h2 : c = dim
    · simp [Unet.assert, h1, h2, eq_comm]
    · simp [Unet.assert, h1, h2, eq_comm]
  · have : ¬ (0 < g ∧ dim % g = 0 ∧ r = ⟨b, h, w, dim⟩) := fun h => h1 ⟨h.1, h.2.1⟩
    simp [Unet.assert, h1, this]

theorem attn_eq (x r : Shape) : attnBlock x = some r ↔ 0 < x.h ∧ r = x := by
  obtain ⟨b, h, w, c⟩ := x
  simp only [attnBlock, attention, conv, convDim_same1, bind_some, assert_some, exists_const]
  by_cases h0 : 0 < h
  · simp [h0, Nat.mul_div_cancel_left w h0, eq_comm]
  · simp [h0]

theorem concat_eq (u v r : Shape) : Unet.concat u v = some r ↔
    (u.b = v.b ∧ u.h = v.h ∧ u.w = v.w) ∧ r = ⟨u.b, u.h, u.w, u.c + v.c⟩ := by
  simp only [Unet.concat, assert_bind]
  exact and_congr_right fun _ => ⟨fun h => (Option.some.inj h).symm, fun h => by rw [h]; rfl⟩

theorem pop_eq (x : Shape) (xs : List Shape) (r : Shape × List Shape) : pop (x :: xs) = some r ↔ r = (x, xs) :=
  ⟨fun h => (Option.some.inj h).symm, fun h => by rw [h]; rfl⟩

/-! ### Loops -/

section Loops

variable (cfg : Config) (b H W : ℕ)

/-- Number of channels of level `i` on the way down. -/
def chan (i : ℕ) : ℕ := if i = 0 then cfg.init else cfg.dim * cfg.mult (i - 1)

/-- Shape of level `i` on the way down. -/
def lvl (i : ℕ) : Shape := ⟨b, H / 2 ^ i, W / 2 ^ i, chan cfg i⟩

/-- Stack of skip connections after `k` levels. -/
def stack : ℕ → List Shape
  | 0 => [lvl cfg b H W 0]
  | k + 1 => lvl cfg b H W k :: lvl cfg b H W k :: stack k

theorem downStep_eq (e ind : ℕ) (hs : List Shape) (s : Shape × List Shape) :
    downStep cfg e (lvl cfg b H W ind, hs) ind = some s ↔
      e = b ∧ 0 < cfg.groups ∧ cfg.groups ∣ chan cfg ind ∧ 0 < H / 2 ^ ind ∧
        s = (if ind < cfg.dimMults.length - 1 then lvl cfg b H W (ind + 1) else lvl cfg b H W ind,
          lvl cfg b H W ind :: lvl cfg b H W ind :: hs) := by
  have hl : (⟨(lvl cfg b H W ind).b, (lvl cfg b H W ind).h, (lvl cfg b H W ind).w, chan cfg ind⟩ : Shape) =
      lvl cfg b H W ind := rfl
  have hc : (lvl cfg b H W ind).c = chan cfg ind := rfl
  have hb : (lvl cfg b H W ind).b = b := rfl
  have hh : (lvl cfg b H W ind).h = H / 2 ^ ind := rfl
  have hd : downsample (cfg.dim * cfg.mult ind) (lvl cfg b H W ind) = some (lvl cfg b H W (ind + 1)) := by
    rw [downsample_eq]
    simp [lvl, chan, Nat.div_div_eq_div_mul, pow_succ]
  by_cases hlt : ind < cfg.dimMults.length - 1
  · simp only [downStep, if_pos hlt, bind_some, resnet_eq, attn_eq, hc]
    constructor
    · rintro ⟨a, ⟨h1, h2, h3, rfl⟩, a', ⟨-, -, -, rfl⟩, a'', ⟨h4, rfl⟩, a3, h5, h6⟩
      rw [hl, hd] at h5
      exact ⟨h1, h2, h3, h4, by rw [← Option.some.inj h6, ← Option.some.inj h5]; rfl⟩
    · rintro ⟨h1, h2, h3, h4, rfl⟩
      exact ⟨lvl cfg b H W ind, ⟨h1, h2, h3, rfl⟩, lvl cfg b H W ind, ⟨h1, h2, h3, rfl⟩, lvl cfg b H W ind, ⟨h4, rfl⟩,
        _, hd, rfl⟩
  · simp only [downStep, if_neg hlt, bind_some, resnet_eq, attn_eq, hc]
    constructor
    · rintro ⟨a, ⟨h1, h2, h3, rfl⟩, a', ⟨-, -, -, rfl⟩, a'', ⟨h4, rfl⟩, a3, h5, h6⟩
      exact ⟨h1, h2, h3, h4, by rw [← Option.some.inj h6, ← Option.some.inj h5]; rfl⟩
    · rintro ⟨h1, h2, h3, h4, rfl⟩
      exact ⟨lvl cfg b H W ind, ⟨h1, h2, h3, rfl⟩, lvl cfg b H W ind, ⟨h1, h2, h3, rfl⟩, lvl cfg b H W ind, ⟨h4, rfl⟩,
        _, rfl, rfl⟩

theorem down_loop (e : ℕ) (k : ℕ) (hk : k < cfg.dimMults.length) (s : Shape × List Shape) :
    (List.range (k + 1)).foldlM (downStep cfg e) (lvl cfg b H W 0, [lvl cfg b H W 0]) = some s ↔
      e = b ∧ 0 < cfg.groups ∧ (∀ i ≤ k, cfg.groups ∣ chan cfg i) ∧ (∀ i ≤ k, 0 < H / 2 ^ i) ∧
        s = (if k < cfg.dimMults.length - 1 then lvl cfg b H W (k + 1) else lvl cfg b H W k, stack cfg b H W (k + 1)) := by
  induction k generalizing s with
  | zero =>
    simp only [Nat.zero_add, List.range_one, List.foldlM_cons, List.foldlM_nil, bind_some, downStep_eq]
    constructor
    · rintro ⟨a, ⟨h1, h2, h3, h4, rfl⟩, h5⟩
      refine ⟨h1, h2, fun i hi => ?_, fun i hi => ?_, (Option.some.inj h5).symm⟩ <;>
      · rw [Nat.le_zero.1 hi]; assumption
    · rintro ⟨h1, h2, h3, h4, rfl⟩
      exact ⟨_, ⟨h1, h2, h3 0 le_rfl, h4 0 le_rfl, rfl⟩, rfl⟩
  | succ k ih =>
    have hk' : k < cfg.dimMults.length - 1 := by omega
    rw [List.range_succ, List.foldlM_append, bind_some]
    simp only [List.foldlM_cons, List.foldlM_nil]
    constructor
    · rintro ⟨a, ha, h5⟩
      obtain ⟨h1, h2, h3, h4, rfl⟩ := (ih (by omega) a).1 ha
      rw [if_pos hk', bind_some] at h5
      obtain ⟨a', h6, h7⟩ := h5
      obtain ⟨-, -, h8, h9, rfl⟩ := (downStep_eq cfg b H W e (k + 1) _ a').1 h6
      refine ⟨h1, h2, fun i hi => ?_, fun i hi => ?_, (Option.some.inj h7).symm⟩
      · rcases Nat.lt_or_ge k i with h | h
        · rw [show i = k + 1 by omega]; exact h8
        · exact h3 i h
      · rcases Nat.lt_or_ge k i with h | h
        · rw [show i = k + 1 by omega]; exact h9
        · exact h4 i h
    · rintro ⟨h1, h2, h3, h4, rfl⟩
      refine ⟨_, (ih (by omega) _).2 ⟨h1, h2, fun i hi => h3 i (by omega), fun i hi => h4 i (by omega), rfl⟩, ?_⟩
      rw [if_pos hk', bind_some]
      exact ⟨_, (downStep_eq cfg b H W e (k + 1) _ _).2 ⟨h1, h2, h3 _ le_rfl, h4 _ le_rfl, rfl⟩, rfl⟩

/-- Shape of level `i` on the way up. -/
def upl (i h w : ℕ) : Shape := ⟨b, h, w, cfg.dim * cfg.mult i⟩

theorem upStep_eq (e ind h w : ℕ) (hs : List Shape) (s : Shape × List Shape) :
    upStep cfg e (upl cfg b ind h w, lvl cfg b H W ind :: lvl cfg b H W ind :: hs) ind = some s ↔
      (h = H / 2 ^ ind ∧ w = W / 2 ^ ind) ∧ e = b ∧ 0 < cfg.groups ∧ cfg.groups ∣ cfg.dim * cfg.mult ind ∧ 0 < h ∧
        (0 < ind → cfg.upsampling ≠ .other) ∧
        s = (if 0 < ind then upl cfg b (ind - 1) (h * 2) (w * 2) else upl cfg b ind h w, hs) := by
  have hch : (if ind > 0 then cfg.dim * cfg.mult (ind - 1) else cfg.init) = chan cfg ind := by
    unfold chan
    by_cases h0 : ind = 0
    · simp [h0]
    · simp [h0, Nat.pos_of_ne_zero h0]
  by_cases h0 : 0 < ind
  · have hs' : (⟨b, h * 2, w * 2, chan cfg ind⟩ : Shape) = upl cfg b (ind - 1) (h * 2) (w * 2) := by
      simp [upl, chan, h0.ne']
    simp only [upStep, hch, gt_iff_lt, if_pos h0, bind_some, assert_some, exists_const, resnet_eq, attn_eq, concat_eq,
      pop_eq, exists_eq_left, upsample_eq, and_assoc, exists_and_left]
    constructor
    · rintro ⟨-, -, h1, h2, -, h3, h4, h5, -, -, -, -, -, -, -, h6, -, h7, h8⟩
      exact ⟨h1, h2, h3, h4, h5, h6, fun _ => h7, by rw [← hs']; exact (Option.some.inj h8).symm⟩
    · rintro ⟨h1, h2, h3, h4, h5, h6, h7, rfl⟩
      exact ⟨rfl, rfl, h1, h2, rfl, h3, h4, h5, rfl, h1, h2, rfl, h3, h4, h5, h6, trivial, h7 h0, by rw [← hs']; rfl⟩
  · simp only [upStep, hch, gt_iff_lt, if_neg h0, bind_some, assert_some, exists_const, resnet_eq, attn_eq, concat_eq,
      pop_eq, exists_eq_left, and_assoc, exists_and_left, Option.some.injEq, exists_eq_left']
    constructor
    · rintro ⟨-, -, h1, h2, -, h3, h4, h5, -, -, -, -, -, -, -, h6, -, h8⟩
      exact ⟨h1, h2, h3, h4, h5, h6, fun h => absurd h h0, (Option.some.inj h8).symm⟩
    · rintro ⟨h1, h2, h3, h4, h5, h6, h7, rfl⟩
      exact ⟨rfl, rfl, h1, h2, rfl, h3, h4, h5, rfl, h1, h2, rfl, h3, h4, h5, h6, trivial, rfl⟩

theorem up_loop (e k h w : ℕ) (s : Shape × List Shape) :
    (List.range (k + 1)).reverse.foldlM (upStep cfg e) (upl cfg b k h w, stack cfg b H W (k + 1)) = some s ↔
      (h = H / 2 ^ k ∧ w = W / 2 ^ k) ∧ (∀ i < k, H / 2 ^ (i + 1) * 2 = H / 2 ^ i ∧ W / 2 ^ (i + 1) * 2 = W / 2 ^ i) ∧
        e = b ∧ 0 < cfg.groups ∧ (∀ i ≤ k, cfg.groups ∣ cfg.dim * cfg.mult i) ∧ (∀ i ≤ k, 0 < H / 2 ^ i) ∧
        (0 < k → cfg.upsampling ≠ .other) ∧ s = (upl cfg b 0 H W, [lvl cfg b H W 0]) := by
  induction k generalizing h w with
  | zero =>
    simp only [Nat.zero_add, List.range_one, List.reverse_singleton, List.foldlM_cons, List.foldlM_nil, bind_some, stack,
      upStep_eq]
    constructor
    · rintro ⟨a, ⟨⟨rfl, rfl⟩, h3, h4, h5, h6, h7, rfl⟩, h8⟩
      refine ⟨⟨rfl, rfl⟩, fun i hi => absurd hi (Nat.not_lt_zero i), h3, h4, fun i hi => ?_, fun i hi => ?_,
        fun h => absurd h (lt_irrefl 0), ?_⟩
      · rw [Nat.le_zero.1 hi]; exact h5
      · rw [Nat.le_zero.1 hi]; exact h6
      · refine (Option.some.inj h8).symm.trans ?_
        simp
    · rintro ⟨⟨rfl, rfl⟩, -, h3, h4, h5, h6, h7, rfl⟩
      refine ⟨_, ⟨⟨rfl, rfl⟩, h3, h4, h5 0 le_rfl, h6 0 le_rfl, h7, rfl⟩, ?_⟩
      simp
  | succ k ih =>
    have hr : (List.range (k + 1 + 1)).reverse = (k + 1) :: (List.range (k + 1)).reverse := by
      rw [List.range_succ, List.reverse_append]; rfl
    rw [hr, List.foldlM_cons, bind_some]
    have hst : stack cfg b H W (k + 1 + 1) =
        lvl cfg b H W (k + 1) :: lvl cfg b H W (k + 1) :: stack cfg b H W (k + 1) := rfl
    rw [hst]
    constructor
    · rintro ⟨a, ha, h2⟩
      obtain ⟨⟨rfl, rfl⟩, h3, h4, h5, h6, h7, rfl⟩ := (upStep_eq cfg b H W e (k + 1) h w _ a).1 ha
      rw [if_pos (Nat.succ_pos k), Nat.add_sub_cancel, ih] at h2
      obtain ⟨⟨g1, g2⟩, g3, -, -, g4, g5, -, rfl⟩ := h2
      refine ⟨⟨rfl, rfl⟩, fun i hi => ?_, h3, h4, fun i hi => ?_, fun i hi => ?_, fun _ => h7 (Nat.succ_pos k), rfl⟩
      · rcases Nat.lt_or_ge i k with h | h
        · exact g3 i h
        · rw [show i = k by omega]; exact ⟨g1, g2⟩
      · rcases Nat.lt_or_ge k i with h | h
        · rw [show i = k + 1 by omega]; exact h5
        · exact g4 i h
      · rcases Nat.lt_or_ge k i with h | h
        · rw [show i = k + 1 by omega]; exact h6
        · exact g5 i h
    · rintro ⟨⟨rfl, rfl⟩, h2, h3, h4, h5, h6, h7, rfl⟩
      refine ⟨_, (upStep_eq cfg b H W e (k + 1) _ _ _ _).2 ⟨⟨rfl, rfl⟩, h3, h4, h5 _ le_rfl, h6 _ le_rfl, h7, rfl⟩, ?_⟩
      rw [if_pos (Nat.succ_pos k), Nat.add_sub_cancel, ih]
      refine ⟨h2 k (Nat.lt_succ_self k), fun i hi => h2 i (by omega), h3, h4, fun i hi => h5 i (by omega),
        fun i hi => h6 i (by omega), fun _ => h7 (Nat.succ_pos k), rfl⟩

end Loops

/-! ### Divisibility -/

theorem halves_iff (H k : ℕ) : (∀ i < k, H / 2 ^ (i + 1) * 2 = H / 2 ^ i) ↔ 2 ^ k ∣ H := by
  induction k with
  | zero => simp
  | succ k ih =>
    constructor
    · intro h
      obtain ⟨m, hm⟩ := ih.1 fun i hi => h i (by omega)
      have h1 := h k (Nat.lt_succ_self k)
      have hp : 0 < 2 ^ k := by positivity
      rw [pow_succ, ← Nat.div_div_eq_div_mul, hm, Nat.mul_div_cancel_left _ hp] at h1
      rw [hm, pow_succ]
      exact Nat.mul_dvd_mul_left _ ⟨m / 2, by omega⟩
    · rintro ⟨m, rfl⟩ i hi
      have e1 : 2 ^ (k + 1) * m = 2 ^ (i + 1) * (2 ^ (k - i) * m) := by
        rw [← mul_assoc, ← pow_add]; congr 2; omega
      have e2 : 2 ^ (k + 1) * m = 2 ^ i * (2 * (2 ^ (k - i) * m)) := by
        rw [e1, pow_succ]; ring
      rw [show 2 ^ (k + 1) * m / 2 ^ (i + 1) = 2 ^ (k - i) * m by
          rw [e1, Nat.mul_div_cancel_left _ (by positivity)],
        show 2 ^ (k + 1) * m / 2 ^ i = 2 * (2 ^ (k - i) * m) by rw [e2, Nat.mul_div_cancel_left _ (by positivity)]]
      ring

/-! ### C49 -/

theorem forward_eq (cfg : Config) (b H W c : ℕ) (time : Option ℕ) (r : List ℕ) :
    forward cfg [b, H, W, c] time = some r ↔
      cfg.dimMults ≠ [] ∧ cfg.dim % 2 = 0 ∧ time.getD b = b ∧ 0 < cfg.groups ∧
        cfg.groups ∣ cfg.init ∧ cfg.groups ∣ cfg.dim ∧
        (1 < cfg.dimMults.length → cfg.upsampling ≠ .other) ∧ 0 < H ∧
        2 ^ (cfg.dimMults.length - 1) ∣ H ∧ 2 ^ (cfg.dimMults.length - 1) ∣ W ∧
        r = (if b = 1 then [] else [b]) ++ [H, W, cfg.outDim.getD (c * if cfg.learntVariance then 2 else 1)] := by
  by_cases hne : cfg.dimMults = []
  · simp only [hne, ne_eq, not_true_eq_false, false_and, iff_false]
    intro h
    simp [forward, hne] at h
  have hn : 0 < cfg.dimMults.length := List.length_pos_of_ne_nil hne
  obtain ⟨n, hn⟩ : ∃ n, cfg.dimMults.length = n + 1 := ⟨cfg.dimMults.length - 1, by omega⟩
  have hlast : cfg.dimMults.getLast? = some (cfg.mult n) := by
    rw [List.getLast?_eq_getElem?, hn, Nat.add_sub_cancel, Config.mult, List.getD_eq_getElem?_getD,
      List.getElem?_eq_getElem (by omega)]
    rfl
  have hc0 : conv cfg.init 7 1 3 ⟨b, H, W, c⟩ = lvl cfg b H W 0 := by
    simp [conv, convDim_same7, lvl, chan]
  have hlen : ¬ [b, H, W, c].length < 4 := by simp
  have hmid : ∀ s : Shape, conv (cfg.dim * cfg.mult n) 3 1 1 s = ⟨s.b, s.h, s.w, cfg.dim * cfg.mult n⟩ := fun s => by
    simp [conv, convDim_same3]
  have hend : ∀ o : Shape, (if (conv (cfg.outDim.getD (c * if cfg.learntVariance then 2 else 1)) 1 1 0 o).b = 1 then
      some [(conv (cfg.outDim.getD (c * if cfg.learntVariance then 2 else 1)) 1 1 0 o).h,
        (conv (cfg.outDim.getD (c * if cfg.learntVariance then 2 else 1)) 1 1 0 o).w,
        (conv (cfg.outDim.getD (c * if cfg.learntVariance then 2 else 1)) 1 1 0 o).c]
      else some [(conv (cfg.outDim.getD (c * if cfg.learntVariance then 2 else 1)) 1 1 0 o).b,
        (conv (cfg.outDim.getD (c * if cfg.learntVariance then 2 else 1)) 1 1 0 o).h,
        (conv (cfg.outDim.getD (c * if cfg.learntVariance then 2 else 1)) 1 1 0 o).w,
        (conv (cfg.outDim.getD (c * if cfg.learntVariance then 2 else 1)) 1 1 0 o).c]) =
      some ((if o.b = 1 then [] else [o.b]) ++ [o.h, o.w, cfg.outDim.getD (c * if cfg.learntVariance then 2 else 1)]) := by
    intro o
    simp only [conv, convDim_same1]
    split <;> rfl
  unfold forward
  simp only [if_neg hlen, hc0, hn, hlast, timeEmb, bind_some, Nat.add_sub_cancel, hend, assert_some, exists_const,
    resnet_eq, attn_eq, concat_eq, Option.some.injEq, exists_eq_left', Prod.exists]
  constructor
  · rintro ⟨e, ⟨he1, he2⟩, h1, hs1, hdown, h2, ⟨-, -, r3, rfl⟩, h3, ⟨-, rfl⟩, h4, ⟨-, -, -, rfl⟩, h5, hs5, hup, y, hs6, hpop,
      h7, ⟨-, rfl⟩, -, out, ⟨-, -, f5, rfl⟩, f4⟩
    have he2 : time.getD b = e := Option.some.inj he2
    obtain ⟨d1, d2, d3, d4, d5⟩ := (down_loop cfg b H W e n (by omega) _).1 hdown
    rw [if_neg (by omega)] at d5
    obtain ⟨rfl, rfl⟩ := Prod.mk.inj d5
    rw [hmid] at hup
    obtain ⟨-, u2, -, -, u5, -, u7, u8⟩ := (up_loop cfg b H W e n _ _ _).1 hup
    obtain ⟨rfl, rfl⟩ := Prod.mk.inj u8
    refine ⟨hne, he1, by rw [he2, d1], d2, d3 0 (Nat.zero_le n), f5, fun h => u7 (by omega), ?_,
      (halves_iff H n).1 fun i hi => (u2 i hi).1, (halves_iff W n).1 fun i hi => (u2 i hi).2, ?_⟩
    · have := d4 0 (Nat.zero_le n)
      simpa using this
    · rw [← f4]
      simp only [conv, convDim_same3, upl]
  · rintro ⟨-, he1, he2, hg, hgi, hgd, hup, hH, dH, dW, rfl⟩
    have hpos : ∀ i ≤ n, 0 < H / 2 ^ i := fun i hi =>
      Nat.div_pos (Nat.le_of_dvd hH ((pow_dvd_pow 2 hi).trans dH)) (by positivity)
    have hch : ∀ i, cfg.groups ∣ chan cfg i := fun i => by
      unfold chan
      split
      · exact hgi
      · exact hgd.mul_right _
    have hd := (down_loop cfg b H W b n (by omega) _).2 ⟨rfl, hg, fun i _ => hch i, hpos, rfl⟩
    rw [if_neg (by omega)] at hd
    have hu := (up_loop cfg b H W b n (H / 2 ^ n) (W / 2 ^ n) _).2 ⟨⟨rfl, rfl⟩, fun i hi =>
        ⟨(halves_iff H n).2 dH i hi, (halves_iff W n).2 dW i hi⟩, rfl, hg, fun i _ => hgd.mul_right _, hpos,
        fun h => hup (by omega), rfl⟩
    refine ⟨b, ⟨he1, by rw [he2]; rfl⟩, lvl cfg b H W n, stack cfg b H W (n + 1), hd, _,
      ⟨rfl, hg, hgd.mul_right _, rfl⟩, _, ⟨?_, rfl⟩, _, ⟨rfl, hg, hgd.mul_right _, rfl⟩, upl cfg b 0 H W,
      [lvl cfg b H W 0], ?_, lvl cfg b H W 0, [], (pop_eq _ _ _).2 rfl, _, ⟨⟨?_, ?_, ?_⟩, rfl⟩, ?_, _,
      ⟨?_, hg, hgd, rfl⟩, ?_⟩
    · simpa [hmid, lvl] using hpos n le_rfl
    · rw [hmid]; exact hu
    · simp [conv, upl, lvl]
    · simp [conv, upl, lvl, convDim_same3]
    · simp [conv, upl, lvl, convDim_same3]
    · simp [conv, lvl, chan]; ring
    · simp [conv, upl]
    · simp [conv, upl, convDim_same3]

/-- A single image is treated as a batch of one. -/
theorem single_accepts (cfg : Config) (H W c : ℕ) (time : Option ℕ) :
    forward cfg [H, W, c] time = forward cfg [1, H, W, c] time := rfl

theorem forward_refuses (cfg : Config) (x : List ℕ) (time : Option ℕ) (h3 : x.length ≠ 3) (h4 : x.length ≠ 4) :
    forward cfg x time = none := by
  match x, h3, h4 with
  | [], _, _ => rfl
  | [_], _, _ => rfl
  | [_, _], _, _ => rfl
  | [_, _, _], h3, _ => exact absurd rfl h3
  | [_, _, _, _], _, h4 => exact absurd rfl h4
  | a :: b :: c :: d :: e :: l, _, _ =>
    have : ¬ (a :: b :: c :: d :: e :: l).length < 4 := by simp
    simp only [forward, if_neg this]

/-- **C49, acceptance.**  For a non-empty list of multipliers the forward pass of a batch of non-empty images raises
nothing exactly when height and width are multiples of `2 ^ (levels - 1)`, the embedding dimension is even, the group
norms divide the channels, there is one time (or one time per image), and the upsampling method is known. -/
theorem C49_accepts (cfg : Config) (hm : cfg.dimMults ≠ []) {b H W c : ℕ} (hH : 0 < H) (_hW : 0 < W) (_hc : 0 < c)
    (time : Option ℕ) :
    (∃ r, forward cfg [b, H, W, c] time = some r) ↔
      2 ^ (cfg.dimMults.length - 1) ∣ H ∧ 2 ^ (cfg.dimMults.length - 1) ∣ W ∧ Even cfg.dim ∧
        (0 < cfg.groups ∧ cfg.groups ∣ cfg.dim ∧ ∀ d ∈ cfg.initDim, cfg.groups ∣ d) ∧
        (∀ n ∈ time, n = b) ∧ (1 < cfg.dimMults.length → cfg.upsampling = .resize ∨ cfg.upsampling = .shuffle) := by
  have h1 : cfg.upsampling ≠ .other ↔ cfg.upsampling = .resize ∨ cfg.upsampling = .shuffle := by
    cases cfg.upsampling <;> simp
  have h2 : time.getD b = b ↔ ∀ n ∈ time, n = b := by cases time <;> simp
  have h3 : cfg.groups ∣ cfg.init ∧ cfg.groups ∣ cfg.dim ↔ cfg.groups ∣ cfg.dim ∧ ∀ d ∈ cfg.initDim, cfg.groups ∣ d := by
    unfold Config.init
    cases cfg.initDim <;> simp [and_comm]
  simp only [forward_eq]
  rw [← h2, Nat.even_iff, ← h3, ← h1]
  constructor
  · rintro ⟨r, -, a1, a2, a3, a4, a5, a6, -, a8, a9, -⟩
    exact ⟨a8, a9, a1, ⟨a3, a4, a5⟩, a2, a6⟩
  · rintro ⟨a8, a9, a1, ⟨a3, a4, a5⟩, a2, a6⟩
    exact ⟨_, hm, a1, a2, a3, a4, a5, a6, hH, a8, a9, rfl⟩

/-- **C49, shape.**  With the default output dimension an accepted batch of at least two images (or none) keeps its
shape; in general only the number of channels changes, to `out_dim` or to `2 C` with a learnt variance. -/
theorem C49_shape_partial {cfg : Config} {b H W c : ℕ} {time : Option ℕ} {r : List ℕ} (hb : b ≠ 1)
    (h : forward cfg [b, H, W, c] time = some r) :
    r = [b, H, W, cfg.outDim.getD (if cfg.learntVariance then 2 * c else c)] := by
  obtain ⟨-, -, -, -, -, -, -, -, -, -, rfl⟩ := (forward_eq _ _ _ _ _ _ _).1 h
  rw [if_neg hb]
  cases cfg.learntVariance <;> simp [Nat.mul_comm]

/-- **C49, single images.**  A single image without a batch axis keeps its shape. -/
theorem C49_single {cfg : Config} {H W c : ℕ} {time : Option ℕ} {r : List ℕ}
    (h : forward cfg [H, W, c] time = some r) :
    r = [H, W, cfg.outDim.getD (if cfg.learntVariance then 2 * c else c)] := by
  have h' : forward cfg [1, H, W, c] time = some r := h
  obtain ⟨-, -, -, -, -, -, -, -, -, -, rfl⟩ := (forward_eq _ _ _ _ _ _ _).1 h'
  cases cfg.learntVariance <;> simp [Nat.mul_comm]

/-- **C49 fails for batches of one image.**  Whenever such a batch is accepted, the batch axis is lost. -/
theorem C49_batch_counterexample {cfg : Config} {H W c : ℕ} {time : Option ℕ} {r : List ℕ}
    (h : forward cfg [1, H, W, c] time = some r) : r.length = 3 := by
  rw [← single_accepts] at h
  rw [C49_single h]
  rfl

/-- **C49, refusals.**  An empty list of multipliers and inputs that are neither images nor batches of images are
refused. -/
theorem C49_refuses (cfg : Config) (x : List ℕ) (time : Option ℕ)
    (h : cfg.dimMults = [] ∨ x.length < 3 ∨ 4 < x.length) : forward cfg x time = none := by
  rcases h with h | h
  · cases hf : forward cfg x time with
    | none => rfl
    | some r =>
      exfalso
      by_cases h4 : x.length = 4
      · obtain ⟨a, b, c, d, rfl⟩ : ∃ a b c d, x = [a, b, c, d] := List.length_eq_four.1 h4
        exact ((forward_eq _ _ _ _ _ _ _).1 hf).1 h
      · by_cases h3 : x.length = 3
        · obtain ⟨a, b, c, rfl⟩ := List.length_eq_three.1 h3
          rw [single_accepts] at hf
          exact ((forward_eq _ _ _ _ _ _ _).1 hf).1 h
        · rw [forward_refuses cfg x time h3 h4] at hf
          exact absurd hf (by simp)
  · exact forward_refuses cfg x time (by omega) (by omega)

/-! ### The hypotheses can be met -/

/-- The network of `experiments/imgs/train.py`: 64 features, multipliers 1, 2, 4, and 28 × 28 images. -/
example : ∃ r, forward ⟨64, .shuffle, none, none, [1, 2, 4], 8, false⟩ [16, 28, 28, 1] (some 16) = some r :=
  (C49_accepts _ (by simp) (by norm_num) (by norm_num) (by norm_num) _).2
    ⟨by norm_num, by norm_num, by decide, ⟨by norm_num, by norm_num, by simp⟩, by simp, by simp⟩

/-- A batch of one image is accepted. -/
example : ∃ r, forward ⟨64, .resize, none, none, [1, 2, 4], 8, false⟩ [1, 32, 32, 3] none = some r :=
  (C49_accepts _ (by simp) (by norm_num) (by norm_num) (by norm_num) _).2
    ⟨by norm_num, by norm_num, by decide, ⟨by norm_num, by norm_num, by simp⟩, by simp, by simp⟩

end Props
end Fbs
