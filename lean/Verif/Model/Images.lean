import Verif.Base.Jax
import Mathlib.Data.Int.Basic

/-!
# Image helpers: `Image` and `normalise` of `fbs/data/images.py`

Images are functions of the position; `Fin h → Fin w → Fin c → ℝ` for an array of shape `(h, w, c)`.  Where channels are
cut and joined, a pixel is the list of its channels.
-/

namespace Fbs
namespace Images

open Jax

variable {h w c : ℕ}

/-- `/repo/fbs/data/images.py:119-123` `Image.concat` with `expand=False`. -/
def concat {P α : Type} (x y : P → List α) : P → List α := fun p => x p ++ y p

/-- `/repo/fbs/data/images.py:119-121` `Image.concat` with `expand=True`. -/
def concatExpand {P α : Type} (x y : P → α) : P → List α := concat (fun p => [x p]) (fun p => [y p])

/-- `/repo/fbs/data/images.py:125-127` `Image.unpack` for images with `c` channels. -/
def unpack {P α : Type} (c : ℕ) (xy : P → List α) : (P → List α) × (P → List α) :=
  (fun p => (xy p).take c, fun p => (xy p).drop c)

/-- `/repo/fbs/data/images.py:414-417` `normalise(img, 'clip')`, at one entry. -/
noncomputable def clip (x : ℝ) : ℝ :=
  let x := if x < 0 then 0 else x
  if x > 1 then 1 else x

/-- `jnp.min(img, axis=[-2, -3], keepdims=True)` at channel `k`. -/
noncomputable def minOver [NeZero h] [NeZero w] (img : Fin h → Fin w → Fin c → ℝ) (k : Fin c) : ℝ :=
  (Finset.univ : Finset (Fin h × Fin w)).inf' ⟨(0, 0), Finset.mem_univ _⟩ fun p => img p.1 p.2 k

/-- `jnp.max(img, axis=[-2, -3], keepdims=True)` at channel `k`. -/
noncomputable def maxOver [NeZero h] [NeZero w] (img : Fin h → Fin w → Fin c → ℝ) (k : Fin c) : ℝ :=
  (Finset.univ : Finset (Fin h × Fin w)).sup' ⟨(0, 0), Finset.mem_univ _⟩ fun p => img p.1 p.2 k

/-- `/repo/fbs/data/images.py:418-421` `normalise(img, 'norm')`; `none` is the `nan` of `0 / 0`. -/
noncomputable def minMax [NeZero h] [NeZero w] (img : Fin h → Fin w → Fin c → ℝ) (i : Fin h) (j : Fin w) (k : Fin c) :
    Option ℝ :=
  if maxOver img k = minOver img k then none
  else some ((img i j k - minOver img k) / (maxOver img k - minOver img k))

/-- Python slice bound `s` of an axis of length `n`: negative bounds count from the end. -/
def pyBound (n : ℕ) (s : ℤ) : ℤ := if s < 0 then max (s + n) 0 else min s n

/-- Position `k` belongs to the slice `start:stop` of an axis of length `n`. -/
def inSlice (n : ℕ) (start stop : ℤ) (k : ℕ) : Prop := pyBound n start ≤ k ∧ (k : ℤ) < pyBound n stop

instance (n : ℕ) (start stop : ℤ) (k : ℕ) : Decidable (inSlice n start stop k) := by unfold inSlice; infer_instance

/-- `/repo/fbs/data/images.py:59-62` the corner `int((n - rectangle_size) / 3 * a)` along an axis of length `n` (`int`
truncates towards zero; the floating point product is taken to be exact). -/
def corner (n rectangleSize a : ℕ) : ℤ := Int.tdiv (((n : ℤ) - rectangleSize) * a) 3

/-- `/repo/fbs/data/images.py:64-66` `gen_mask`. -/
def mask (r : ℕ) (i j : ℤ) (x : Fin h) (y : Fin w) : ℝ :=
  if inSlice h i (i + r) x ∧ inSlice w j (j + r) y then 0 else 1

/-- `/repo/fbs/data/images.py:56-70` `Image.paint`: mask number `m` is that of corner `(m / 4, m % 4)`
(`itertools.product`). -/
noncomputable def paint (key : Key) (img : Fin h → Fin w → Fin c → ℝ) (r : ℕ) : Rand (Fin h → Fin w → Fin c → ℝ) :=
  (fun m : Fin 16 => fun x y k => img x y k * mask r (corner h r (m / 4)) (corner w r (m % 4)) x y) <$> randint key 16

/-- Source position of output position `i` of `jax.image.resize(·, 'nearest')` along an axis resized from `n` to `m`
(`jax/_src/image/scale.py`: `floor((i + 0.5) * n / m)`). -/
def nearest (n m i : ℕ) : ℕ := (2 * i + 1) * n / (2 * m)

theorem nearest_lt {n m i : ℕ} (hi : i < m) (hn : 0 < n) : nearest n m i < n := by
  unfold nearest
  rw [Nat.div_lt_iff_lt_mul (by omega)]
  calc (2 * i + 1) * n < 2 * m * n := Nat.mul_lt_mul_of_pos_right (by omega) hn
    _ = n * (2 * m) := Nat.mul_comm _ _

/-- `/repo/fbs/data/images.py:22-24` `down(ratio)` of `Image.downsample` for an array of shape `(h, w, c)`: shrink to
`int(h / ratio)` by `int(w / ratio)`, then enlarge again.  Both sides must be at least `ratio`. -/
def down (img : Fin h → Fin w → Fin c → ℝ) (ratio : ℕ) (hh : 0 < h / ratio) (hw : 0 < w / ratio) :
    Fin h → Fin w → Fin c → ℝ :=
  let small : Fin (h / ratio) → Fin (w / ratio) → Fin c → ℝ := fun i j =>
    img ⟨nearest h (h / ratio) i, nearest_lt i.2 (Nat.pos_of_div_pos hh)⟩
      ⟨nearest w (w / ratio) j, nearest_lt j.2 (Nat.pos_of_div_pos hw)⟩
  fun i j => small ⟨nearest (h / ratio) h i, nearest_lt i.2 hh⟩ ⟨nearest (w / ratio) w j, nearest_lt j.2 hw⟩

/-- `/repo/fbs/data/images.py:18-27` `Image.downsample`: ratio 4 or 8 with equal probabilities. -/
noncomputable def downsample (key : Key) (img : Fin h → Fin w → Fin c → ℝ) (hh : 8 ≤ h) (hw : 8 ≤ w) :
    Rand (Fin h → Fin w → Fin c → ℝ) :=
  (fun m : Fin 2 => if m = 0 then
    down img 4 (Nat.div_pos (by omega) (by omega)) (Nat.div_pos (by omega) (by omega))
    else down img 8 (Nat.div_pos (by omega) (by omega)) (Nat.div_pos (by omega) (by omega))) <$> randint key 2

end Images
end Fbs
