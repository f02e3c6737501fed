import Verif.Model.Data
import Mathlib.Logic.Equiv.Fin.Basic
import Mathlib.Data.List.ProdSigma

/-!
# Image restoration tasks: `ImageRestore` of `fbs/data/images.py`

An image is the list of its pixels in row-major order (`jnp.reshape` between `(w, h, c)` and `(w * h, c)` keeps this
list); a pixel is a value of an arbitrary type.  Leading batch axes are not modelled.
-/

namespace Fbs
namespace Restore

open Jax Data

variable {α : Type}

/-- `jnp.ravel_multi_index([i, j], (w, h), mode='clip')`. -/
def ravel (w h i j : ℕ) : ℕ := min i (w - 1) * h + min j (h - 1)

/-- `jnp.setdiff1d(ar1, ar2, assume_unique=True, size=size)`: the entries of `ar1` that are not in `ar2`, in order, cut
or padded with zeros to the given size. -/
def setdiff1d (ar1 ar2 : List ℕ) (size : ℕ) : List ℕ :=
  let l := ar1.filter fun a => a ∉ ar2
  l.take size ++ List.replicate (size - l.length) 0

/-- `jax.random.randint(key, (), 0, m)` for an integer `m` (`jax/_src/random.py`: `0` is returned when `m ≤ 0`). -/
noncomputable def randintTo (key : Key) (m : ℤ) : Rand ℕ :=
  if 0 < m then Fin.val <$> randint key m.toNat else (fun _ => 0) <$> randint key 1

/-- `/repo/fbs/data/images.py:212-225` the two index arrays of a mask. -/
structure Mask where
  unobs : List ℕ
  obs : List ℕ

/-- All pixel positions, ravelled (`/repo/fbs/data/images.py:279`, `:298`). -/
def allInds (w h : ℕ) : List ℕ :=
  ((List.range w).product (List.range h)).map fun p => ravel w h p.1 p.2

/-- `/repo/fbs/data/images.py:284-302` `_gen_inpaint_mask` for an image of shape `(w, h, ·)`. -/
noncomputable def inpaintMask (w h : ℕ) (key : Key) (width height : ℕ) : Rand Mask := do
  let width := min width w
  let height := min height h
  let maxShift : ℤ := (min w h : ℕ) - (max width height : ℕ)
  let shift ← randintTo key maxShift
  let rect := ((List.range width).product (List.range height)).map fun p => ravel w h (p.1 + shift) (p.2 + shift)
  pure { unobs := rect, obs := setdiff1d (allInds w h) rect (w * h - width * height) }

/-- `range(0, n, step)` for a positive step. -/
def rangeStep (n step : ℕ) : List ℕ := (List.range ((n + step - 1) / step)).map fun i => i * step

/-- Elementwise operation on two one-dimensional arrays with broadcasting. -/
def broadcast {α β : Type} (l : List α) (m : List β) : Except String (List (α × β)) :=
  if l.length = m.length then .ok (l.zip m)
  else match l, m with
    | [a], m => .ok (m.map fun b => (a, b))
    | l, [b] => .ok (l.map fun a => (a, b))
    | _, _ => .error "TypeError"

/-- `/repo/fbs/data/images.py:267-270` the shifts of the observed pixels within the blocks. -/
noncomputable def shifts (key : Key) (nblocks rate : ℕ) (random : Bool) : Rand (List (ℕ × ℕ)) :=
  if random then
    (fun u => List.ofFn fun b : Fin nblocks =>
      ((u (finProdFinEquiv (b, (0 : Fin 2))) : ℕ), (u (finProdFinEquiv (b, (1 : Fin 2))) : ℕ))) <$>
      randints key (nblocks * 2) rate
  else pure (List.replicate nblocks (rate / 2, rate / 2))

/-- `/repo/fbs/data/images.py:258-282` `_gen_supr_mask` for an image of shape `(w, h, ·)`.  The floating point quotient
`int(img_w * img_h / rate ** 2)` is taken to be exact. -/
noncomputable def suprMask (w h : ℕ) (key : Key) (rate : ℕ) (random : Bool) : Rand (Except String Mask) :=
  if rate = 0 then pure (.error "ZeroDivisionError")
  else do
    let nblocks := w * h / rate ^ 2
    let sh ← shifts key nblocks rate random
    let blocks := (rangeStep w rate).product (rangeStep h rate)
    pure ((broadcast blocks sh).map fun bs =>
      let obs := bs.map fun p => ravel w h (p.1.1 + p.2.1) (p.1.2 + p.2.2)
      { unobs := setdiff1d (allInds w h) obs (w * h - nblocks), obs := obs })

/-- The two kinds of tasks, `'inpaint-s'` and `'supr-s'`. -/
inductive Task where
  | inpaint (s : ℕ)
  | supr (s : ℕ)

/-- `/repo/fbs/data/images.py:238-245` the first entry of `unobs_shape` (floating point quotient taken to be exact). -/
def unobsSize (w h : ℕ) : Task → ℕ
  | .inpaint s => s ^ 2
  | .supr s => w * h * (s ^ 2 - 1) / s ^ 2

/-- `/repo/fbs/data/images.py:304-312` `gen_mask`. -/
noncomputable def genMask (w h : ℕ) (key : Key) (srRandom : Bool) : Task → Rand (Except String Mask)
  | .inpaint s => .ok <$> inpaintMask w h key s s
  | .supr s => suprMask w h key s srRandom

/-- `/repo/fbs/data/images.py:333-353` `unpack`. -/
def unpack [Inhabited α] (img : List α) (mask : Mask) : List α × List α := (gather img mask.unobs, gather img mask.obs)

/-- `img.at[..., inds, :].set(x)`: one row of `x` is broadcast, other lengths must agree; indices past the end are
dropped, later entries win. -/
def scatter (img : List α) (inds : List ℕ) (x : List α) : Except String (List α) :=
  if x.length = inds.length then .ok ((inds.zip x).foldl (fun im p => im.set p.1 p.2) img)
  else match x with
    | [v] => .ok (inds.foldl (fun im i => im.set i v) img)
    | _ => .error "ValueError"

/-- `/repo/fbs/data/images.py:355-363` `concat`; `zero` is the pixel of zeros. -/
def concat (zero : α) (w h : ℕ) (x y : List α) (mask : Mask) : Except String (List α) := do
  let img ← scatter (List.replicate (w * h) zero) mask.unobs x
  scatter img mask.obs y

end Restore
end Fbs
