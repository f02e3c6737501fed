import Verif.Model.Unet

/-!
# The small networks: `fbs/nn/models.py`, `make_st_nn` and `make_nn_with_time`

The forward passes acting on shapes of arbitrary rank, as in `Verif.Model.Unet`: `none` means that an exception is raised.
The shapes are those met when the parameters are initialised (a later call must have the same number of input features, which
is not modelled); activations keep shapes.
-/

namespace Fbs
namespace Models

open Unet (assert)

/-- `numpy` broadcasting of two reversed shapes. -/
def bcastRev : List ℕ → List ℕ → Option (List ℕ)
  | [], m => some m
  | l, [] => some l
  | a :: l, b :: m => do
    let r ← bcastRev l m
    if a = b then pure (a :: r) else if a = 1 then pure (b :: r) else if b = 1 then pure (a :: r) else none

/-- `numpy` broadcasting of two shapes (aligned at the last axis). -/
def bcast (l m : List ℕ) : Option (List ℕ) := (bcastRev l.reverse m.reverse).map List.reverse

/-- `jnp.broadcast_to(x, target)`. -/
def broadcastTo (x target : List ℕ) : Option (List ℕ) := do
  let r ← bcast x target
  assert (r = target)
  pure r

/-- `flax.linen.Dense(features)`: replaces the last axis, refuses scalars. -/
def dense (features : ℕ) (x : List ℕ) : Option (List ℕ) := if x = [] then none else some (x.dropLast ++ [features])

/-- `jnp.concatenate([x, y], axis=-1)`. -/
def concatLast (x y : List ℕ) : Option (List ℕ) := do
  assert (x ≠ [] ∧ y ≠ [] ∧ x.dropLast = y.dropLast)
  pure (x.dropLast ++ [x.getLastD 0 + y.getLastD 0])

/-- `jnp.squeeze`. -/
def squeeze (x : List ℕ) : List ℕ := x.filter (· ≠ 1)

/-- `x.reshape(target)` without `-1`. -/
def reshape (x target : List ℕ) : Option (List ℕ) := do
  assert (x.prod = target.prod)
  pure target

/-- `/repo/fbs/nn/base.py:44-77` `sinusoidal_embedding` on the shape of the times, for an even dimension: `t * fs` is
broadcast, then sines and cosines are joined along the last axis. -/
def embed (outDim : ℕ) (t : List ℕ) : Option (List ℕ) := do
  let s ← bcast t [outDim / 2]
  concatLast s s

/-- `/repo/fbs/nn/models.py:32-35` and `:71-74`: a scalar time gets a leading axis, otherwise the embedding is mapped over
the leading axis. -/
def embedBatch (outDim : ℕ) : List ℕ → Option (List ℕ)
  | [] => (embed outDim []).map (1 :: ·)
  | b :: t => (embed outDim t).map (b :: ·)

/-- `/repo/fbs/nn/models.py:11-20` `_CrescentTimeBlock.__call__`. -/
def crescentTimeBlock (nfeatures : ℕ) (emb : List ℕ) : Option (List ℕ) := do
  let emb ← dense nfeatures emb
  dense nfeatures emb

/-- `/repo/fbs/nn/models.py:37-41` one hidden layer of `CrescentMLP`. -/
def crescentLayer (emb x : List ℕ) (h : ℕ) : Option (List ℕ) := do
  let x ← dense h x
  let scale ← crescentTimeBlock h emb
  let x ← bcast x scale
  let shift ← crescentTimeBlock h emb
  bcast x shift

/-- `/repo/fbs/nn/models.py:23-43` `CrescentMLP.__call__`. -/
def crescentMLP (hiddens : List ℕ) (dim : ℕ) (x t : List ℕ) : Option (List ℕ) := do
  let emb ← embedBatch 32 t
  let x ← hiddens.foldlM (crescentLayer emb) x
  let x ← dense dim x
  pure (squeeze x)

/-- `/repo/fbs/nn/models.py:63-114` `GMSBMLP.__call__`. -/
def gmsbMLP (dim : ℕ) (x k : List ℕ) : Option (List ℕ) := do
  let emb ← embedBatch 32 k
  let emb ← dense 32 emb
  let x ← dense 16 x
  let x ← dense 32 x
  let emb ← broadcastTo emb [x.headD 0, 32]
  let h ← concatLast x emb
  let h ← dense 64 h
  let h ← dense 16 h
  dense dim h

/-- `/repo/fbs/nn/models.py:117-141` `MNISTAutoEncoder.__call__`. -/
def autoEncoder (xy t : List ℕ) : Option (List ℕ) := do
  let xy ← dense 128 xy
  let xy ← dense 32 xy
  let t ← embed 128 t
  let t ← dense 64 t
  let t ← dense 32 t
  let z ← concatLast xy t
  let z ← dense 128 z
  let z ← dense 256 z
  let z ← dense (784 * 2) z
  pure (squeeze z)

/-- `flax.linen.Conv` with padding `'SAME'` and strides `s` on a shape `(B, H, W, C)`. -/
def convSame (features s : ℕ) (x : Unet.Shape) : Unet.Shape := ⟨x.b, (x.h + s - 1) / s, (x.w + s - 1) / s, features⟩

/-- `x + y`, `x * y` of arrays of rank four, one of which may have axes of length one (here: shapes that must agree or be one). -/
def bcast4 (x y : Unet.Shape) : Option Unet.Shape := do
  match ← bcast [x.b, x.h, x.w, x.c] [y.b, y.h, y.w, y.c] with
  | [b, h, w, c] => pure ⟨b, h, w, c⟩
  | _ => none

/-- `/repo/fbs/nn/models.py:156-159` the batch size that `MNISTResConv` reads off its input. -/
def batchOf (x : List ℕ) : ℕ := if x.length ≤ 1 then 1 else x.headD 0

/-- `/repo/fbs/nn/models.py:144-214` `MNISTResConv.__call__`.  The other decoder reads the attribute `batch_spatial`, which
does not exist. -/
def resConv (pixelShuffle : Bool) (x t : List ℕ) : Option (List ℕ) := do
  let batch := batchOf x
  let _ ← reshape x [batch, 28, 28, 1]
  let x : Unet.Shape := ⟨batch, 28, 28, 1⟩
  let x ← Unet.groupNorm 8 (convSame 32 1 x)
  let x1 := x
  let x := convSame 32 2 x
  let x ← Unet.groupNorm 8 (convSame 64 1 x)
  let x2 := x
  let x := convSame 64 2 x
  let t ← embed 32 t
  let t ← dense 64 t
  let t ← dense 128 t
  -- `t.reshape(1, 1, 1, -1)`, cut at 64
  let t1 : Unet.Shape := ⟨1, 1, 1, min 64 t.prod⟩
  let t2 : Unet.Shape := ⟨1, 1, 1, t.prod - 64⟩
  let x ← bcast4 x t1
  let x ← bcast4 x t2
  assert pixelShuffle
  let x ← Unet.pixelShuffle 2 (convSame (64 * 4) 1 x)
  let x ← Unet.groupNorm 8 (convSame 64 1 x)
  let x ← bcast4 x x2
  let x ← Unet.pixelShuffle 2 (convSame (32 * 4) 1 x)
  let x ← Unet.groupNorm 8 (convSame 32 1 x)
  let x ← bcast4 x x1
  let x := convSame 1 1 x
  -- `x.reshape((batch_size, -1))` refuses an empty batch
  assert (0 < batch)
  pure (squeeze [batch, x.b * x.h * x.w * x.c / batch])

/-- `/repo/fbs/nn/models.py:228-252` `ClassicMLP.__call__` of `make_simple_st_nn`. -/
def classicMLP (embedDim : ℕ) (x t : List ℕ) : Option (List ℕ) := do
  assert (x ≠ [])
  let d := x.getLastD 0
  let x ← dense 16 x
  let x ← dense 8 x
  let t ← embed embedDim t
  let t ← dense 16 t
  let t ← dense 8 t
  let z ← concatLast x t
  let z ← dense 32 z
  let z ← dense 8 z
  let z ← dense d z
  pure (squeeze z)

/-- `/repo/fbs/nn/base.py:9-41` `make_st_nn`: the network is initialised with a batch of inputs and one time for each of
them. -/
def makeStNn (nn : List ℕ → List ℕ → Option (List ℕ)) (dimIn : List ℕ) (batchSize : ℕ) : Option (List ℕ) :=
  nn (batchSize :: dimIn) [batchSize]

/-- `/repo/fbs/nn/models.py:217-259` `make_simple_st_nn` with the default network: it is initialised with a scalar time, then
by `make_st_nn`. -/
def makeSimpleStNn (embedDim : ℕ) (dimIn : List ℕ) (batchSize : ℕ) : Option (List ℕ) := do
  let _ ← classicMLP embedDim (batchSize :: dimIn) []
  makeStNn (classicMLP embedDim) dimIn batchSize

end Models
end Fbs
