import Verif.Model.Datasets
import Verif.Model.SbImgs

/-!
# The scripts that make the data files: `experiments/datasets/make_cifar10.py`, `experiments/datasets/celebaHQ/convert.py`

The contents of the downloaded files are arguments.  The cast to `float32` is the identity on reals.
-/

namespace Fbs
namespace DataFiles

open Datasets SbImgs

variable {α : Type}

/-- `a.reshape(-1, *rest)`. -/
def reshapeAuto (a : Arr α) (rest : List ℕ) : Except String (Arr α) :=
  if a.rows.flatten.length % rest.prod = 0 then reshape a (a.rows.flatten.length / rest.prod) rest
  else .error "ValueError"

/-- The columns `lo, …, hi - 1` of a two-dimensional array, `imgs[:, lo:hi]`. -/
def columns (lo hi : ℕ) (a : Arr α) : Arr α :=
  ⟨[min hi a.rest.prod - lo], a.rows.map fun r => (r.take hi).drop lo⟩

/-- One row of `np.concatenate([a, b, c], axis=-1)` of arrays whose last dimension is one. -/
def interleave : List α → List α → List α → List α
  | x :: a, y :: b, z :: c => x :: y :: z :: interleave a b c
  | _, _, _ => []

/-- `/repo/experiments/datasets/make_cifar10.py:8-14` `load_batch`; the argument is the array `dict[b'data']`. -/
def loadBatch (imgs : Arr ℕ) : Except String (Arr ℕ) := do
  let r ← reshapeAuto (columns 0 1024 imgs) [32, 32, 1]
  let g ← reshapeAuto (columns 1024 2048 imgs) [32, 32, 1]
  let b ← reshapeAuto (columns 2048 imgs.rest.prod imgs) [32, 32, 1]
  if r.rows.length = g.rows.length ∧ r.rows.length = b.rows.length then
    return ⟨[32, 32, 3], List.zipWith (fun x yz => interleave x yz.1 yz.2) r.rows (List.zip g.rows b.rows)⟩
  else throw "ValueError"

/-- `a[lo:lo + size] = b` for arrays with rows of the same shape and `lo + size` at most the length of `a`: a single row is
repeated, any other number than `size` is an error. -/
def setRows (a : Arr α) (lo size : ℕ) (b : Arr α) : Except String (Arr α) :=
  if b.rows.length = size then .ok ⟨a.rest, a.rows.take lo ++ b.rows ++ a.rows.drop (lo + size)⟩
  else if b.rows.length = 1 then .ok ⟨a.rest, a.rows.take lo ++ (List.replicate size b.rows).flatten ++ a.rows.drop (lo + size)⟩
  else .error "ValueError"

/-- `/repo/experiments/datasets/make_cifar10.py:17-18`: `nb` batches of `size` images, batch `i` is the file number `i + 1`. -/
def fill (size : ℕ) (batch : ℕ → Arr ℕ) : ℕ → Arr ℕ → Except String (Arr ℕ)
  | 0, a => .ok a
  | i + 1, a => do
    let a ← fill size batch i a
    let b ← loadBatch (batch (i + 1))
    setRows a (i * size) size b

/-- `/repo/experiments/datasets/make_cifar10.py:23-24`. -/
noncomputable def scale (a : Arr ℕ) : Arr ℝ := ⟨a.rest, a.rows.map fun r => r.map fun x : ℕ => (x : ℝ) / 255⟩

/-- `np.zeros((n, 32, 32, 3), dtype='int')`. -/
def zeros (n : ℕ) : Arr ℕ := ⟨[32, 32, 3], List.replicate n (List.replicate 3072 0)⟩

/-- `/repo/experiments/datasets/make_cifar10.py:4-26`: the arrays `train_data` and `test_data` of the file, from the five
batches and the test batch. -/
noncomputable def makeCifar (batch : ℕ → Arr ℕ) (test : Arr ℕ) : Except String (Arr ℝ × Arr ℝ) := do
  let train ← fill 10000 batch 5 (zeros 50000)
  let b ← loadBatch test
  let t ← setRows (zeros 10000) 0 10000 b
  return (scale train, scale t)

/-- `/repo/experiments/datasets/celebaHQ/convert.py:7-12`: one image of `images128`. -/
noncomputable def celeba128 {n c : ℕ} (img : Fin n → Fin n → Fin c → ℕ) : Fin n → Fin n → Fin c → ℝ :=
  fun i j ch => if (img i j ch : ℝ) / 255 > 1 then 1 else (img i j ch : ℝ) / 255

/-- `/repo/experiments/datasets/celebaHQ/convert.py:14`: the images of half the size, `m = 64`; the axis of the images and the
channels keep their length and are left alone by `jax.image.resize`. -/
noncomputable def celeba64 {m c : ℕ} (images : ℕ → Fin (2 * m) → Fin (2 * m) → Fin c → ℝ) : ℕ → Fin m → Fin m → Fin c → ℝ :=
  fun k => resize m m (images k)

end DataFiles
end Fbs
