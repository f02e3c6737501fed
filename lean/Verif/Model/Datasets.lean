import Verif.Model.Data
import Verif.Model.Restore

/-!
# The image data sets: constructors of `fbs/data/images.py`

An array of at least one dimension is the list of its rows along axis 0, every row being the row-major list of its
entries, together with the shape of a row.  Files are arguments.  The cast to `float32` is the identity on reals.
-/

namespace Fbs
namespace Datasets

variable {α : Type}

/-- An array of shape `(rows.length, *rest)`; each row holds its entries in row-major order. -/
@[ext] structure Arr (α : Type) where
  rest : List ℕ
  rows : List (List α)

/-- The rows have as many entries as their shape says. -/
def Arr.Wf (a : Arr α) : Prop := ∀ r ∈ a.rows, r.length = a.rest.prod

/-- `jnp.reshape(a, (n, *rest))`: the same entries in the same row-major order, an error when the sizes differ. -/
def reshape (a : Arr α) (n : ℕ) (rest : List ℕ) : Except String (Arr α) :=
  if a.rows.flatten.length = n * rest.prod then
    .ok ⟨rest, Data.cut (List.replicate n rest.prod) a.rows.flatten⟩
  else .error "TypeError"

/-- The rows of `a` in the order `inds`. -/
def permuteRows (inds : List ℕ) (a : Arr α) : Arr α := ⟨a.rest, inds.map fun i => a.rows.getD i []⟩

/-- `jax.random.permutation(key, a, axis=0)`: the rows in a uniformly random order (trusted transcription). -/
noncomputable def shuffle (key : Key) (a : Arr α) : Rand (Arr α) :=
  (fun inds => permuteRows inds a) <$> Data.permutation key a.rows.length

/-- `/repo/fbs/data/images.py:14-16` (and 248-250) `standardise` of the image data sets. -/
def imageStandardise (a : Arr α) : Arr α := a

/-- The attributes set by the constructors. -/
structure ImageSet (α : Type) where
  n : ℕ
  xs : Arr α
  imageShape : ℕ × ℕ × ℕ

/-- `/repo/fbs/data/images.py:137-157` `MNIST.__init__`: `train` and `test` are the arrays `X` and `X_test` of the file. -/
noncomputable def mnist (key : Key) (train testData : Arr α) (test : Bool) : Rand (Except String (ImageSet α)) := do
  let n := if test then 10000 else 60000
  let xs ← shuffle key (if test then testData else train)
  return (reshape xs n [28, 28, 1]).map fun xs => ⟨n, imageStandardise xs, (28, 28, 1)⟩

/-- `/repo/fbs/data/images.py:167-187` `CIFAR10.__init__`: the reshaped array is assigned to `self.xs` and then replaced
by the array before the reshape; only the size check of the reshape remains. -/
noncomputable def cifar10 (key : Key) (train testData : Arr α) (test : Bool) : Rand (Except String (ImageSet α)) := do
  let n := if test then 10000 else 50000
  let xs ← shuffle key (if test then testData else train)
  return (reshape xs n [32, 32, 3]).map fun _ => ⟨n, imageStandardise xs, (32, 32, 3)⟩

/-- `/repo/fbs/data/images.py:199-207` (and 400-408): the first 1000 rows are the test set, the others the training set. -/
def celebaSplit (data : Arr α) (resolution : ℕ) (test : Bool) : ImageSet α :=
  if test then ⟨1000, ⟨data.rest, data.rows.take 1000⟩, (resolution, resolution, 3)⟩
  else ⟨29000, ⟨data.rest, data.rows.drop 1000⟩, (resolution, resolution, 3)⟩

/-- `/repo/fbs/data/images.py:191-209` `CelebAHQ.__init__`. -/
noncomputable def celeba (key : Key) (file : Arr α) (resolution : ℕ) (test : Bool) : Rand (ImageSet α) := do
  let data ← shuffle key file
  return celebaSplit (imageStandardise data) resolution test

/-- The attributes set by the constructors of the restoration data sets. -/
structure RestoreSet (α : Type) extends ImageSet α where
  unobsShape : ℕ × ℕ
  srRandom : Bool

/-- `/repo/fbs/data/images.py:232-246` `ImageRestore.__init__`, called with the default `sr_random`; the task has been read
from its string. -/
def restoreInit (d : ImageSet α) (task : Restore.Task) : RestoreSet α :=
  { d with unobsShape := (Restore.unobsSize d.imageShape.1 d.imageShape.2.1 task, d.imageShape.2.2), srRandom := true }

/-- `/repo/fbs/data/images.py:367-387` `MNISTRestore.__init__`. -/
noncomputable def mnistRestore (key : Key) (train testData : Arr α) (task : Restore.Task) (test : Bool) :
    Rand (Except String (RestoreSet α)) :=
  (fun r => r.map fun d => restoreInit d task) <$> mnist key train testData test

/-- `/repo/fbs/data/images.py:392-410` `CelebAHQRestore.__init__`. -/
noncomputable def celebaRestore (key : Key) (file : Arr α) (resolution : ℕ) (task : Restore.Task) (test : Bool) :
    Rand (RestoreSet α) :=
  (fun d => restoreInit d task) <$> celeba key file resolution test

/-- `/repo/fbs/data/base.py:20-27` `Dataset.reshape`, on the shape of its argument; the entries keep their order. -/
def baseReshape : List ℕ → List ℕ
  | [] => [1, 1]
  | [k] => [k, 1]
  | s => s

/-- `/repo/experiments/imgs/train.py:44-53`, `/repo/experiments/imgs/inpainting.py:54-63` and the other image scripts: the key
of the data set, from the key of the seed. -/
def dataKey (seed : Key) : Key :=
  let key := split seed 2 0
  split key 2 1

end Datasets
end Fbs
