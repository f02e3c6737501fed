import Verif.Base.Jax
import Mathlib.Data.Fintype.Perm
import Mathlib.GroupTheory.Perm.Basic

/-!
# Data sets: `fbs/data/base.py`

Exceptions are values of `Except String`.  Data sets are lists of data.
-/

open MeasureTheory
open scoped ENNReal

namespace Fbs
namespace Data

variable {α : Type}

/-- Every set of permutations is an event. -/
instance (m : ℕ) : MeasurableSpace (Equiv.Perm (Fin m)) := ⊤

/-- `jax.random.permutation(key, jnp.arange(m))`: a uniform permutation (trusted transcription; the ideal law, not the
sorting rounds of the implementation). -/
noncomputable def permutation (key : Key) (m : ℕ) : Rand (List ℕ) :=
  (fun σ : Equiv.Perm (Fin m) => List.ofFn fun i => (σ i : ℕ)) <$>
    Rand.sample key Set.univ ((m.factorial : ℝ≥0∞)⁻¹ • Measure.count)

/-- `jax.random.choice(key, jnp.arange(m), (k,), replace=False)` (`jax/_src/random.py`: the first `k` entries of a
random permutation). -/
noncomputable def choiceNoReplace (key : Key) (m k : ℕ) : Rand (Except String (List ℕ)) :=
  if m < k then pure (.error "ValueError") else (fun l => .ok (l.take k)) <$> permutation key m

/-- Cut a list into pieces of the given lengths. -/
def cut : List ℕ → List α → List (List α)
  | [], _ => []
  | s :: ss, l => l.take s :: cut ss (l.drop s)

/-- `jnp.array_split(x, k)` of a one-dimensional array: `len(x) % k` sections of length `len(x) // k + 1` followed by
sections of length `len(x) // k`; no section at all is an error. -/
def arraySplit (l : List α) (k : ℕ) : Except String (List (List α)) :=
  if k = 0 then .error "ZeroDivisionError"
  else .ok (cut (List.replicate (l.length % k) (l.length / k + 1) ++
    List.replicate (k - l.length % k) (l.length / k)) l)

/-- `/repo/fbs/data/base.py:39-49` `Dataset.init_enumeration` of a data set of size `n`; the attribute `perm_inds` is the
returned value. -/
noncomputable def initEnumeration (n : ℕ) (key : Key) (batchSize : ℕ) : Rand (Except String (List (List ℕ))) :=
  if batchSize = 0 then pure (.error "ZeroDivisionError")
  else
    let nChunks := n / batchSize
    (fun r => r.bind fun l => arraySplit l nChunks) <$>
      choiceNoReplace key (batchSize * nChunks) (batchSize * nChunks)

/-- `xs[inds]` of a `jnp` array of positive length: indices past the end are clamped. -/
def gather [Inhabited α] (xs : List α) (inds : List ℕ) : List α := inds.map fun i => xs.getD (min i (xs.length - 1)) default

/-- `perm_inds[i]` of a Python list: negative indices count from the end. -/
def pyGet (l : List α) (i : ℤ) : Except String α :=
  match (if 0 ≤ i then l[i.toNat]? else if -(l.length : ℤ) ≤ i then l[(l.length + i).toNat]? else none) with
  | some a => .ok a
  | none => .error "IndexError"

/-- `/repo/fbs/data/base.py:51-57` `Dataset.enumerate_subset` (and `/repo/fbs/data/images.py:252-256`). -/
def enumerateSubset [Inhabited α] (xs : List α) (permInds : List (List ℕ)) (i : ℤ) : Except String (List α) :=
  (pyGet permInds i).map (gather xs)

/-- `/repo/fbs/data/base.py:35-37` `Dataset.draw_subset`; the reshape of the result is not modelled. -/
noncomputable def drawSubset [Inhabited α] (xs : List α) (key : Key) (batchSize : ℕ) : Rand (Except String (List α)) :=
  (fun r => r.map (gather xs)) <$> choiceNoReplace key xs.length batchSize

end Data
end Fbs
