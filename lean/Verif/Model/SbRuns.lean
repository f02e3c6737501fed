import Verif.Base.Rand

/-!
# The script `experiments/sb_imgs/supr.py` from its seed to its files

What is kept is the order in which keys are split and used, the array `restored_imgs` that is allocated once and reused for the
three starts, and the names and contents of the `.npy` files.  Pictures and printing are left out, and so is the `ValueError`
for an unknown method.
-/

namespace Fbs
namespace SbRuns

variable {D U X S P σ : Type}

/-- The content of a stored file: an array of images or a single one. -/
inductive File (X : Type) where
  | arr (l : List X)
  | img (x : X)

/-- `/repo/experiments/sb_imgs/supr.py:219-225`: iterations `i, …, i + n - 1` of the filter, writing into the array; the last
component is the variable `key` afterwards. -/
def filterInto (x0Sampler : Key → Rand U) (pf : Key → U → Rand X) : ℕ → ℕ → Key → List X → Rand (List X × Key)
  | 0, _, key, arr => pure (arr, key)
  | n + 1, i, key, arr => do
    let x0 ← x0Sampler (split key 2 1)
    let key := split key 2 0
    let x ← pf (split key 2 1) x0
    let key := split key 2 0
    filterInto x0Sampler pf n (i + 1) key (arr.set i x)

/-- `/repo/experiments/sb_imgs/supr.py:239-243`: iterations `i, …, i + n - 1` of the chain. -/
def gibbsInto (next : Key → σ → Rand σ) (out : σ → X) : ℕ → ℕ → Key → σ → List X → Rand (List X × Key)
  | 0, _, key, _, arr => pure (arr, key)
  | n + 1, i, key, s, arr => do
    let s' ← next (split key 2 1) s
    gibbsInto next out n (i + 1) (split key 2 0) s' (arr.set i (out s'))

/-- What the script does with a start: run the filter (`pf` of lines 162-166 followed by `dataset.concat`) or the chain (`init`
is `gibbs_init` of lines 169-173, `next` is `gibbs_kernel`, `out` is `dataset.concat` of the state). -/
inductive Method (U X : Type) : Type 1 where
  | filter (pf : Key → U → Rand X)
  | gibbs (σ : Type) (init : Key → U → Rand σ) (next : Key → σ → Rand σ) (out : σ → X)

/-- `/repo/experiments/sb_imgs/supr.py:216-254`: the loop over the starts, given by name and sampler; returns the files in the
order in which they are written. -/
def starts (m : Method U X) (nsamples : ℕ) : List (String × (Key → Rand U)) → Key → List X → Rand (List (String × File X))
  | [], _, _ => pure []
  | (name, x0Sampler) :: rest, key, arr =>
    match m with
    | .filter pf => do
      let r ← filterInto x0Sampler pf nsamples 0 key arr
      let files ← starts m nsamples rest r.2 r.1
      return ("filter-" ++ name, .arr r.1) :: files
    | .gibbs _ init next out => do
      let x0 ← x0Sampler (split key 2 1)
      let key := split key 2 0
      let s ← init (split key 2 1) x0
      let r ← gibbsInto next out nsamples 0 (split key 2 0) s arr
      let files ← starts m nsamples rest r.2 r.1
      return ("gibbs-init", .img (out s)) :: ("gibbs-eb-ef-" ++ name, .arr r.1) :: files

/-- What a file holds in the end: the last content written to it. -/
def stored (files : List (String × File X)) (name : String) : Option (File X) :=
  (files.reverse.find? fun f => f.1 = name).map Prod.snd

/-- `/repo/experiments/sb_imgs/supr.py:194-195`: the value of `subkey` after `n` further splits of `data_key`. -/
def dataLoop : ℕ → Key → Key → Key
  | 0, _, subkey => subkey
  | n + 1, dataKey, _ => dataLoop n (split dataKey 2 0) (split dataKey 2 1)

/-- `/repo/experiments/sb_imgs/supr.py:43-44`, `:52-55`, `:66-68`, `:192-254`: the whole script, `blank` is the array of
zeros of line 213.  Returned are the test image and the files. -/
def script (mkData : Key → Rand S) (nnInit : Key → Rand P) (sampler : S → Key → Rand D) (x0Samplers : D → List (String × (Key → Rand U)))
    (m : D → Method U X) (blank : X) (nsamples y0Id : ℕ) (seed : Key) : Rand (D × List (String × File X)) := do
  let key := split seed 2 0
  let dataKey := split seed 2 1
  let ds ← mkData (split key 2 1)
  let key := split key 2 0
  let _ ← nnInit (split key 2 1)
  let key := split key 2 0
  let d ← sampler ds (dataLoop y0Id (split dataKey 2 0) (split dataKey 2 1))
  let files ← starts (m d) nsamples (x0Samplers d) key (List.replicate nsamples blank)
  return (d, files)

end SbRuns
end Fbs
