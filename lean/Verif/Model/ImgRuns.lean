import Verif.Base.Rand

/-!
# The outer loops of the image experiments

`experiments/imgs/{inpainting,supr}.py` (particle filter, Gibbs, pseudo-marginal), `{inpainting,supr}_csgm.py` and
`{inpainting,supr}_twisted.py` share their first lines and the loop over the test images.  What is kept is the order in which
keys are split and used; writing of files, printing and the `ValueError` for an unknown method are left out.
-/

namespace Fbs
namespace ImgRuns

variable {D X S P σ : Type}

/-- `/repo/experiments/imgs/inpainting.py:223-226`, `supr.py:228-231`, `inpainting_csgm.py:151-155`,
`inpainting_twisted.py:184-187`: `nsamples` independent restorations; the last component is the variable `key` afterwards. -/
def drawLoop (f : Key → Rand X) : ℕ → Key → Rand (List X × Key)
  | 0, key => pure ([], key)
  | n + 1, key => do
    let x ← f (split key 2 1)
    let rest ← drawLoop f n (split key 2 0)
    return (x :: rest.1, rest.2)

/-- `/repo/experiments/imgs/inpainting.py:239-243`, `:255-259`, `supr.py:244-248`, `:260-264`: `nsamples` iterations of a
Markov chain. -/
def chainLoop (next : Key → σ → Rand σ) (out : σ → X) : ℕ → Key → σ → Rand (List X × Key)
  | 0, key, _ => pure ([], key)
  | n + 1, key, s => do
    let s' ← next (split key 2 1) s
    let rest ← chainLoop next out n (split key 2 0) s'
    return (out s' :: rest.1, rest.2)

/-- How the samples for one test image `d` are made: one call per sample (`filter`, the csgm and the twisted scripts), or a
chain with its start (`gibbs`, `pmcmc`). -/
inductive Method (D X : Type) : Type 1 where
  | draws (f : Key → D → Rand X)
  | chain (σ : Type) (init : Key → D → Rand σ) (next : D → Key → σ → Rand σ) (out : D → σ → X)

/-- `/repo/experiments/imgs/inpainting.py:222-263`, `supr.py:227-268`: the samples for the image `d`, and the variable `key`
afterwards. -/
def Method.run (m : Method D X) (nsamples : ℕ) (key : Key) (d : D) : Rand (List X × Key) :=
  match m with
  | .draws f => drawLoop (fun k => f k d) nsamples key
  | .chain _ init next out => do
    let s ← init (split key 2 1) d
    chainLoop (next d) (out d) nsamples (split key 2 0) s

/-- `/repo/experiments/imgs/inpainting.py:205-263`, `supr.py:206-268`, `inpainting_csgm.py:134-158`, `supr_csgm.py:135-163`,
`inpainting_twisted.py:167-190`, `supr_twisted.py:168-195`: the iterations `k, k + 1, …, k + n - 1`. -/
def imageLoop (sampler : Key → Rand D) (m : Method D X) (nsamples startFrom : ℕ) :
    ℕ → ℕ → Key → Key → Rand (List (ℕ × D × List X))
  | 0, _, _, _ => pure []
  | n + 1, k, key, dataKey =>
    if k < startFrom then imageLoop sampler m nsamples startFrom n (k + 1) key (split dataKey 2 0)
    else do
      let d ← sampler (split dataKey 2 1)
      let xs ← m.run nsamples key d
      let rest ← imageLoop sampler m nsamples startFrom n (k + 1) xs.2 (split dataKey 2 0)
      return (k, d, xs.1) :: rest

/-- `/repo/experiments/imgs/inpainting.py:54-55`, `:63-72`, `:84-86`, `:205-263` and the same lines of the other five scripts:
the whole script.  `mkData` loads the data set, `nnInit` draws the parameters that are then replaced by the stored ones. -/
def script (mkData : Key → Rand S) (nnInit : Key → Rand P) (sampler : S → Key → Rand D) (m : S → Method D X)
    (nsamples ny0s startFrom : ℕ) (seed : Key) : Rand (List (ℕ × D × List X)) := do
  let key := split seed 2 0
  let dataKey := split seed 2 1
  let ds ← mkData (split key 2 1)
  let key := split key 2 0
  let _ ← nnInit (split key 2 1)
  let key := split key 2 0
  imageLoop (sampler ds) (m ds) nsamples startFrom ny0s 0 key dataKey

end ImgRuns
end Fbs
