import Verif.Model.Smc
import Verif.Model.Gibbs

/-!
# How the experiments draw from the filter and start their chains

`m` holds `transition_sampler`, `likelihood_logpdf` and `ref_sampler` of the script; `fwdYs` is `fwd_ys_sampler` with the
observation `y0`.
-/

namespace Fbs
namespace Chains

open Jax Smc

variable {U V : Type} {N K : ℕ} [NeZero N]

/-- `/repo/experiments/toy/gp_filter.py:134-142` and `/repo/experiments/sb/filter.py:148-162` `conditional_sampler`; in the
latter `fwdYs` is `fwd_ys_sampler_proper` or `fwd_ys_sampler_heuristic`. -/
noncomputable def filterSampler (m : Funs N U V) (fwdYs : Key → Rand (Arr1 V)) (ts : Arr1 ℝ) (key : Key) : Rand U := do
  let keyFwd := split key 3 0
  let keyBf := split key 3 2
  let pathY ← fwdYs keyFwd
  let vs := pathY.reverse
  let r ← bootstrapFilter m Resampling.stratified vs ts keyBf true true
  pure (r.final 0)

/-- `/repo/experiments/toy/gp_gibbs.py:152-162` and `/repo/experiments/sb/gibbs.py:153-164` `gibbs_init`; in the latter
`fwdYs` is `fwd_ys_sampler_heuristic`.  `nsteps + 1` is the number of rows of `ts`. -/
noncomputable def gibbsInit (m : Funs N U V) (transLogpdf : U → (Fin N → U) → V → ℝ → (Fin N → ℝ))
    (fwdYs : Key → Rand (Arr1 V)) (ts : Arr1 ℝ) (key : Key) : Rand (U × List U × List (Fin N)) := do
  let keyFwd := split key 3 0
  let keyBwd := split key 3 1
  let keyBf := split key 3 2
  let pathY ← fwdYs keyFwd
  let vs := pathY.reverse
  let r ← bootstrapFilter m Resampling.stratified vs ts keyBf true false
  let uss : Arr1 (Fin N → U) := match r with
    | .path uss _ => uss
    | .last us _ => (us, [])
  let x0 := uss.last 0
  let usStar ← backwardSmoother keyBwd uss vs ts transLogpdf
  let bsStar := List.replicate (ts.2.length + 1) 0
  pure (x0, usStar, bsStar)

/-- `/repo/experiments/toy/gp_pmcmc.py:143-151` `pmcmc_init`. -/
noncomputable def pmcmcInit (m : Funs N U V) (fwdYs : Key → Rand (Fin (K + 1) → V)) (ts : Fin (K + 1) → ℝ) (key : Key) :
    Rand (U × ℝ × (Fin (K + 1) → V)) := do
  let keyFwd := split key 4 0
  let keyBf := split key 4 2
  let keyYs := split key 4 3
  let pathY ← fwdYs keyFwd
  let vs := fun i => pathY (Fin.rev i)
  let r ← bootstrapFilter m Resampling.stratified (toArr1 vs) (toArr1 ts) keyBf true true
  let ys ← fwdYs keyYs
  pure (r.final 0, r.nell, ys)

/-- `/repo/experiments/imgs/inpainting.py:253-254` and `/repo/experiments/imgs/supr.py:258-259`: the start of the
pseudo-marginal chain of the image experiments. -/
noncomputable def imgPmcmcInit [Zero U] (fwdYs : Key → Rand (Fin (K + 1) → V)) (key : Key) :
    Rand (U × ℝ × (Fin (K + 1) → V)) := do
  let ys ← fwdYs (split key 2 1)
  pure (0, 0, ys)

end Chains
end Fbs
