import Verif.Model.GibbsLoop
import Verif.Model.Losses
import Verif.Model.Smc

/-!
# The stored samples of the MCMC experiments
-/

namespace Fbs
namespace Chains

open Jax Gibbs

variable {σ τ U V Z : Type}

/-- The loop of every MCMC experiment, `/repo/experiments/sb/gibbs.py:179-182`, `/repo/tests/test_gibbs.py:115-118`,
`/repo/experiments/imgs/inpainting.py:239-243`, `:255-259`: in every iteration split the key, call the kernel with the second
piece, store a part `p` of the new state.  Returns the stored rows. -/
noncomputable def storeLoop (next : Key → σ → Rand σ) (p : σ → τ) : ℕ → Key → σ → Rand (List τ)
  | 0, _, _ => pure []
  | nsamples + 1, key, s => do
    let s' ← next (split key 2 1) s
    let rest ← storeLoop next p nsamples (split key 2 0) s'
    pure (p s' :: rest)

/-- `/repo/experiments/toy/gp_gibbs.py:184-185`, `/repo/experiments/toy/gp_pmcmc.py:172-173`: the kernel mapped over
`nchains` chains, each with its own piece of the key. -/
noncomputable def vmapNext (nchains : ℕ) (next : Key → σ → Rand σ) (key : Key) (s : Fin nchains → σ) :
    Rand (Fin nchains → σ) :=
  Losses.vmapR fun c : Fin nchains => next (split key nchains c) (s c)

/-- `gibbs_kernel` as a map of the state and the reference indices (the other results are not used by the next call). -/
noncomputable def gibbsNext {n : ℕ} [NeZero n] (ef : Bool) (m : Gibbs.Funs (rows n ef) U V Z) (margY eb : Bool) (y0 : V)
    (ts : Arr1 ℝ) (key : Key) (s : U × Arr1 (Fin (rows n ef))) : Rand (U × Arr1 (Fin (rows n ef))) := do
  let out ← gibbsKernel ef m margY eb key s.1 y0 s.2 ts
  pure (out.1, asIdx s.2 out.2.2.1)

/-- `/repo/experiments/sb/gibbs.py:177-182` `gibbs_samples`: one chain from the state and indices `s`. -/
noncomputable def gibbsSamples {n : ℕ} [NeZero n] (ef : Bool) (m : Gibbs.Funs (rows n ef) U V Z) (margY eb : Bool) (y0 : V)
    (ts : Arr1 ℝ) (nsamples : ℕ) (key : Key) (s : U × Arr1 (Fin (rows n ef))) : Rand (List U) :=
  storeLoop (gibbsNext ef m margY eb y0 ts) Prod.fst nsamples key s

/-- `/repo/experiments/toy/gp_gibbs.py:180-186` `gibbs_samples`: row `i` holds the states of all chains after iteration `i`
(the array of the script has the first two axes swapped). -/
noncomputable def gibbsChains {n : ℕ} [NeZero n] (nchains : ℕ) (ef : Bool) (m : Gibbs.Funs (rows n ef) U V Z)
    (margY eb : Bool) (y0 : V) (ts : Arr1 ℝ) (nsamples : ℕ) (key : Key) (s : Fin nchains → U × Arr1 (Fin (rows n ef))) :
    Rand (List (Fin nchains → U)) :=
  storeLoop (vmapNext nchains (gibbsNext ef m margY eb y0 ts)) (fun s c => (s c).1) nsamples key s

/-- `pmcmc_kernel` as a map of the particle, the stored likelihood estimate and the observation path. -/
noncomputable def pmcmcStep {N K : ℕ} [NeZero N] [AddCommGroup V] [Module ℝ V] (m : Smc.Funs N U V)
    (res : Smc.Resampling N) (y0 : V) (ts : Fin (K + 1) → ℝ) (fwdYs : Key → V → Rand (Fin (K + 1) → V))
    (sdeMean : ℝ → ℝ → V → V) (delta : Option ℝ) (i : Fin N) (key : Key) (s : U × ℝ × (Fin (K + 1) → V)) :
    Rand (U × ℝ × (Fin (K + 1) → V)) :=
  (fun out => (out.1, out.2.1, out.2.2.1)) <$> Smc.pmcmcKernel m res key s.1 s.2.1 s.2.2 y0 ts fwdYs sdeMean delta i

/-- `/repo/experiments/imgs/inpainting.py:255-259`: one chain; the particle is stored.  `i` is the particle `pmcmc_kernel`
returns. -/
noncomputable def pmcmcSamples {N K : ℕ} [NeZero N] [AddCommGroup V] [Module ℝ V] (m : Smc.Funs N U V)
    (res : Smc.Resampling N) (y0 : V) (ts : Fin (K + 1) → ℝ) (fwdYs : Key → V → Rand (Fin (K + 1) → V))
    (sdeMean : ℝ → ℝ → V → V) (delta : Option ℝ) (i : Fin N) (nsamples : ℕ) (key : Key)
    (s : U × ℝ × (Fin (K + 1) → V)) : Rand (List U) :=
  storeLoop (pmcmcStep m res y0 ts fwdYs sdeMean delta i) Prod.fst nsamples key s

/-- `/repo/experiments/toy/gp_pmcmc.py:168-174` `pmcmc_samples` (axes swapped as above). -/
noncomputable def pmcmcChains {N K : ℕ} [NeZero N] [AddCommGroup V] [Module ℝ V] (nchains : ℕ) (m : Smc.Funs N U V)
    (res : Smc.Resampling N) (y0 : V) (ts : Fin (K + 1) → ℝ) (fwdYs : Key → V → Rand (Fin (K + 1) → V))
    (sdeMean : ℝ → ℝ → V → V) (delta : Option ℝ) (i : Fin N) (nsamples : ℕ) (key : Key)
    (s : Fin nchains → U × ℝ × (Fin (K + 1) → V)) : Rand (List (Fin nchains → U)) :=
  storeLoop (vmapNext nchains (pmcmcStep m res y0 ts fwdYs sdeMean delta i)) (fun s c => (s c).1) nsamples key s

end Chains
end Fbs
