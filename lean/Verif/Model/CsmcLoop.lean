import Verif.Model.GibbsLoop

/-! Repeated calls of `csmc_kernel`. -/

namespace Fbs
namespace Csmc

open Jax

variable {N : ℕ} {U V : Type}

/-- The trajectory returned by one call as the argument of the next.  (`csmc_kernel` never returns an empty array.) -/
def asPath (us : Arr1 U) : List U → Arr1 U
  | u :: l => (u, l)
  | [] => us

/-- `/repo/tests/test_csmc.py:80-90, 121-126`: `niters` calls of `csmc_kernel(backward=False)`, each with a fresh key, fed with
the trajectory and the indices returned by the previous call.  The test draws new observations `ys` between the calls; here
`vs` is kept, so that the chain has the smoothing distribution of `vs` as its target.  Returns the last trajectory and indices. -/
noncomputable def csmcLoop [NeZero N] (m : Funs N U V) (res : CondResampling N) (nsamples : ℕ) (vs : Arr1 V) (ts : Arr1 ℝ) :
    ℕ → Key → Arr1 U → Arr1 (Fin N) → Rand (Arr1 U × Arr1 (Fin N))
  | 0, _, us, bs => pure (us, bs)
  | niters + 1, key, us, bs => do
    let out ← kernel m res nsamples false (split key 2 1) us bs vs ts
    csmcLoop m res nsamples vs ts niters (split key 2 0) (asPath us out.1) (Gibbs.asIdx bs out.2)

/-- `/repo/tests/test_csmc.py:78-90, 115-126`: the Gibbs loop of the test.  Every round draws observations given the trajectory
(`emit` is `sampler_ys_cond_xs`) and then a trajectory given the observations by one call of `csmc_kernel(backward=False)`; each
of the two draws takes its own split of the key.  Returns the last trajectory and indices. -/
noncomputable def csmcGibbs [NeZero N] (m : Funs N U V) (res : CondResampling N) (nsamples : ℕ)
    (emit : Key → Arr1 U → Rand (Arr1 V)) (ts : Arr1 ℝ) : ℕ → Key → Arr1 U → Arr1 (Fin N) → Rand (Arr1 U × Arr1 (Fin N))
  | 0, _, us, bs => pure (us, bs)
  | niters + 1, key, us, bs => do
    let vs ← emit (split key 2 1) us
    let key := split key 2 0
    let out ← kernel m res nsamples false (split key 2 1) us bs vs ts
    csmcGibbs m res nsamples emit ts niters (split key 2 0) (asPath us out.1) (Gibbs.asIdx bs out.2)

end Csmc
end Fbs
