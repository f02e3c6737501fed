import Verif.Model.CsmcTest

/-! `/repo/tests/test_csmc.py`: the whole program of the test. -/

namespace Fbs
namespace CsmcTest

open Jax Csmc

variable {N : ℕ} {U V : Type}

/-- `/repo/tests/test_csmc.py:121-126`: the loop of the test, with the rows of `gibbs_samples` it fills.  `emit` is
`sampler_ys_cond_xs`. -/
noncomputable def gibbsSamples [NeZero N] (m : Csmc.Funs N U V) (res : CondResampling N) (nsamples : ℕ) (backward : Bool)
    (emit : Key → Arr1 U → Rand (Arr1 V)) (ts : Arr1 ℝ) : ℕ → Key → Arr1 U → Arr1 (Fin N) → Rand (List (Arr1 U))
  | 0, _, _, _ => pure []
  | niters + 1, key, xsStar, bsStar => do
    let ys ← emit (split key 2 1) xsStar
    let key := split key 2 0
    let out ← kernel m res nsamples backward (split key 2 1) xsStar bsStar ys ts
    let xsStar := asPath xsStar out.1
    let rest ← gibbsSamples m res nsamples backward emit ts niters (split key 2 0) xsStar (Gibbs.asIdx bsStar out.2)
    pure (xsStar :: rest)

/-- The array with the given rows. -/
def rows {K : ℕ} (a : Fin (K + 1) → ℝ) : Arr1 ℝ := (a 0, List.ofFn fun j : Fin K => a j.succ)

/-- `/repo/tests/test_csmc.py:41-126`: `gibbs_samples` before the burn-in is dropped, from `key = PRNGKey(666)`.  `K` is
`nsteps`, `ts[i] = dt * i`.  `csmc_kernel` carries `nparticles + 1` particles.  `emit` is `sampler_ys_cond_xs`. -/
noncomputable def testRun {K : ℕ} (cholesky : Matrix (Fin (K + 1)) (Fin (K + 1)) ℝ → Matrix (Fin (K + 1)) (Fin (K + 1)) ℝ)
    (sigma ell dt R : ℝ) (nparticles : ℕ) (backward : Bool) (emit : Key → Arr1 ℝ → Rand (Arr1 ℝ)) (niters : ℕ) (key : Key) :
    Rand (List (Arr1 ℝ)) := do
  let ts : Fin (K + 1) → ℝ := fun i => dt * i
  let FQ := transFQ sigma ell dt
  let xsStar ← gpSampler cholesky sigma ell (split key 2 1) ts
  gibbsSamples (funs (nparticles + 1) FQ.1 FQ.2 R (sigma ^ 2)) CsmcResampling.killing nparticles backward emit (rows ts) niters
    (split key 2 0) (rows xsStar) (0, List.replicate K 0)

end CsmcTest
end Fbs
