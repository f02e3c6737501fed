import Verif.Model.Gibbs

/-!
# The Gibbs loop of the experiments
-/

namespace Fbs
namespace Gibbs

open Jax

variable {U V Z : Type}

/-- The indices returned by one call as the argument of the next.  (`gibbs_kernel` never returns an empty array.) -/
def asIdx {N : ℕ} (bs : Arr1 (Fin N)) : List (Fin N) → Arr1 (Fin N)
  | b :: l => (b, l)
  | [] => bs

/-- `/repo/tests/test_gibbs.py:114-118`, `/repo/experiments/toy/gp_gibbs.py:180-186` (one chain): `nsamples` calls of
`gibbs_kernel`, each with a fresh key, fed with the state and the indices returned by the previous call.  Returns the last
state and indices; the state stored in iteration `i` is the result of the loop with `i + 1` iterations. -/
noncomputable def gibbsLoop {n : ℕ} [NeZero n] (ef : Bool) (m : Funs (rows n ef) U V Z) (margY eb : Bool) (y0 : V)
    (ts : Arr1 ℝ) : ℕ → Key → U → Arr1 (Fin (rows n ef)) → Rand (U × Arr1 (Fin (rows n ef)))
  | 0, _, x, bs => pure (x, bs)
  | nsamples + 1, key, x, bs => do
    let out ← gibbsKernel ef m margY eb (split key 2 1) x y0 bs ts
    gibbsLoop ef m margY eb y0 ts nsamples (split key 2 0) out.1 (asIdx bs out.2.2.1)

end Gibbs
end Fbs
