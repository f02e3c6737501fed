import Verif.Base.Jax
import Mathlib.Data.EReal.Operations

/-!
# `force_move` of `fbs/samplers/gibbs.py`
-/

namespace Fbs
namespace Gibbs

open Jax

variable {M : ℕ}

/-- `/repo/fbs/samplers/gibbs.py:203` `threshold` (an exact real number; in single precision the code
rounds it to `1`). -/
noncomputable def forceThreshold (M : ℕ) : ℝ := max (1 - Real.exp (-(M : ℝ))) (1 - 1e-12)

/-- `/repo/fbs/samplers/gibbs.py:199-205` the proposal probabilities. -/
noncomputable def restWeights (weights : Fin M → ℝ) (k : Fin M) : Fin M → ℝ :=
  let temp := 1 - weights k
  let rest := atSet weights k 0
  if weights k < forceThreshold M then fun m => rest m / temp else fun _ => 1 / (M : ℝ)

/-- A floating point division inside `jnp.nansum`: `0/0` is NaN and is skipped, `x/0` is infinite. -/
noncomputable def nanDiv (a b : ℝ) : EReal :=
  if b = 0 then (if a = 0 then 0 else if 0 < a then ⊤ else ⊥) else ((a / b : ℝ) : EReal)

/-- `/repo/fbs/samplers/gibbs.py:211,214` the reported acceptance value. -/
noncomputable def forceAlpha (weights : Fin M → ℝ) (k : Fin M) : ℝ :=
  (min 1 (max 0 (∑ m, nanDiv ((1 - weights k) * restWeights weights k m) (1 - weights m)))).toReal

/-- `/repo/fbs/samplers/gibbs.py:171-214` `force_move`. -/
noncomputable def forceMove [NeZero M] (key : Key) (weights : Fin M → ℝ) (k : Fin M) :
    Rand (Fin M × ℝ) := do
  let temp := 1 - weights k
  let i ← choice (split key 2 0) (restWeights weights k)
  let u ← uniform (split key 2 1)
  let idx := open scoped Classical in if u * (1 - weights i) < temp then i else k
  pure (idx, forceAlpha weights k)

end Gibbs
end Fbs
