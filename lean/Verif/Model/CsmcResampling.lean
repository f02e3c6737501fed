import Verif.Model.Resampling

/-!
# `fbs/samplers/csmc/resamplings.py`

Conditional resampling schemes used by the conditional SMC sampler.
-/

namespace Fbs
namespace CsmcResampling

open Jax

variable {n : ℕ}

/-- Exceptions raised by the library. -/
inductive Err where
  | notImplemented (msg : String)
  | valueError (msg : String)
deriving DecidableEq

/-- `/repo/fbs/samplers/csmc/resamplings.py:10-37` `multinomial`. -/
noncomputable def multinomial [NeZero n] (key : Key) (weights : Fin n → ℝ) (i j : Fin n)
    (conditional : Bool) : Rand (Fin n → Fin n) := do
  let indices ← choices key weights n
  pure (if conditional then atSet indices j i else indices)

/-- `/repo/fbs/samplers/csmc/resamplings.py:79-82`: the probabilities of the rotation index `J`. -/
noncomputable def jProb [NeZero n] (weights : Fin n → ℝ) (i : Fin n) : Fin n → ℝ :=
  let p0 : Fin n → ℝ := fun m => (1 - weights m / vmax weights) / n
  let p1 := atSet p0 i 0
  atSet p1 i (max (1 - ∑ m, p1 m) 0)

/-- `/repo/fbs/samplers/csmc/resamplings.py:40-88` `killing`. -/
noncomputable def killing [NeZero n] (key : Key) (weights : Fin n → ℝ) (i j : Fin n)
    (conditional : Bool) : Rand (Fin n → Fin n) := do
  let u ← uniforms (split key 3 0) n
  let c ← choices (split key 3 1) weights n
  let idx := Resampling.killingIdx weights u c
  if conditional then do
    let J ← choice (split key 3 2) (jProb weights i)
    let idx := roll idx ((j : ℤ) - (J : ℤ))
    pure (atSet idx j i)
  else
    pure idx

/-- `/repo/fbs/samplers/csmc/resamplings.py:120-125` `_standard_systematic`: not clipped, so the
result is an array of natural numbers. -/
noncomputable def standardSystematic (key : Key) (weights : Fin n → ℝ) : Rand (Fin n → ℕ) :=
  (fun u (i : Fin n) => searchsorted (cumsum weights) (((i : ℕ) + u) / n)) <$> uniform key

/-- `/repo/fbs/samplers/csmc/resamplings.py:128-129` `_conditional_systematic`: raises
immediately (the rest of the function body is unreachable and not modelled). -/
def conditionalSystematic (_key : Key) (_weights : Fin n → ℝ) (_i _j : Fin n) :
    Except Err (Rand (Fin n → ℕ)) :=
  .error (.notImplemented "Not implemented, not used.")

/-- `/repo/fbs/samplers/csmc/resamplings.py:91-117` `systematic`. -/
noncomputable def systematic (key : Key) (weights : Fin n → ℝ) (i j : Fin n)
    (conditional : Bool) : Except Err (Rand (Fin n → ℕ)) :=
  if conditional then conditionalSystematic key weights i j
  else .ok (standardSystematic key weights)

end CsmcResampling
end Fbs
