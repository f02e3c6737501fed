import Verif.Base.Jax

/-!
# `fbs/samplers/resampling.py`

Unconditional resampling schemes.  Weights are real arrays `Fin n → ℝ`.
-/

namespace Fbs
namespace Resampling

open Jax

variable {n : ℕ}

/-- `/repo/fbs/samplers/resampling.py:36-40` `_sorted_uniforms`, as a function of the `n+1` uniforms
`us`: `z = cumsum(-log us)`, result `z[:-1] / z[-1]`. -/
noncomputable def sortedUniforms (us : Fin (n + 1) → ℝ) (i : Fin n) : ℝ :=
  let z := cumsum fun j => -Real.log (us j)
  z i.castSucc / z (Fin.last n)

/-- `/repo/fbs/samplers/resampling.py:43-51` `_systematic_or_stratified`: the index array computed from
the offsets `u` (a constant array for systematic, `n` draws for stratified). -/
noncomputable def comb [NeZero n] (weights : Fin n → ℝ) (u : Fin n → ℝ) (i : Fin n) : Fin n :=
  clipIdx n (searchsorted (cumsum weights) (((i : ℕ) + u i) / n))

/-- `/repo/fbs/samplers/resampling.py:54-55` `systematic` (with lines 45-46: one scalar uniform). -/
noncomputable def systematic [NeZero n] (weights : Fin n → ℝ) (key : Key) : Rand (Fin n → Fin n) :=
  (fun u => comb weights fun _ => u) <$> uniform key

/-- `/repo/fbs/samplers/resampling.py:58-59` `stratified` (with lines 47-48: `n` uniforms). -/
noncomputable def stratified [NeZero n] (weights : Fin n → ℝ) (key : Key) : Rand (Fin n → Fin n) :=
  (fun u => comb weights u) <$> uniforms key n

/-- `/repo/fbs/samplers/resampling.py:62-68` `multinomial`. -/
noncomputable def multinomial [NeZero n] (weights : Fin n → ℝ) (key : Key) :
    Rand (Fin n → Fin n) :=
  (fun us i => clipIdx n (searchsorted (cumsum weights) (sortedUniforms us i)))
    <$> uniforms key (n + 1)

/-- `/repo/fbs/samplers/resampling.py:96-100`: the index array of killing as a function of the
uniforms `u` and the replacement choices `c`. -/
noncomputable def killingIdx [NeZero n] (weights : Fin n → ℝ) (u : Fin n → ℝ)
    (c : Fin n → Fin n) (m : Fin n) : Fin n := by
  classical exact if u m * vmax weights ≥ weights m then c m else m

/-- `/repo/fbs/samplers/resampling.py:71-101` `killing` (the third split key is unused). -/
noncomputable def killing [NeZero n] (weights : Fin n → ℝ) (key : Key) : Rand (Fin n → Fin n) := do
  let u ← uniforms (split key 3 0) n
  let c ← choices (split key 3 1) weights n
  pure (killingIdx weights u c)

end Resampling
end Fbs
