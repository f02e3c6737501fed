import Verif.Model.Linear

/-!
# `fbs/sdes/simulators.py`

States are arrays with entries indexed by `ι`; the dispersion is a number (scalar noise coefficient).
-/

namespace Fbs
namespace Simulators

open Jax

variable {ι : Type}

/-- `jnp.linspace(start, stop, num)` for `num ≥ 1` (for `num = 1` it is `[start]`). -/
noncomputable def linspace (start stop : ℝ) (num : ℕ) : List ℝ :=
  (List.range num).map fun i : ℕ => start + i * ((stop - start) / (num - 1 : ℕ))

/-- `/repo/fbs/sdes/simulators.py:84-88` `scan_body_`. -/
noncomputable def emInner (drift : (ι → ℝ) → ℝ → (ι → ℝ)) (dispersion : ℝ → ℝ) (ddt : ℝ)
    (x : ι → ℝ) (elem : (ι → ℝ) × ℝ) : (ι → ℝ) × Unit :=
  let (rnd, t) := elem
  (fun i => x i + drift x t i * ddt + dispersion t * Real.sqrt ddt * rnd i, ())

/-- The times `/repo/fbs/sdes/simulators.py:92` at which the `n` sub-steps evaluate the coefficients. -/
noncomputable def substepTimes (n : ℕ) (t tNext : ℝ) : List ℝ :=
  linspace t (tNext - |tNext - t| / n) n

/-- `/repo/fbs/sdes/simulators.py:83-92` `step`, given the normal draws of this step. -/
noncomputable def emStep (drift : (ι → ℝ) → ℝ → (ι → ℝ)) (dispersion : ℝ → ℝ) (n : ℕ)
    (x : ι → ℝ) (t tNext : ℝ) (rnds : List (ι → ℝ)) : ι → ℝ :=
  let ddt := |tNext - t| / n
  (Jax.scan (emInner drift dispersion ddt) x (rnds.zip (substepTimes n t tNext))).1

/-- `/repo/fbs/sdes/simulators.py:94-99` `scan_body`; `emit` is the per-step output. -/
noncomputable def emBody {ο : Type} [Fintype ι] (drift : (ι → ℝ) → ℝ → (ι → ℝ)) (dispersion : ℝ → ℝ) (n : ℕ)
    (emit : (ι → ℝ) → ο) (x : ι → ℝ) (elem : Key × ℝ × ℝ) : Rand ((ι → ℝ) × ο) := do
  let (key, t, tNext) := elem
  let rnds ← normalRows key n ι
  let x := emStep drift dispersion n x t tNext rnds
  pure (x, emit x)

/-- The scanned inputs `/repo/fbs/sdes/simulators.py:81,101`. -/
def emInputs (key : Key) (ts : Arr1 ℝ) : List (Key × ℝ × ℝ) :=
  (splitAll key ts.2.length).zip (ts.init.zip ts.2)

/-- `/repo/fbs/sdes/simulators.py:53-106` `euler_maruyama(return_path=True)`. -/
noncomputable def eulerPath [Fintype ι] (key : Key) (x0 : ι → ℝ) (ts : Arr1 ℝ)
    (drift : (ι → ℝ) → ℝ → (ι → ℝ)) (dispersion : ℝ → ℝ) (n : ℕ) : Rand (Arr1 (ι → ℝ)) := do
  let r ← Rand.scan (emBody drift dispersion n id) x0 (emInputs key ts)
  pure (x0, r.2)

/-- `/repo/fbs/sdes/simulators.py:53-106` `euler_maruyama(return_path=False)`. -/
noncomputable def eulerLast [Fintype ι] (key : Key) (x0 : ι → ℝ) (ts : Arr1 ℝ)
    (drift : (ι → ℝ) → ℝ → (ι → ℝ)) (dispersion : ℝ → ℝ) (n : ℕ) : Rand (ι → ℝ) := do
  let r ← Rand.scan (emBody drift dispersion n fun _ => ()) x0 (emInputs key ts)
  pure r.1

/-- `/repo/fbs/sdes/simulators.py:40-41` `reverse_drift`. -/
def reverseDrift (T : ℝ) (score drift : (ι → ℝ) → ℝ → (ι → ℝ)) (dispersion : ℝ → ℝ) (u : ι → ℝ) (t : ℝ) : ι → ℝ :=
  fun i => -drift u (T - t) i + dispersion (T - t) ^ 2 * score u (T - t) i

/-- `/repo/fbs/sdes/simulators.py:43-44` `reverse_dispersion`. -/
def reverseDispersion (T : ℝ) (dispersion : ℝ → ℝ) (t : ℝ) : ℝ := dispersion (T - t)

/-- `/repo/fbs/sdes/simulators.py:8-50` `reverse_simulator`. -/
noncomputable def reverseSimulator [Fintype ι] (key : Key) (u0 : ι → ℝ) (ts : Arr1 ℝ)
    (score drift : (ι → ℝ) → ℝ → (ι → ℝ)) (dispersion : ℝ → ℝ) (n : ℕ) (integrator : String) :
    Rand (Except String (ι → ℝ)) :=
  if integrator = "euler-maruyama" then
    .ok <$> eulerLast key u0 ts (reverseDrift ts.last score drift dispersion) (reverseDispersion ts.last dispersion) n
  else pure (.error "NotImplementedError")

/-- `/repo/fbs/sdes/simulators.py:109-123` `discrete_time_simulator`. -/
noncomputable def discreteTime [Fintype ι] (key : Key) (x0 : ι → ℝ) (ts : Arr1 ℝ)
    (f : (ι → ℝ) → ℝ → ℝ → (ι → ℝ)) (q : ℝ → ℝ → ℝ) : Rand (ι → ℝ) := do
  let rnds ← normalRows key ts.2.length ι
  pure (Jax.scan (fun x (e : (ι → ℝ) × ℝ × ℝ) => ((fun i => f x e.2.1 e.2.2 i + q e.2.1 e.2.2 * e.1 i : ι → ℝ), ()))
    x0 (rnds.zip (ts.2.zip ts.init))).1

/-- `path.at[-1].set(x)`. -/
def setLast {α : Type} (p : Arr1 α) (x : α) : Arr1 α :=
  match p with
  | (_, []) => (x, [])
  | (a, l) => (a, l.dropLast ++ [x])

/-- `/repo/fbs/sdes/simulators.py:126-160` `doob_bridge_simulator`; `AttributeError` for an SDE class without
`bridge_drift`. -/
noncomputable def doobBridge [Fintype ι] [DecidableEq ι] (key : Key) (sde : Linear.SDE) (x0 xT : ι → ℝ) (ts : Arr1 ℝ)
    (n : ℕ) (replace : Bool) : Rand (Except String (Arr1 (ι → ℝ))) :=
  match Linear.bridgeDrift sde with
  | none => pure (.error "AttributeError")
  | some bd => (fun p => .ok (if replace then setLast p xT else p)) <$>
      eulerPath key x0 ts (fun x t => bd x t xT ts.last) (Linear.dispersion sde) n

end Simulators
end Fbs
