import Verif.Model.Smc
import Verif.Model.ForceMove

/-!
# `fbs/samplers/gibbs.py`

`Z` is the type of one row of the joint path returned by `fwd_sampler`.  `sde` enters only through
`bridge_sampler`.  Keyword arguments are part of the closures.
-/

namespace Fbs

/-- `a[::-1]`. -/
def Arr1.reverse {α : Type} (a : Arr1 α) : Arr1 α :=
  (a.last, (a.1 :: a.2).reverse.tail)

namespace Gibbs

open Jax

variable {U V Z : Type}

/-- Number of rows of the particle arrays in `gibbs_kernel`: the explicit final sampler is asked for
`nparticles + 1` rows (`/repo/fbs/samplers/csmc/csmc.py:151`), the other one returns `nparticles` rows
whatever it is asked for (`/repo/fbs/samplers/gibbs.py:140-141`). -/
def rows (nparticles : ℕ) (explicitFinal : Bool) : ℕ := if explicitFinal then nparticles + 1 else nparticles

theorem le_rows (n : ℕ) (ef : Bool) : n ≤ rows n ef := by cases ef <;> simp [rows]

instance (n : ℕ) [NeZero n] (ef : Bool) : NeZero (rows n ef) := by
  cases ef
  · simpa [rows] using (inferInstance : NeZero n)
  · simpa [rows] using (inferInstance : NeZero (n + 1))

/-- The user functions of `gibbs_kernel` and `gibbs_init`
(`/repo/fbs/samplers/gibbs.py:23-29,68-80`), for `N` particle rows. -/
structure Funs (N : ℕ) (U V Z : Type) where
  /-- `fwd_sampler(key, x0, y0)` -/
  fwd : Key → U → V → Rand (Arr1 Z)
  /-- `unpack(path)` -/
  unpack : Arr1 Z → Arr1 U × Arr1 V
  /-- `bridge_sampler(key, y0, yT, ts, sde)` (`/repo/fbs/samplers/gibbs.py:17-20`) -/
  bridge : Key → V → V → Arr1 ℝ → Rand (Arr1 V)
  /-- `jax.random.normal(key, (n, *x_shape))` -/
  normal : Key → ℕ → Rand (Fin N → U)
  /-- `transition_sampler(us, v, t, key)` -/
  transSampler : (Fin N → U) → V → ℝ → Key → Rand (Fin N → U)
  /-- `transition_logpdf(u, us, v, t)` -/
  transLogpdf : U → (Fin N → U) → V → ℝ → (Fin N → ℝ)
  /-- `likelihood_logpdf(v, us_prev, v_prev, t_prev)` -/
  lik : V → (Fin N → U) → V → ℝ → (Fin N → ℝ)

/-- `/repo/fbs/samplers/gibbs.py:132-144` the functions handed to conditional SMC. -/
noncomputable def csmcFuns {n : ℕ} (ef : Bool) (m : Funs (rows n ef) U V Z) (us0 : U) (t0 : ℝ) :
    Csmc.Funs (rows n ef) U V where
  initSampler := if ef then m.normal else fun _ _ => pure fun _ => us0
  initLik := if ef then fun v0 u0s v1 => m.lik v0 u0s v1 t0 else fun _ _ _ _ => -Real.log n
  transSampler := m.transSampler
  transLogpdf := m.transLogpdf
  lik := m.lik

/-- `/repo/fbs/samplers/gibbs.py:129-130` the reversed paths `us` and `vs`. -/
noncomputable def gibbsPaths {n : ℕ} {ef : Bool} (m : Funs (rows n ef) U V Z) (margY : Bool) (key : Key)
    (x0 : U) (y0 : V) (ts : Arr1 ℝ) : Rand (Arr1 U × Arr1 V) := do
  let pathXY ← m.fwd (split key 3 0) x0 y0
  let (pathX, pathY) := m.unpack pathXY
  let us := pathX.reverse
  if margY then do
    let b ← m.bridge (split key 3 2) pathY.1 pathY.last ts
    pure (us, b.reverse)
  else
    pure (us, pathY.reverse)

/-- `/repo/fbs/samplers/gibbs.py:68-168` `gibbs_kernel`.  Returns `x0_next`, `us_star_next`, `bs_star_next`
and the change flags.  The parameter `us_star` of the code is not used there and is dropped; a random
`randint` index below `nparticles` is cast to a row index. -/
noncomputable def gibbsKernel {n : ℕ} [NeZero n] (ef : Bool) (m : Funs (rows n ef) U V Z)
    (margY explicitBackward : Bool) (key : Key) (x0 : U) (y0 : V) (bsStar : Arr1 (Fin (rows n ef)))
    (ts : Arr1 ℝ) : Rand (U × List U × List (Fin (rows n ef)) × List Bool) := do
  let (us, vs) ← gibbsPaths m margY key x0 y0 ts
  let cm := csmcFuns ef m us.1 ts.1
  let keyCsmc := split key 3 1
  let (usNext, bsNext) ←
    if explicitBackward then do
      let (_, logWs, uss) ←
        Csmc.forwardPass cm CsmcResampling.killing n (split keyCsmc 4 0) us bsStar vs ts
      let (idx, _) ← forceMove (split keyCsmc 4 1) (fun i => Real.exp (logWs.last i)) bsStar.last
      let x0 := uss.last idx
      let path ← m.fwd (split keyCsmc 4 2) x0 y0
      let usNext := (m.unpack path).1.toList.reverse
      let bsNext ← randints (split keyCsmc 4 3) (us.2.length + 1) n
      pure (usNext, (List.ofFn bsNext).map (Fin.castLE (le_rows n ef)))
    else
      Csmc.kernel cm CsmcResampling.killing n false keyCsmc us bsStar vs ts
  pure (usNext.getLastD x0, usNext, bsNext, List.zipWith (fun b b' => decide (b ≠ b')) bsNext bsStar.toList)

/-- The result of `gibbs_init`. -/
inductive InitOut (N : ℕ) (U : Type) where
  | traj (x0 : U) (usStar : List U)
  | debug (uss : Arr1 (Fin N → U))

/-- `/repo/fbs/samplers/gibbs.py:42-65` `gibbs_init` once the path `vs` is known. -/
noncomputable def gibbsInitRest {N : ℕ} [NeZero N] (m : Funs N U V Z) (method : String) (key : Key)
    (y0 : V) (ts : Arr1 ℝ) (vs : Arr1 V) : Rand (Except CsmcResampling.Err (InitOut N U)) :=
  let sm : Smc.Funs N U V := ⟨fun _ _ _ => m.normal (split key 6 2) N, m.transSampler, m.lik⟩
  let filter (last : Bool) := Smc.bootstrapFilter sm Resampling.stratified vs ts (split key 6 3) true last
  if method = "filter" then do
    let out ← filter true
    let approxX0 := out.final 0
    let path ← m.fwd (split key 6 4) approxX0 y0
    pure (.ok (.traj approxX0 (m.unpack path).1.toList.reverse))
  else if method = "smoother" then do
    let out ← filter false
    let uss : Arr1 (Fin N → U) := match out with
      | .path uss _ => uss
      | .last us _ => (us, [])
    let approxX0 := uss.last 0
    let us ← Smc.backwardSmoother (split key 6 5) uss vs ts m.transLogpdf
    pure (.ok (.traj approxX0 us))
  else if method = "debug" then do
    let out ← filter false
    let uss : Arr1 (Fin N → U) := match out with
      | .path uss _ => uss
      | .last us _ => (us, [])
    pure (.ok (.debug uss))
  else
    pure (.error (.valueError ("Unknown method " ++ method)))

/-- `/repo/fbs/samplers/gibbs.py:23-65` `gibbs_init` (the optional `x0` with its zero default is the argument
`x0`).  An exception is a value. -/
noncomputable def gibbsInit {N : ℕ} [NeZero N] (m : Funs N U V Z) (method : String) (margY : Bool) (key : Key)
    (y0 : V) (x0 : U) (ts : Arr1 ℝ) : Rand (Except CsmcResampling.Err (InitOut N U)) := do
  let pathXY ← m.fwd (split key 6 0) x0 y0
  let pathY := (m.unpack pathXY).2
  let vs ← if margY then Arr1.reverse <$> m.bridge (split key 6 1) pathY.1 pathY.last ts
    else pure pathY.reverse
  gibbsInitRest m method key y0 ts vs

end Gibbs
end Fbs
