import Verif.Model.CsmcResampling

/-!
# `fbs/samplers/csmc/csmc.py`

The time axis is a list.  An array with at least one row is a pair of its row 0 and the list of the
remaining rows (`Arr1`), so that `jnp.insert(xs, 0, x0, axis=0)` is pairing.  `jax.lax.scan` rejects
inputs with different leading sizes; the model zips them, and every theorem assumes equal lengths.
Keyword arguments are part of the closures.
-/

namespace Fbs

/-- An array with at least one row: row 0 and the rest. -/
abbrev Arr1 (α : Type) := α × List α

namespace Arr1
variable {α : Type}

/-- All rows. -/
def toList (a : Arr1 α) : List α := a.1 :: a.2

/-- Apply a function to every row. -/
def map {β : Type} (f : α → β) (a : Arr1 α) : Arr1 β := (f a.1, a.2.map f)

/-- `a[-1]`. -/
def last (a : Arr1 α) : α := (a.1 :: a.2).getLast (List.cons_ne_nil _ _)

/-- `a[:-1]`. -/
def init (a : Arr1 α) : List α := (a.1 :: a.2).dropLast

/-- `a[-2::-1]`: all rows but the last, reversed. -/
def revInit (a : Arr1 α) : List α := a.init.reverse

/-- `jnp.insert(xs, 0, x, axis=0)[::-1]` for the list `xs`. -/
def insertReverse (x : α) (xs : List α) : List α := (x :: xs).reverse

end Arr1

namespace Jax

/-- `jax.lax.scan` with a deterministic body. -/
def scan {σ ι ο : Type} (body : σ → ι → σ × ο) : σ → List ι → σ × List ο
  | s, [] => (s, [])
  | s, i :: is =>
    let r := body s i
    let rs := scan body r.1 is
    (rs.1, r.2 :: rs.2)

end Jax

namespace Csmc

open Jax

variable {N : ℕ} {U V : Type}

/-- `/repo/fbs/samplers/csmc/csmc.py:273-292` `normalise(log_weights, log_space=True)`. -/
noncomputable def normaliseLog (lw : Fin N → ℝ) : Fin N → ℝ := fun i => lw i - logsumexp lw

/-- `/repo/fbs/samplers/csmc/csmc.py:273-292` `normalise(log_weights)`. -/
noncomputable def normalise (lw : Fin N → ℝ) : Fin N → ℝ := fun i => Real.exp (normaliseLog lw i)

/-- `/repo/fbs/samplers/csmc/csmc.py:295-297` `barker_move`. -/
noncomputable def barkerMove [NeZero N] (key : Key) (ws : Fin N → ℝ) : Rand (Fin N) := choice key ws

/-- Signature of the conditional resampling schemes `cond_resampling(key, weights, i, j, conditional)`. -/
abbrev CondResampling (N : ℕ) := Key → (Fin N → ℝ) → Fin N → Fin N → Bool → Rand (Fin N → Fin N)

/-- The user-supplied model functions of the kernel
(`/repo/fbs/samplers/csmc/csmc.py:14-25`).  `N` is the number of rows the initial sampler returns. -/
structure Funs (N : ℕ) (U V : Type) where
  /-- `init_sampler(key, n)` -/
  initSampler : Key → ℕ → Rand (Fin N → U)
  /-- `init_likelihood_logpdf(v0, us, v1)` -/
  initLik : V → (Fin N → U) → V → (Fin N → ℝ)
  /-- `transition_sampler(us, v, t, key)` -/
  transSampler : (Fin N → U) → V → ℝ → Key → Rand (Fin N → U)
  /-- `transition_logpdf(u, us, v, t)` -/
  transLogpdf : U → (Fin N → U) → V → ℝ → (Fin N → ℝ)
  /-- `measurement_cond_logpdf(v, us, v_prev, t_prev)` -/
  lik : V → (Fin N → U) → V → ℝ → (Fin N → ℝ)

/-- Per-step inputs of the forward scan: `(v, v_prev, t_prev, b_star_prev, b_star, key, u_star)`. -/
abbrev StepIn (N : ℕ) (U V : Type) := V × V × ℝ × Fin N × Fin N × Key × U

/-- `/repo/fbs/samplers/csmc/csmc.py:132-148` `scan_body` of the forward pass. -/
noncomputable def scanBody (m : Funs N U V) (res : CondResampling N)
    (carry : (Fin N → ℝ) × (Fin N → U)) (inp : StepIn N U V) :
    Rand (((Fin N → ℝ) × (Fin N → U)) × ((Fin N → ℝ) × (Fin N → Fin N) × (Fin N → U))) := do
  let (logWs, usPrev) := carry
  let (v, vPrev, tPrev, bPrev, b, key, uStar) := inp
  let A ← res (split key 2 0) (fun i => Real.exp (logWs i)) bPrev b true
  let usPrev := take usPrev A
  let us ← m.transSampler usPrev vPrev tPrev (split key 2 1)
  let us := atSet us b uStar
  let logWs := normaliseLog (m.lik v usPrev vPrev tPrev)
  pure ((logWs, us), (logWs, A, us))

/-- `/repo/fbs/samplers/csmc/csmc.py:158`: the zipped inputs of the forward scan. -/
def scanInputs (usStar : Arr1 U) (bsStar : Arr1 (Fin N)) (vs : Arr1 V) (ts : Arr1 ℝ)
    (keys : List Key) : List (StepIn N U V) :=
  vs.2.zip (vs.init.zip (ts.init.zip (bsStar.init.zip (bsStar.2.zip (keys.zip usStar.2)))))

/-- `/repo/fbs/samplers/csmc/csmc.py:80-164` `forward_pass`.  `vs[1]` is `vs[0]` if there is only one
row (JAX clamps the index). Returns `(As, log_wss, uss)`. -/
noncomputable def forwardPass (m : Funs N U V) (res : CondResampling N) (nsamples : ℕ) (key : Key)
    (usStar : Arr1 U) (bsStar : Arr1 (Fin N)) (vs : Arr1 V) (ts : Arr1 ℝ) :
    Rand (List (Fin N → Fin N) × Arr1 (Fin N → ℝ) × Arr1 (Fin N → U)) := do
  let nsteps := usStar.2.length
  let us0 ← m.initSampler (split key 2 0) (nsamples + 1)
  let us0 := atSet us0 bsStar.1 usStar.1
  let logWs0 := normaliseLog (m.initLik vs.1 us0 (vs.2.headD vs.1))
  let keys := splitAll (split key 2 1) nsteps
  let r ← Rand.scan (scanBody m res) (logWs0, us0) (scanInputs usStar bsStar vs ts keys)
  pure (r.2.map (fun o => o.2.1), (logWs0, r.2.map (fun o => o.1)),
    (us0, r.2.map (fun o => o.2.2)))

/-- `/repo/fbs/samplers/csmc/csmc.py:260-264` `body` of the backward scanning pass. -/
def scanningBody (B : Fin N) (inp : (Fin N → U) × (Fin N → Fin N)) : Fin N × (U × Fin N) :=
  let (xs, A) := inp
  let B' := A B
  (B', (xs B', B'))

/-- `/repo/fbs/samplers/csmc/csmc.py:230-270` `backward_scanning_pass`. -/
noncomputable def backwardScanning [NeZero N] (key : Key) (As : List (Fin N → Fin N))
    (xss : Arr1 (Fin N → U)) (logWT : Fin N → ℝ) : Rand (List U × List (Fin N)) := do
  let BT ← barkerMove key (normalise logWT)
  let xT := xss.last BT
  let r := scan scanningBody BT (xss.revInit.zip As.reverse)
  pure (Arr1.insertReverse xT (r.2.map Prod.fst), Arr1.insertReverse BT (r.2.map Prod.snd))

/-- `/repo/fbs/samplers/csmc/csmc.py:204-212` `body` of the backward sampling pass (the third output,
never used by the caller, is dropped). -/
noncomputable def samplingBody [NeZero N] (m : Funs N U V) (x : U)
    (inp : Key × (Fin N → U) × (Fin N → ℝ) × V × ℝ) : Rand (U × (U × Fin N)) := do
  let (key, xs, logW, v, t) := inp
  let gamma := m.transLogpdf x xs v t
  let gmax := vmax gamma
  let gamma := fun i => gamma i - gmax
  let w := normalise fun i => gamma i + logW i
  let B ← choice key w
  pure (xs B, (xs B, B))

/-- `/repo/fbs/samplers/csmc/csmc.py:167-227` `backward_sampling_pass`. -/
noncomputable def backwardSampling [NeZero N] (m : Funs N U V) (key : Key)
    (vs : Arr1 V) (ts : Arr1 ℝ) (uss : Arr1 (Fin N → U)) (logWs : Arr1 (Fin N → ℝ)) :
    Rand (List U × List (Fin N)) := do
  let K := uss.2.length
  let BT ← barkerMove (split key (K + 1) K) (normalise logWs.last)
  let xT := uss.last BT
  let keys := (splitAll key (K + 1)).dropLast
  let r ← Rand.scan (samplingBody m) xT
    (keys.zip (uss.revInit.zip (logWs.revInit.zip (vs.revInit.zip ts.revInit))))
  pure (Arr1.insertReverse xT (r.2.map Prod.fst), Arr1.insertReverse BT (r.2.map Prod.snd))

/-- `/repo/fbs/samplers/csmc/csmc.py:14-77` `csmc_kernel`. -/
noncomputable def kernel [NeZero N] (m : Funs N U V) (res : CondResampling N) (nsamples : ℕ)
    (backward : Bool) (key : Key)
    (usStar : Arr1 U) (bsStar : Arr1 (Fin N)) (vs : Arr1 V) (ts : Arr1 ℝ) :
    Rand (List U × List (Fin N)) := do
  let (As, logWs, xss) ← forwardPass m res nsamples (split key 2 0) usStar bsStar vs ts
  if backward then
    backwardSampling m (split key 2 1) vs ts xss logWs
  else
    backwardScanning (split key 2 1) As xss logWs.last

end Csmc
end Fbs
