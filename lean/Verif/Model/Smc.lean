import Verif.Model.Csmc

/-!
# `fbs/samplers/smc.py`

Filters, the backward particle smoother, the pseudo-marginal MCMC kernel and twisted SMC.  Scanned
inputs are zipped (JAX refuses different lengths; the theorems assume equal ones).  The number of
particles `nparticles` is the number of rows `N` that the initial sampler returns.
-/

namespace Fbs
namespace Smc

open Jax

variable {N : ℕ} {U V : Type}

/-- User functions of the filters (`/repo/fbs/samplers/smc.py:9-14`, `:115-118`). -/
structure Funs (N : ℕ) (U V : Type) where
  /-- `init_sampler(key, v0, n)` / `ref_sampler(key, v0, n)` -/
  initSampler : Key → V → ℕ → Rand (Fin N → U)
  /-- `transition_sampler(us, v, t, key)` -/
  transSampler : (Fin N → U) → V → ℝ → Key → Rand (Fin N → U)
  /-- `measurement_cond_pdf(v, us_prev, v_prev, t_prev)` / `likelihood_logpdf(...)` -/
  lik : V → (Fin N → U) → V → ℝ → (Fin N → ℝ)

/-- `resampling(weights, key)`. -/
abbrev Resampling (N : ℕ) := (Fin N → ℝ) → Key → Rand (Fin N → Fin N)

/-- Inputs of one filter step: `(v, v_prev, t_prev, key)`. -/
abbrev StepIn (V : Type) := V × V × ℝ × Key

/-- The zipped scan inputs `(vs[1:], vs[:-1], ts[:-1], keys)`,
`/repo/fbs/samplers/smc.py:83,155`. -/
def scanInputs (vs : Arr1 V) (ts : Arr1 ℝ) (keys : List Key) : List (StepIn V) :=
  vs.2.zip (vs.init.zip (ts.init.zip keys))

/-- `/repo/fbs/samplers/smc.py:58-74` `scan_body` of `bootstrap_filter`; `emit` is the per-step output
(`None` or `us`, line 74).  The second, unused split of line 71 is dropped. -/
noncomputable def filterBody {ο : Type} (m : Funs N U V) (res : Resampling N) (emit : (Fin N → U) → ο)
    (carry : (Fin N → U) × ℝ) (inp : StepIn V) : Rand (((Fin N → U) × ℝ) × ο) := do
  let (usPrev, logNell) := carry
  let (v, vPrev, tPrev, key) := inp
  let us ← m.transSampler usPrev vPrev tPrev (split key 2 0)
  let logWeights := m.lik v usPrev vPrev tPrev
  let c := logsumexp logWeights
  let logNell := logNell - (c - Real.log N)
  let inds ← res (fun i => Real.exp (logWeights i - c)) (split key 2 1)
  let us := take us inds
  pure ((us, logNell), emit us)

/-- The result of `bootstrap_filter`: particles of the last time, or of all times. -/
inductive FilterOut (N : ℕ) (U : Type) where
  | last (us : Fin N → U) (nell : ℝ)
  | path (uss : Arr1 (Fin N → U)) (nell : ℝ)

/-- The particles of the last time, whichever form was returned. -/
def FilterOut.final : FilterOut N U → (Fin N → U)
  | .last us _ => us
  | .path uss _ => uss.last

/-- The second component of the result. -/
def FilterOut.nell : FilterOut N U → ℝ
  | .last _ l => l
  | .path _ l => l

/-- `/repo/fbs/samplers/smc.py:9-88` `bootstrap_filter`.  The argument `log` is accepted and, as in the
code, has no effect. -/
noncomputable def bootstrapFilter (m : Funs N U V) (res : Resampling N) (vs : Arr1 V) (ts : Arr1 ℝ)
    (key : Key) (_log : Bool) (returnLast : Bool) : Rand (FilterOut N U) := do
  let nsteps := vs.2.length
  let init ← m.initSampler (split key 2 0) vs.1 N
  let keys := splitAll (split key 2 1) nsteps
  if returnLast then do
    let r ← Rand.scan (filterBody m res fun _ => ()) (init, 0) (scanInputs vs ts keys)
    pure (.last r.1.1 r.1.2)
  else do
    let r ← Rand.scan (filterBody m res id) (init, 0) (scanInputs vs ts keys)
    pure (.path (init, r.2) r.1.2)

/-- `/repo/fbs/samplers/smc.py:98-105` `scan_body` of the backward smoother. -/
noncomputable def smootherBody [NeZero N] (transLogpdf : U → (Fin N → U) → V → ℝ → (Fin N → ℝ))
    (uNext : U) (inp : (Fin N → U) × V × ℝ × Key) : Rand (U × U) := do
  let (uf, v, t, key) := inp
  let logWs := transLogpdf uNext uf v t
  let logWs := fun i => logWs i - logsumexp logWs
  let i ← choice key (fun i => Real.exp (logWs i))
  pure (uf i, uf i)

/-- `/repo/fbs/samplers/smc.py:91-112` `bootstrap_backward_smoother`.  `jax.random.choice(key, a)` without
weights draws a uniform integer with `key`; the code passes the *parent* `key`, not `key_last`. -/
noncomputable def backwardSmoother [NeZero N] (key : Key) (filterUs : Arr1 (Fin N → U)) (vs : Arr1 V)
    (ts : Arr1 ℝ) (transLogpdf : U → (Fin N → U) → V → ℝ → (Fin N → ℝ)) : Rand (List U) := do
  let nsteps := filterUs.2.length
  let i ← randint key N
  let uT := filterUs.last i
  let r ← Rand.scan (smootherBody transLogpdf) uT
    (filterUs.revInit.zip (vs.revInit.zip (ts.revInit.zip (splitAll (split key 2 1) nsteps))))
  pure (r.2.reverse ++ [uT])

/-- `/repo/fbs/samplers/smc.py:138-152` `scan_body` of `pmcmc_filter_step`. -/
noncomputable def pmcmcBody (m : Funs N U V) (res : Resampling N)
    (carry : (Fin N → U) × ℝ) (inp : StepIn V) : Rand (((Fin N → U) × ℝ) × Unit) := do
  let (usPrev, logEll) := carry
  let (v, vPrev, tPrev, key) := inp
  let logWs := m.lik v usPrev vPrev tPrev
  let c := logsumexp logWs
  let logEll := logEll - Real.log N + c
  let inds ← res (fun i => Real.exp (logWs i - c)) (split key 2 1)
  let usPrev := take usPrev inds
  let us ← m.transSampler usPrev vPrev tPrev (split key 2 0)
  pure ((us, logEll), ())

/-- `/repo/fbs/samplers/smc.py:115-158` `pmcmc_filter_step`. -/
noncomputable def pmcmcFilterStep (m : Funs N U V) (res : Resampling N) (key : Key) (vs : Arr1 V)
    (u0s : Fin N → U) (ts : Arr1 ℝ) : Rand ((Fin N → U) × ℝ) := do
  let keys := splitAll key ts.2.length
  let r ← Rand.scan (pmcmcBody m res) (u0s, 0) (scanInputs vs ts keys)
  pure r.1

/-- `/repo/fbs/samplers/smc.py:161-168` `pcn_proposal`, on any real vector space of arrays. -/
noncomputable def pcnProposal {W : Type} [AddCommGroup W] [Module ℝ W] (key : Key) (delta : ℝ)
    (x mean : W) (sampler : Key → Rand W) : Rand W := do
  let beta := 2 / (2 + delta)
  let r0 ← sampler (split key 2 0)
  let r1 ← sampler (split key 2 1)
  let p := x + Real.sqrt (delta / 2) • (r0 - mean)
  pure (beta • p + (1 - beta) • mean + Real.sqrt (1 - beta) • (r1 - mean))

/-- `/repo/fbs/samplers/common.py:5-9` `MCMCState`. -/
structure MCMCState where
  acceptanceProb : ℝ
  isAccepted : Bool
  propLogEll : ℝ
  logEll : ℝ

/-- An array with `K + 1` rows as row 0 and the rest. -/
def toArr1 {α : Type} {K : ℕ} (x : Fin (K + 1) → α) : Arr1 α := (x 0, List.ofFn fun i : Fin K => x i.succ)

/-- `/repo/fbs/samplers/smc.py:246-249` `log(z) < log_acc_prob` for `z` in `[0,1)`, `log 0 = -inf`. -/
noncomputable def accepts (z logAcc : ℝ) : Bool :=
  open scoped Classical in decide (z = 0 ∨ Real.log z < logAcc)

/-- `/repo/fbs/samplers/smc.py:233-237` the proposed path of `pmcmc_kernel`. -/
noncomputable def pmcmcProposal {K : ℕ} [AddCommGroup V] [Module ℝ V] (key : Key) (ys : Fin (K + 1) → V)
    (y0 : V) (ts : Fin (K + 1) → ℝ) (fwdYs : Key → V → Rand (Fin (K + 1) → V)) (sdeMean : ℝ → ℝ → V → V) :
    Option ℝ → Rand (Fin (K + 1) → V)
  | none => fwdYs (split key 4 0) y0
  | some d => pcnProposal (split key 4 0) d ys (fun i => sdeMean (ts i) (ts 0) y0) fun k => fwdYs k y0

/-- `/repo/fbs/samplers/smc.py:239-244` the proposed particle and likelihood estimate of `pmcmc_kernel`. -/
noncomputable def pmcmcEstimate {K : ℕ} (m : Funs N U V) (res : Resampling N) (key : Key)
    (propYs : Fin (K + 1) → V) (ts : Fin (K + 1) → ℝ) (whichU : Fin N) : Rand (U × ℝ) := do
  let vs := fun i => propYs (Fin.rev i)
  let u0s ← m.initSampler (split key 4 1) (vs 0) N
  let (propUTs, propLogEll) ← pmcmcFilterStep m res (split key 4 2) (toArr1 vs) u0s (toArr1 ts)
  pure (propUTs whichU, propLogEll)

/-- `/repo/fbs/samplers/smc.py:171-258` `pmcmc_kernel`.  Paths have `K + 1` rows.  `sdeMean` is
`sde.mean`; `whichU` is a valid index. -/
noncomputable def pmcmcKernel {K : ℕ} [AddCommGroup V] [Module ℝ V] (m : Funs N U V) (res : Resampling N)
    (key : Key) (uT : U) (logEll : ℝ) (ys : Fin (K + 1) → V) (y0 : V) (ts : Fin (K + 1) → ℝ)
    (fwdYs : Key → V → Rand (Fin (K + 1) → V)) (sdeMean : ℝ → ℝ → V → V)
    (delta : Option ℝ) (whichU : Fin N) :
    Rand (U × ℝ × (Fin (K + 1) → V) × MCMCState) := do
  let propYs ← pmcmcProposal key ys y0 ts fwdYs sdeMean delta
  let (propUT, propLogEll) ← pmcmcEstimate m res key propYs ts whichU
  let logAcc := min 0 (propLogEll - logEll)
  let z ← uniform (split key 4 3)
  let flag := accepts z logAcc
  let st : MCMCState := ⟨Real.exp logAcc, flag, propLogEll, logEll⟩
  pure (if flag then (propUT, propLogEll, propYs, st) else (uT, logEll, ys, st))

/-- User functions of `twisted_smc` (`/repo/fbs/samplers/smc.py:261-268`). -/
structure TwistedFuns (N : ℕ) (X Y : Type) where
  /-- `init_sampler(key, n)` -/
  initSampler : Key → ℕ → Rand (Fin N → X)
  /-- `transition_logpdf(xs, xs_prev, t)` -/
  transLogpdf : (Fin N → X) → (Fin N → X) → ℝ → (Fin N → ℝ)
  /-- `twisting_logpdf(y, xs, t)` -/
  twistLogpdf : Y → (Fin N → X) → ℝ → (Fin N → ℝ)
  /-- `twisting_prop_sampler(key, xs_prev, t, y)` -/
  propSampler : Key → (Fin N → X) → ℝ → Y → Rand (Fin N → X)
  /-- `twisting_prop_logpdf(xs, xs_prev, t, y)` -/
  propLogpdf : (Fin N → X) → (Fin N → X) → ℝ → Y → (Fin N → ℝ)

/-- `/repo/fbs/samplers/smc.py:276-296` `scan_body` of `twisted_smc`. -/
noncomputable def twistedBody {X Y : Type} (m : TwistedFuns N X Y) (res : Resampling N) (y : Y)
    (carry : (Fin N → X) × (Fin N → ℝ) × (Fin N → ℝ)) (inp : Key × ℝ) :
    Rand (((Fin N → X) × (Fin N → ℝ) × (Fin N → ℝ)) × Unit) := do
  let (xsPrev, logPsPrev, logWs) := carry
  let (key, t) := inp
  let inds ← res (fun i => Real.exp (logWs i)) (split key 2 0)
  let xsPrev := take xsPrev inds
  let logPsPrev := take logPsPrev inds
  let xs ← m.propSampler (split key 2 1) xsPrev t y
  let logPs := m.twistLogpdf y xs t
  let logWs := fun i => m.transLogpdf xs xsPrev t i + logPs i - m.propLogpdf xs xsPrev t y i - logPsPrev i
  let logWs := fun i => logWs i - logsumexp logWs
  pure ((xs, logPs, logWs), ())

/-- `/repo/fbs/samplers/smc.py:261-309` `twisted_smc`. -/
noncomputable def twistedSmc {X Y : Type} (m : TwistedFuns N X Y) (res : Resampling N) (key : Key)
    (y : Y) (ts : Arr1 ℝ) : Rand ((Fin N → X) × (Fin N → ℝ)) := do
  let nsteps := ts.2.length
  let keys := splitAll (split key 2 1) nsteps
  let xs ← m.initSampler (split key 2 0) N
  let logPs := m.twistLogpdf y xs ts.1
  let logWs := fun i => logPs i - logsumexp logPs
  let r ← Rand.scan (twistedBody m res y) (xs, logPs, logWs) (keys.zip ts.2)
  pure (r.1.1, r.1.2.2)

end Smc
end Fbs
