import Verif.Base.Normal
import Mathlib.Analysis.SpecialFunctions.ExpDeriv
import Mathlib.Analysis.SpecialFunctions.Sqrt

/-!
# `fbs/sdes/linear.py`: linear SDEs

States are arrays with entries indexed by `ι`; all operations are elementwise.  Times are numbers.
-/

open MeasureTheory ProbabilityTheory

namespace Fbs
namespace Linear

open Jax

/-- The three subclasses of `LinearSDE`: `StationaryConstLinearSDE(a, b)` (`/repo/fbs/sdes/linear.py:13-20`),
`StationaryLinLinearSDE(beta_min, beta_max, t0, T)` (`:48-58`) and `StationaryExpLinearSDE(a, b, c, z)`
(`:95-106`). -/
inductive SDE where
  | const (a b : ℝ)
  | lin (betaMin betaMax t0 T : ℝ)
  | exp (a b c z : ℝ)

/-- `/repo/fbs/sdes/linear.py:60-62` `beta`. -/
noncomputable def beta (betaMin betaMax t0 T t : ℝ) : ℝ :=
  (betaMax - betaMin) / (T - t0) * t + (betaMin * T - betaMax * t0) / (T - t0)

/-- `/repo/fbs/sdes/linear.py:64-67` `beta_integral`. -/
noncomputable def betaIntegral (betaMin betaMax t0 T t s : ℝ) : ℝ :=
  0.5 * (t - s) * ((betaMax - betaMin) / (T - t0) * (t + s) + 2 * (betaMin * T - betaMax * t0) / (T - t0))

/-- `/repo/fbs/sdes/linear.py:22-23`, `:69-70`, `:108-109` `drift`, at one entry `x` of the state. -/
noncomputable def drift : SDE → ℝ → ℝ → ℝ
  | .const a _, x, _ => a * x
  | .lin bm bM t0 T, x, t => -0.5 * beta bm bM t0 T t * x
  | .exp a _ c z, x, t => a * Real.exp (c * (t - z)) * x

/-- `/repo/fbs/sdes/linear.py:25-26`, `:72-73`, `:111-112` `dispersion`. -/
noncomputable def dispersion : SDE → ℝ → ℝ
  | .const _ b, _ => b
  | .lin bm bM t0 T, t => Real.sqrt (beta bm bM t0 T t)
  | .exp _ b c z, t => b * Real.exp (c * (t - z) / 2)

/-- `/repo/fbs/sdes/linear.py:28-29`, `:75-76` `mean(t, s, m0)` at one entry; the third class has no such method
(`AttributeError`). -/
noncomputable def mean : SDE → ℝ → ℝ → ℝ → Option ℝ
  | .const a _, t, s, m0 => some (m0 * Real.exp (a * (t - s)))
  | .lin bm bM t0 T, t, s, m0 => some (m0 * Real.exp (-0.5 * betaIntegral bm bM t0 T t s))
  | .exp .., _, _, _ => none

/-- `/repo/fbs/sdes/linear.py:31-34`, `:78-81` `variance(t, s)`. -/
noncomputable def variance : SDE → ℝ → ℝ → Option ℝ
  | .const a b, t, s => some (b ^ 2 / (2 * a) * (Real.exp (2 * a * (t - s)) - 1))
  | .lin bm bM t0 T, t, s => some (1 - Real.exp (-betaIntegral bm bM t0 T t s))
  | .exp .., _, _ => none

/-- `jax.scipy.stats.norm.logpdf(x, loc, scale)`. -/
noncomputable def normLogpdf (x loc scale : ℝ) : ℝ :=
  -(Real.log (2 * Real.pi * scale ^ 2) + (x - loc) ^ 2 / scale ^ 2) / 2

/-- `/repo/fbs/sdes/linear.py:40-42`, `:87-89` `log_h(a, b)`. -/
noncomputable def logH {ι : Type} [Fintype ι] (m : ℝ → ℝ) (v : ℝ) (target x : ι → ℝ) : ℝ :=
  ∑ i, normLogpdf (target i) (m (x i)) (Real.sqrt v)

/-- Entry `i` of `jax.grad(f)(x)`. -/
noncomputable def grad {ι : Type} [DecidableEq ι] (f : (ι → ℝ) → ℝ) (x : ι → ℝ) (i : ι) : ℝ :=
  deriv (fun y => f (Function.update x i y)) (x i)

/-- `/repo/fbs/sdes/linear.py:36-45`, `:83-92` `bridge_drift(x, t, target, T)`; the third class has no such method. -/
noncomputable def bridgeDrift {ι : Type} [Fintype ι] [DecidableEq ι] :
    SDE → Option ((ι → ℝ) → ℝ → (ι → ℝ) → ℝ → (ι → ℝ))
  | .const a b => some fun x t target T i => drift (.const a b) (x i) t + dispersion (.const a b) t ^ 2 *
      grad (logH (fun m => m * Real.exp (a * (T - t))) (b ^ 2 / (2 * a) * (Real.exp (2 * a * (T - t)) - 1)) target) x i
  | .lin bm bM t0 T' => some fun x t target T i =>
      drift (.lin bm bM t0 T') (x i) t + dispersion (.lin bm bM t0 T') t ^ 2 *
      grad (logH (fun m => m * Real.exp (-0.5 * betaIntegral bm bM t0 T' T t))
        (1 - Real.exp (-betaIntegral bm bM t0 T' T t)) target) x i
  | .exp .. => none

/-- `/repo/fbs/sdes/linear.py:169-184` `discretise_linear_sde(t, s)`: the pair `(F, Q)`. -/
noncomputable def discretise (sde : SDE) (t s : ℝ) : ℝ × ℝ :=
  match sde with
  | .lin bm bM t0 T =>
    let r := betaIntegral bm bM t0 T t s
    (Real.exp (-0.5 * r), 1 - Real.exp (-r))
  | .const a b => (Real.exp (a * (t - s)), b ^ 2 / (2 * a) * (Real.exp (2 * a * (t - s)) - 1))
  | .exp a b c z =>
    let stationaryVariance := -b ^ 2 / (2 * a)
    let r := a * (Real.exp (c * (t - z)) - Real.exp (c * (s - z))) / c
    (Real.exp r, stationaryVariance * (1 - Real.exp (2 * r)))

/-- `/repo/fbs/sdes/linear.py:186-188` `cond_score_t_0(x, t, x0, s)` at one entry. -/
noncomputable def condScore (sde : SDE) (x t x0 s : ℝ) : ℝ :=
  let FQ := discretise sde t s;
  -(x - FQ.1 * x0) / FQ.2

/-- `/repo/fbs/sdes/linear.py:211-217` `scan_body` of `simulate_cond_forward`. -/
noncomputable def fwdBody {ι : Type} (sde : SDE) (x : ι → ℝ) (elem : ℝ × ℝ × (ι → ℝ)) : (ι → ℝ) × (ι → ℝ) :=
  let (t, tPrev, rnd) := elem
  let FQ := discretise sde t tPrev
  let x' := fun i => FQ.1 * x i + Real.sqrt FQ.2 * rnd i
  (x', x')

/-- `/repo/fbs/sdes/linear.py:219-221` `simulate_cond_forward(key, x0, ts, keep_path=True)`. -/
noncomputable def simulatePath {ι : Type} [Fintype ι] (sde : SDE) (key : Key) (x0 : ι → ℝ) (ts : Arr1 ℝ) :
    Rand (List (ι → ℝ)) := do
  let rnds ← normalRows key ts.2.length ι
  pure (x0 :: (Jax.scan (fwdBody sde) x0 (ts.2.zip (ts.init.zip rnds))).2)

/-- `/repo/fbs/sdes/linear.py:222-225` `simulate_cond_forward(key, x0, t, t0, keep_path=False)` at a single time
`t` (as it is called from the loss, `:332-334`).  With `t0 = None` the subtraction `t - None` raises a `TypeError`. -/
noncomputable def simulateMarginal {ι : Type} [Fintype ι] (sde : SDE) (key : Key) (x0 : ι → ℝ) (t : ℝ) :
    Option ℝ → Rand (Except String (ι → ℝ))
  | none => pure (.error "TypeError")
  | some t0 => do
    let FQ := discretise sde t t0
    let rnd ← normal key ι
    pure (.ok fun i => FQ.1 * x0 i + Real.sqrt FQ.2 * rnd i)

/-- The length of the product of axes of lengths `n` and `d` under NumPy broadcasting. -/
def bcastLen (n d : ℕ) : Option ℕ :=
  if n = d then some n else if n = 1 then some d else if d = 1 then some n else none

/-- Entry `i` of an axis that may have been broadcast from length one. -/
def view (a : List ℝ) (i : ℕ) : ℝ := if a.length = 1 then a.getD 0 0 else a.getD i 0

/-- `/repo/fbs/sdes/linear.py:222-225` `simulate_cond_forward(key, x0, ts, t0, keep_path=False)` with a vector of times and
a vector `x0`; the rows of the result.  `Fs` and `jnp.sqrt(Qs)` have shape `(n, )` and are multiplied with `x0` of shape
`(d, )` and with `rnds` of shape `(n, d)` along the last axis. -/
noncomputable def simulateMarginals {d : ℕ} (sde : SDE) (key : Key) (x0 : Fin d → ℝ) (ts : List ℝ) :
    Option ℝ → Rand (Except String (List (List ℝ)))
  | none => pure (.error "TypeError")
  | some t0 => do
    let Fs := ts.map fun t => (discretise sde t t0).1
    let Qs := ts.map fun t => (discretise sde t t0).2
    let rnds ← normalRows key ts.length (Fin d)
    match bcastLen ts.length d with
    | none => pure (.error "TypeError")
    | some w => pure (.ok (rnds.map fun rnd => (List.range w).map fun i =>
        view Fs i * view (List.ofFn x0) i + Real.sqrt (view Qs i) * view (List.ofFn rnd) i))

/-! ### `make_ou_sde` -/

/-- `/repo/fbs/sdes/linear.py:119-120` `discretise_ou_sde(t)`. -/
noncomputable def discretiseOu (a b t : ℝ) : ℝ × ℝ :=
  (Real.exp (a * t), b ^ 2 / (2 * a) * (Real.exp (2 * a * t) - 1))

/-- `/repo/fbs/sdes/linear.py:122-124` `cond_score_t_0(x, t, x0)` at one entry. -/
noncomputable def condScoreOu (a b x t x0 : ℝ) : ℝ :=
  let FQ := discretiseOu a b t;
  -(x - FQ.1 * x0) / FQ.2

/-- `/repo/fbs/sdes/linear.py:145-151` `scan_body`. -/
noncomputable def fwdBodyOu {ι : Type} (a b : ℝ) (x : ι → ℝ) (elem : ℝ × (ι → ℝ)) : (ι → ℝ) × (ι → ℝ) :=
  let (dt, rnd) := elem
  let FQ := discretiseOu a b dt
  let x' := fun i => FQ.1 * x i + Real.sqrt FQ.2 * rnd i
  (x', x')

/-- `jnp.diff(ts)`. -/
def diff (ts : Arr1 ℝ) : List ℝ := List.zipWith (fun t s => t - s) ts.2 ts.init

/-- `/repo/fbs/sdes/linear.py:153-156` `simulate_cond_forward(key, x0, ts, keep_path=True)`. -/
noncomputable def simulatePathOu {ι : Type} [Fintype ι] (a b : ℝ) (key : Key) (x0 : ι → ℝ) (ts : Arr1 ℝ) :
    Rand (List (ι → ℝ)) := do
  let dts := diff ts
  let rnds ← normalRows key dts.length ι
  pure (x0 :: (Jax.scan (fwdBodyOu a b) x0 (dts.zip rnds)).2)

/-- `/repo/fbs/sdes/linear.py:157-160` `simulate_cond_forward(key, x0, ts, keep_path=False)`. -/
noncomputable def simulateMarginalOu {ι : Type} [Fintype ι] (a b : ℝ) (key : Key) (x0 : ι → ℝ) (ts : List ℝ) :
    Rand (List (ι → ℝ)) := do
  let rnds ← normalRows key ts.length ι
  pure (List.zipWith (fun t rnd i => (discretiseOu a b t).1 * x0 i + Real.sqrt (discretiseOu a b t).2 * rnd i) ts rnds)

end Linear
end Fbs
