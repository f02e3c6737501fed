import Verif.Model.Linear

/-!
# `fbs/dsb/base.py`: iterative proportional fitting losses

The batch `init_samples` is one array with entries indexed by `ι`; the drift functions act on whole batches, as in the
code.  The parameters `param`, `simulator_param` are closed over.  The dispersion is a number.
-/

namespace Fbs
namespace Dsb

open Jax

variable {ι : Type} [Fintype ι]

/-- `jnp.mean` of an array. -/
noncomputable def mean (a : ι → ℝ) : ℝ := (∑ i, a i) / Fintype.card ι

/-- `jnp.mean` of a stack of arrays of the same shape. -/
noncomputable def meanRows (as : List (ι → ℝ)) : ℝ := (as.map fun a => ∑ i, a i).sum / (as.length * Fintype.card ι)

/-- `/repo/fbs/dsb/base.py:20-27` `scan_body` of `ipf_loss_disc`. -/
noncomputable def discBody (parFn simFn : (ι → ℝ) → ℝ → (ι → ℝ)) (carry : (ι → ℝ) × ℝ) (elem : ℝ × ℝ × ℝ × (ι → ℝ)) :
    ((ι → ℝ) × ℝ) × Unit :=
  let (x, err) := carry
  let (k, kNext, gamma, rnd) := elem
  let xNext := fun i => simFn x k i + Real.sqrt gamma * rnd i
  let err := err + mean fun i => (parFn xNext kNext i - (xNext i + simFn x k i - simFn xNext k i)) ^ 2
  ((xNext, err), ())

/-- `/repo/fbs/dsb/base.py:7-32` `ipf_loss_disc`; the final `jnp.mean` is of a number.  `lax.scan` needs `gammas` to
have one entry per step. -/
noncomputable def ipfLossDisc (x0s : ι → ℝ) (ks : Arr1 ℝ) (gammas : List ℝ)
    (parFn simFn : (ι → ℝ) → ℝ → (ι → ℝ)) (key : Key) : Rand ℝ := do
  let rnds ← normalRows (split key 2 1) ks.2.length ι
  pure (scan (discBody parFn simFn) (x0s, 0) (ks.init.zip (ks.2.zip (gammas.zip rnds)))).1.2

/-- `/repo/fbs/dsb/base.py:93`, `:122` `fn`. -/
def fn (simDrift : (ι → ℝ) → ℝ → (ι → ℝ)) (x : ι → ℝ) (t dt : ℝ) : ι → ℝ := fun i => x i + simDrift x t i * dt

/-- `/repo/fbs/dsb/base.py:95-103` `scan_body` of `ipf_loss_cont`. -/
noncomputable def contBody (parDrift simDrift : (ι → ℝ) → ℝ → (ι → ℝ)) (dispersion : ℝ → ℝ)
    (carry : (ι → ℝ) × ℝ) (elem : ℝ × ℝ × (ι → ℝ)) : ((ι → ℝ) × ℝ) × Unit :=
  let (x, err) := carry
  let (t, tNext, rnd) := elem
  let dt := |tNext - t|
  let xNext := fun i => x i + simDrift x t i * dt + Real.sqrt dt * dispersion t * rnd i
  let err := err + mean fun i =>
    (parDrift xNext tNext i * dt - (fn simDrift x t dt i - fn simDrift xNext t dt i)) ^ 2
  ((xNext, err), ())

/-- `/repo/fbs/dsb/base.py:35-108` `ipf_loss_cont`. -/
noncomputable def ipfLossCont (key : Key) (x0 : ι → ℝ) (ts : Arr1 ℝ) (parDrift simDrift : (ι → ℝ) → ℝ → (ι → ℝ))
    (dispersion : ℝ → ℝ) : Rand ℝ := do
  let nsteps := ts.2.length
  let rnds ← normalRows (split key 2 1) nsteps ι
  pure ((scan (contBody parDrift simDrift dispersion) (x0, 0) (ts.init.zip (ts.2.zip rnds))).1.2 / nsteps)

/-- `/repo/fbs/dsb/base.py:124-130` `scan_body` of `ipf_loss_cont_v`. -/
noncomputable def contVBody (simDrift : (ι → ℝ) → ℝ → (ι → ℝ)) (dispersion : ℝ → ℝ)
    (x : ι → ℝ) (elem : ℝ × ℝ × (ι → ℝ)) : (ι → ℝ) × (ι → ℝ) :=
  let (t, tNext, rnd) := elem
  let dt := |tNext - t|
  let x' := fun i => x i + simDrift x t i * dt + Real.sqrt dt * dispersion t * rnd i
  (x', x')

/-- `/repo/fbs/dsb/base.py:138-141` `errs`; the `vmap`s run over the rows of `trajs[1:]`, `trajs[:-1]`, `ts[1:]`,
`ts[:-1]` and `dts` (`:137`). -/
noncomputable def contVErrs (parDrift simDrift : (ι → ℝ) → ℝ → (ι → ℝ)) (trajs : Arr1 (ι → ℝ)) (ts : Arr1 ℝ) :
    List (ι → ℝ) :=
  let dts := (Linear.diff ts).map fun d => |d|
  let evals := List.zipWith (fun (e : (ι → ℝ)) (dt : ℝ) i => e i * dt) (List.zipWith parDrift trajs.2 ts.2) dts
  let fn1 := List.zipWith (fun (p : (ι → ℝ) × ℝ) dt => fn simDrift p.1 p.2 dt) (trajs.init.zip ts.init) dts
  let fn2 := List.zipWith (fun (p : (ι → ℝ) × ℝ) dt => fn simDrift p.1 p.2 dt) (trajs.2.zip ts.init) dts
  List.zipWith (fun (e d : ι → ℝ) i => e i - d i) evals (List.zipWith (fun (a b : ι → ℝ) i => a i - b i) fn1 fn2)

/-- `/repo/fbs/dsb/base.py:111-142` `ipf_loss_cont_v`. -/
noncomputable def ipfLossContV (key : Key) (x0 : ι → ℝ) (ts : Arr1 ℝ) (parDrift simDrift : (ι → ℝ) → ℝ → (ι → ℝ))
    (dispersion : ℝ → ℝ) : Rand ℝ := do
  let rnds ← normalRows (split key 2 1) ts.2.length ι
  let trajs := (scan (contVBody simDrift dispersion) x0 (ts.init.zip (ts.2.zip rnds))).2
  let errs := contVErrs parDrift simDrift (x0, trajs) ts
  pure (meanRows (errs.map fun e i => e i ^ 2))

end Dsb
end Fbs
