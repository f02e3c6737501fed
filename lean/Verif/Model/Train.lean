import Verif.Model.Data
import Verif.Model.Losses

/-!
# The training scripts `experiments/imgs/train.py` and `experiments/sb_imgs/train.py`

`P` is what a gradient step updates: the parameter array, the state of the optimiser and, in the first script, the
averaged parameter.  A gradient step (`optax_kernel`, `jax.value_and_grad`, `optimiser.update`) is an arbitrary random
program of its key and its batch; what it computes from the loss is not modelled.  Printing, plotting and checkpoints are
left out.
-/

namespace Fbs
namespace Train

open Jax

variable {α P Q : Type}

/-- A gradient step: number of the step within the epoch, current parameters, key, batch. -/
abbrev Step (P D : Type) := ℕ → P → Key → D → Rand P

/-- `/repo/experiments/imgs/train.py:115-119`, `/repo/experiments/sb_imgs/train.py:175-183` the steps `js` of an epoch.
(`enumerate_subset` ignores its key: `/repo/fbs/data/images.py:252-256`.) -/
def epochSteps [Inhabited α] (xs : List α) (permInds : List (List ℕ)) (step : Step P (List α)) :
    List ℕ → Key → P → Rand (Except String P)
  | [], _, p => pure (.ok p)
  | j :: js, subkey, p =>
    let (subkey, subkey2) := (split subkey 2 0, split subkey 2 1)
    match Data.enumerateSubset xs permInds j with
    | .error e => pure (.error e)
    | .ok x0s => do
      let p ← step j p subkey2 x0s
      epochSteps xs permInds step js subkey p

/-- `/repo/experiments/imgs/train.py:113-119`, `/repo/experiments/sb_imgs/train.py:174-183` one epoch. -/
noncomputable def epoch [Inhabited α] (xs : List α) (batchSize : ℕ) (step : Step P (List α)) (subkey : Key) (p : P) :
    Rand (Except String P) := do
  let r ← Data.initEnumeration xs.length subkey batchSize
  match r with
  | .error e => pure (.error e)
  | .ok permInds => epochSteps xs permInds step (List.range (xs.length / batchSize)) subkey p

/-- `/repo/experiments/imgs/train.py:111-119`, `/repo/experiments/sb_imgs/train.py:172-183` the epochs, with the key
`key_data` left over. -/
noncomputable def epochs [Inhabited α] (xs : List α) (batchSize : ℕ) (step : Step P (List α)) :
    ℕ → Key → P → Rand (Except String P × Key)
  | 0, keyData, p => pure (.ok p, keyData)
  | n + 1, keyData, p => do
    let (keyData, subkey) := (split keyData 2 0, split keyData 2 1)
    let r ← epoch xs batchSize step subkey p
    match r with
    | .error e => pure (.error e, keyData)
    | .ok p => epochs xs batchSize step n keyData p

section Sb

variable {ι : Type} [Fintype ι]

/-- `/repo/experiments/sb_imgs/train.py:190-193` the steps `js` of an epoch of the forward network; `train_nsamples` is
`b`. -/
noncomputable def refSteps (b : ℕ) (step : Step P (Fin b × ι → ℝ)) : List ℕ → Key → P → Rand P
  | [], _, p => pure p
  | j :: js, subkey, p => do
    let (subkey, subkey2) := (split subkey 2 0, split subkey 2 1)
    let xTs ← normal subkey (Fin b × ι)
    let p ← step j p subkey2 xTs
    refSteps b step js subkey p

/-- `/repo/experiments/sb_imgs/train.py:188-195` the epochs of the forward network. -/
noncomputable def refEpochs (b nstepsPerEpoch : ℕ) (step : Step P (Fin b × ι → ℝ)) : ℕ → Key → P → Rand P
  | 0, _, p => pure p
  | n + 1, keyData, p => do
    let (keyData, subkey) := (split keyData 2 0, split keyData 2 1)
    let p ← refSteps b step (List.range nstepsPerEpoch) subkey p
    refEpochs b nstepsPerEpoch step n keyData p

/-- The three gradient steps of `/repo/experiments/sb_imgs/train.py:145-166`; `P` is a parameter array, `S` a state of the
optimiser.  The network that simulates is an argument and is not updated. -/
structure Kernels (P S α ι : Type) (b : ℕ) where
  /-- `optax_kernel_init(param_bwd, opt_state, param_fwd, key, data_samples)`. -/
  init : P → S → P → Key → List α → Rand (P × S)
  /-- `optax_kernel_bwd(param_bwd, opt_state, param_fwd, key, data_samples)`. -/
  bwd : P → S → P → Key → List α → Rand (P × S)
  /-- `optax_kernel_fwd(param_fwd, opt_state, param_bwd, key, ref_samples)`. -/
  fwd : P → S → P → Key → (Fin b × ι → ℝ) → Rand (P × S)

/-- `/repo/experiments/sb_imgs/train.py:170-197` `sb_kernel`. -/
noncomputable def sbKernel {S : Type} [Inhabited α] {b : ℕ} (xs : List α) (nepochs : ℕ) (k : Kernels P S α ι b)
    (paramFwd paramBwd : P) (optFwd optBwd : S) (keyData : Key) (sbStep : ℕ) :
    Rand (Except String (P × P × S × S)) := do
  let step : Step (P × S) (List α) := fun _ p key x0s =>
    if sbStep = 0 then k.init p.1 p.2 paramFwd key x0s else k.bwd p.1 p.2 paramFwd key x0s
  let (r, keyData) ← epochs xs b step nepochs keyData (paramBwd, optBwd)
  match r with
  | .error e => pure (.error e)
  | .ok (paramBwd, optBwd) => do
    let (paramFwd, optFwd) ← refEpochs b (xs.length / b) (fun _ p key xTs => k.fwd p.1 p.2 paramBwd key xTs) nepochs
      keyData (paramFwd, optFwd)
    pure (.ok (paramFwd, paramBwd, optFwd, optBwd))

/-- `/repo/experiments/sb_imgs/train.py:204-207` the Schrödinger bridge iterations `sb_iter, sb_iter + 1, …`, as many as
`m`. -/
noncomputable def sbLoop {S : Type} [Inhabited α] {b : ℕ} (xs : List α) (nepochs : ℕ) (k : Kernels P S α ι b) :
    ℕ → ℕ → Key → P × P × S × S → Rand (Except String (P × P × S × S))
  | 0, _, _, p => pure (.ok p)
  | m + 1, sbIter, keySb, (paramFwd, paramBwd, optFwd, optBwd) => do
    let (keySb, subkey) := (split keySb 2 0, split keySb 2 1)
    let r ← sbKernel xs nepochs k paramFwd paramBwd optFwd optBwd subkey sbIter
    match r with
    | .error e => pure (.error e)
    | .ok p => sbLoop xs nepochs k m (sbIter + 1) keySb p

/-- `/repo/experiments/sb_imgs/train.py:117-119`, `:128-130`, `:138-140` `rnd_ts` for `train_nsteps ≥ 1`. -/
noncomputable def rndTs (keyTs : Key) (T : ℝ) (trainNsteps : ℕ) : Rand (Arr1 ℝ) :=
  (fun u => (0, Losses.sort u ++ [T])) <$> Losses.uniformIn keyTs (trainNsteps - 1) (0 + 1e-5) T

/-- `/repo/experiments/sb_imgs/train.py:109` `ipf_loss`: the choice between the two losses. -/
noncomputable def ipfLoss (vmapLoss : Bool) (key : Key) (x0 : ι → ℝ) (ts : Arr1 ℝ)
    (parDrift simDrift : (ι → ℝ) → ℝ → (ι → ℝ)) (dispersion : ℝ → ℝ) : Rand ℝ :=
  if vmapLoss then Dsb.ipfLossContV key x0 ts parDrift simDrift dispersion
  else Dsb.ipfLossCont key x0 ts parDrift simDrift dispersion

/-- `/repo/experiments/sb_imgs/train.py:73-74`, `:112-121` `loss_fn_init`; `nnDrift` takes state, time and parameter. -/
noncomputable def lossInit (vmapLoss : Bool) (sde : Linear.SDE) (nnDrift : (ι → ℝ) → ℝ → P → (ι → ℝ)) (T : ℝ) (trainNsteps : ℕ)
    (paramBwd : P) (key : Key) (dataSamples : ι → ℝ) : Rand ℝ := do
  let ts ← rndTs (split key 2 1) T trainNsteps
  ipfLoss vmapLoss (split key 2 0) dataSamples ts (fun x t => nnDrift x t paramBwd) (fun x t i => Linear.drift sde (x i) t)
    (Linear.dispersion sde)

/-- `/repo/experiments/sb_imgs/train.py:124-131` `loss_fn_bwd`. -/
noncomputable def lossBwd (vmapLoss : Bool) (sde : Linear.SDE) (nnDrift : (ι → ℝ) → ℝ → P → (ι → ℝ)) (T : ℝ) (trainNsteps : ℕ)
    (paramBwd paramFwd : P) (key : Key) (dataSamples : ι → ℝ) : Rand ℝ := do
  let ts ← rndTs (split key 2 1) T trainNsteps
  ipfLoss vmapLoss (split key 2 0) dataSamples ts (fun x t => nnDrift x t paramBwd) (fun x t => nnDrift x t paramFwd)
    (Linear.dispersion sde)

/-- `/repo/experiments/sb_imgs/train.py:134-141` `loss_fn_fwd`. -/
noncomputable def lossFwd (vmapLoss : Bool) (sde : Linear.SDE) (nnDrift : (ι → ℝ) → ℝ → P → (ι → ℝ)) (T : ℝ) (trainNsteps : ℕ)
    (paramFwd paramBwd : P) (key : Key) (refSamples : ι → ℝ) : Rand ℝ := do
  let ts ← rndTs (split key 2 1) T trainNsteps
  ipfLoss vmapLoss (split key 2 0) refSamples (ts.map fun t => T - t) (fun x t => nnDrift x t paramFwd)
    (fun x t => nnDrift x t paramBwd) (Linear.dispersion sde)

/-- `/repo/experiments/sb_imgs/train.py:48-51` `ts`; the first entry of `linspace(0, T, ·)` is `0`. -/
noncomputable def scriptTs (T : ℝ) (nsteps : ℕ) : Arr1 ℝ := (0, (Simulators.linspace 0 T (nsteps + 1)).tail)

/-- `/repo/experiments/sb_imgs/train.py:214-218` `rev_sim` (`nsteps = 128`, ten sub-steps). -/
noncomputable def revSim (sde : Linear.SDE) (nnDrift : (ι → ℝ) → ℝ → P → (ι → ℝ)) (T : ℝ) (paramBwd : P) (key : Key)
    (xT : ι → ℝ) : Rand (ι → ℝ) :=
  Simulators.eulerLast key xT ((scriptTs T 128).map fun t => T - t) (fun x t => nnDrift x t paramBwd)
    (Linear.dispersion sde) 10

/-- `/repo/experiments/sb_imgs/train.py:221-225` `fwd_sim`. -/
noncomputable def fwdSim (sde : Linear.SDE) (nnDrift : (ι → ℝ) → ℝ → P → (ι → ℝ)) (T : ℝ) (paramFwd : P) (key : Key)
    (x0 : ι → ℝ) : Rand (ι → ℝ) :=
  Simulators.eulerLast key x0 (scriptTs T 128) (fun x t => nnDrift x t paramFwd) (Linear.dispersion sde) 10

end Sb

end Train
end Fbs
