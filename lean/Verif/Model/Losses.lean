import Verif.Model.Simulators
import Verif.Model.Dsb

/-!
# The training losses of `fbs/sdes/linear.py`

The data `x0s` is an array of `n` states with entries indexed by `ι`; the network is an arbitrary function of a batch
and a time (its parameter closed over), applied to the slice of all paths at one time (`vmap` over the time axis).
-/

namespace Fbs
namespace Losses

open Jax Linear

variable {ι : Type} [Fintype ι] {n : ℕ}

/-- `jax.vmap` of a random function over an array of keys. -/
def vmapR {α : Type} : {n : ℕ} → (Fin n → Rand α) → Rand (Fin n → α)
  | 0, _ => pure Fin.elim0
  | _ + 1, p => do
    let a ← p 0
    let as ← vmapR fun i => p i.succ
    pure (Fin.cons a as)

/-- `jax.random.uniform(key, (m,), minval, maxval)` (`jax/_src/random.py`: `lax.max(minval, u * (maxval - minval) +
minval)`). -/
noncomputable def uniformIn (key : Key) (m : ℕ) (minval maxval : ℝ) : Rand (Fin m → ℝ) :=
  (fun u i => max minval (u i * (maxval - minval) + minval)) <$> uniforms key m

/-- `jnp.sort`. -/
noncomputable def sort {m : ℕ} (u : Fin m → ℝ) : List ℝ := by
  classical exact (List.ofFn u).mergeSort fun a b => decide (a ≤ b)

/-- `/repo/fbs/sdes/linear.py:264` `eps`. -/
noncomputable def eps : ℝ := 1e-5

/-- `/repo/fbs/sdes/linear.py:274-279`, `:378-383` the training times, with lower end `lo` of the random ones
(`nsteps ≥ 1`; otherwise the shape `(nsteps - 1,)` is rejected). The first entry of `linspace(t0, T, ·)` is `t0`. -/
noncomputable def times (key : Key) (lo t0 T : ℝ) (nsteps : ℕ) (randomTimes : Bool) : Rand (Arr1 ℝ) :=
  if randomTimes then (fun u => (t0, sort u ++ [T])) <$> uniformIn key (nsteps - 1) lo T
  else pure (t0, (Simulators.linspace t0 T (nsteps + 1)).tail)

/-- `fwd_paths[:, k]`. -/
def slice (paths : Fin n → List (ι → ℝ)) (k : ℕ) : Fin n → ι → ℝ := fun j => (paths j).getD k 0

/-- `ts[k]`. -/
def timeAt (ts : Arr1 ℝ) (k : ℕ) : ℝ := ts.toList.getD k 0

/-- `jnp.mean` of an array of shape `(n, K)` whose column `k` is `a k`. -/
noncomputable def meanCols (K : ℕ) (a : ℕ → Fin n → ℝ) : ℝ := (∑ k ∈ Finset.range K, ∑ j, a k j) / (K * n)

/-- `/repo/fbs/sdes/linear.py:280`, `:289-294` the `'score'` loss given times and paths. -/
noncomputable def scoreValue (sde : SDE) (nn : (Fin n → ι → ℝ) → ℝ → Fin n → ι → ℝ) (ts : Arr1 ℝ)
    (paths : Fin n → List (ι → ℝ)) : ℝ :=
  meanCols ts.2.length fun k j =>
    Dsb.mean (fun i => (nn (slice paths (k + 1)) (timeAt ts (k + 1)) j i -
      condScore sde (slice paths (k + 1) j i) (timeAt ts (k + 1)) (slice paths 0 j i) ts.1) ^ 2)
    * (discretise sde (timeAt ts (k + 1)) ts.1).2

/-- `/repo/fbs/sdes/linear.py:295-302` the `'ipf'` loss given times and paths. -/
noncomputable def ipfValue (sde : SDE) (nn : (Fin n → ι → ℝ) → ℝ → Fin n → ι → ℝ) (ts : Arr1 ℝ)
    (paths : Fin n → List (ι → ℝ)) : ℝ :=
  meanCols ts.2.length fun k j => Dsb.mean fun i =>
    (nn (slice paths (k + 1)) (timeAt ts (k + 1)) j i - (slice paths (k + 1) j i
      + (discretise sde (timeAt ts (k + 1)) (timeAt ts k)).1 * slice paths k j i
      - (discretise sde (timeAt ts (k + 1)) (timeAt ts k)).1 * slice paths (k + 1) j i)) ^ 2

/-- `/repo/fbs/sdes/linear.py:303-315` the `'ipf-score'` loss given times and paths. -/
noncomputable def ipfScoreValue (sde : SDE) (nn : (Fin n → ι → ℝ) → ℝ → Fin n → ι → ℝ) (ts : Arr1 ℝ)
    (paths : Fin n → List (ι → ℝ)) : ℝ :=
  meanCols ts.2.length fun k j => Dsb.mean fun i =>
    (nn (slice paths (k + 1)) (timeAt ts (k + 1)) j i -
      condScore sde (slice paths (k + 1) j i) (timeAt ts (k + 1)) (slice paths k j i) (timeAt ts k)) ^ 2

/-- `/repo/fbs/sdes/linear.py:289-317` the choice of loss. -/
noncomputable def lossValue (sde : SDE) (nn : (Fin n → ι → ℝ) → ℝ → Fin n → ι → ℝ) (lossType : String) (ts : Arr1 ℝ)
    (paths : Fin n → List (ι → ℝ)) : Except String ℝ :=
  if lossType = "score" then .ok (scoreValue sde nn ts paths)
  else if lossType = "ipf" then .ok (ipfValue sde nn ts paths)
  else if lossType = "ipf-score" then .ok (ipfScoreValue sde nn ts paths)
  else .error "NotImplementedError"

/-- `/repo/fbs/sdes/linear.py:282-284` the simulated paths, one key per sample. -/
noncomputable def fwdPaths (sde : SDE) (keyFwd : Key) (x0s : Fin n → ι → ℝ) (ts : Arr1 ℝ) :
    Rand (Fin n → List (ι → ℝ)) :=
  vmapR fun j => simulatePath sde (split keyFwd n j) (x0s j) ts

/-- `/repo/fbs/sdes/linear.py:230-317` `make_linear_sde_law_loss(...)` with `save_mem=False`: `loss_fn`. -/
noncomputable def lossFn (sde : SDE) (nn : (Fin n → ι → ℝ) → ℝ → Fin n → ι → ℝ) (t0 T : ℝ) (nsteps : ℕ)
    (randomTimes : Bool) (lossType : String) (key : Key) (x0s : Fin n → ι → ℝ) : Rand (Except String ℝ) := do
  let ts ← times (split key 2 0) (t0 + eps) t0 T nsteps randomTimes
  let paths ← fwdPaths sde (split key 2 1) x0s ts
  pure (lossValue sde nn lossType ts paths)

/-- `/repo/fbs/sdes/linear.py:324-329` the times of `loss_fn_save_mem`, one per sample (`n ≥ 1`). -/
noncomputable def saveMemTimes (key : Key) (t0 T : ℝ) (n : ℕ) (randomTimes : Bool) : Rand (List ℝ) :=
  if randomTimes then (fun u => sort u ++ [T]) <$> uniformIn key (n - 1) (t0 + eps) T
  else pure (Simulators.linspace (t0 + (T - t0) / n) T n)

/-- `/repo/fbs/sdes/linear.py:332-334` the noised samples of `loss_fn_save_mem`, one key per sample
(`simulate_cond_forward` with `keep_path=False` at a scalar time). -/
noncomputable def saveMemStates (sde : SDE) (keyFwd : Key) (x0s : Fin n → ι → ℝ) (t0 : ℝ) (ts : Fin n → ℝ) :
    Rand (Fin n → Except String (ι → ℝ)) :=
  vmapR fun j => simulateMarginal sde (split keyFwd n j) (x0s j) (ts j) (some t0)

/-- `/repo/fbs/sdes/linear.py:330`, `:335-340` the `'score'` loss of `loss_fn_save_mem` given times and states. -/
noncomputable def saveMemValue (sde : SDE) (nn : (Fin n → ι → ℝ) → (Fin n → ℝ) → Fin n → ι → ℝ) (t0 : ℝ)
    (x0s : Fin n → ι → ℝ) (ts : Fin n → ℝ) (xs : Fin n → ι → ℝ) : ℝ :=
  (∑ j, Dsb.mean (fun i => (nn xs ts j i - condScore sde (xs j i) (ts j) (x0s j i) t0) ^ 2)
    * (discretise sde (ts j) t0).2) / n

/-- `/repo/fbs/sdes/linear.py:319-340` `loss_fn_save_mem` for `loss_type='score'`: one time per sample.  (No sample
raises, as `t0` is given; the fallback of `getD` is not used.) -/
noncomputable def lossFnSaveMem (sde : SDE) (nn : (Fin n → ι → ℝ) → (Fin n → ℝ) → Fin n → ι → ℝ) (t0 T : ℝ)
    (randomTimes : Bool) (key : Key) (x0s : Fin n → ι → ℝ) : Rand (Except String ℝ) := do
  let tl ← saveMemTimes (split key 2 0) t0 T n randomTimes
  let ts := fun j : Fin n => tl.getD j 0
  let xs ← saveMemStates sde (split key 2 1) x0s t0 ts
  pure (.ok (saveMemValue sde nn t0 x0s ts fun j => (xs j).toOption.getD 0))

/-- `/repo/fbs/sdes/linear.py:337-363` outcome of the shape checks of `loss_fn_save_mem` for `n` samples of the given
state shape (all sizes at least `1`).  The branches `'ipf'` and `'ipf-score'` slice `fwd_paths[:, 1:]` of an array of
shape `(n, *state_shape)` and map it along that axis together with `ts[1:]` of length `n - 1`; then they subtract an
array with `d - 1` columns from one with `d` columns, which broadcasts only for `d ≤ 2` (the meaningless value returned
then is not modelled). -/
def saveMemShapes (lossType : String) (n : ℕ) (stateShape : List ℕ) : Except String Unit :=
  if lossType = "score" then .ok ()
  else if lossType = "ipf" ∨ lossType = "ipf-score" then
    match stateShape with
    | [] => .error "IndexError"
    | d :: _ => if d ≠ n then .error "ValueError" else if 2 < d then .error "TypeError" else .ok ()
  else .error "NotImplementedError"

/-- `/repo/fbs/sdes/linear.py:384`, `:388-392` the loss of `make_ou_score_matching_loss` given times and paths; the
state has one axis (`jnp.mean(..., axis=-1)`). -/
noncomputable def ouScoreValue (a b : ℝ) (nn : (Fin n → ι → ℝ) → ℝ → Fin n → ι → ℝ) (ts : Arr1 ℝ)
    (paths : Fin n → List (ι → ℝ)) : ℝ :=
  meanCols ts.2.length fun k j =>
    Dsb.mean (fun i => (nn (slice paths (k + 1)) (timeAt ts (k + 1)) j i -
      condScoreOu a b (slice paths (k + 1) j i) (timeAt ts (k + 1)) (slice paths 0 j i)) ^ 2)
    * (discretiseOu a b (timeAt ts (k + 1))).2

/-- `/repo/fbs/sdes/linear.py:368-394` `make_ou_score_matching_loss`. -/
noncomputable def ouLossFn (a b : ℝ) (nn : (Fin n → ι → ℝ) → ℝ → Fin n → ι → ℝ) (t0 T : ℝ) (nsteps : ℕ)
    (randomTimes : Bool) (key : Key) (x0s : Fin n → ι → ℝ) : Rand ℝ := do
  let ts ← times (split key 2 0) t0 t0 T nsteps randomTimes
  let paths ← vmapR fun j => simulatePathOu a b (split (split key 2 1) n j) (x0s j) ts
  pure (ouScoreValue a b nn ts paths)

end Losses
end Fbs
