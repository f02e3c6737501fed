import Verif.Model.ImgSamplers
import Verif.Model.Simulators
import Verif.Model.GibbsLoop

/-!
# `experiments/sb_imgs/supr.py`: the initial guess of the unobserved pixels

The script runs the conditional samplers of a Schrödinger bridge from three kinds of initial guesses `x0`.  The functions
of lines 80-129 are those of `Model/ImgSamplers.lean` with `drift uv t := nn_drift(uv, T - t, param_bwd)`; images have
shape `(w, h, c)` and are stored as in that file.
-/

open MeasureTheory

namespace Fbs
namespace SbImgs

open Jax Restore ImgSamplers

variable {w h c : ℕ}

/-- `/repo/experiments/sb_imgs/supr.py:132-137` `fwd_sampler`; `drift` is `nn_drift(·, ·, param_fwd)`, `disp` is
`sde.dispersion`. -/
noncomputable def fwdSampler (mask : Mask) (drift : (Fin (w * h) × Fin c → ℝ) → ℝ → (Fin (w * h) × Fin c → ℝ))
    (disp : ℝ → ℝ) (ts : Arr1 ℝ) (key : Key) {a b : ℕ} (x0 : Fin a × Fin c → ℝ) (y0 : Fin b × Fin c → ℝ) :
    Rand (Except String (Arr1 (Fin (w * h) × Fin c → ℝ))) :=
  match concatMask w h mask x0 y0 with
  | .error e => pure (.error e)
  | .ok xy0 => .ok <$> Simulators.eulerPath key xy0 ts drift disp 1

/-- `/repo/experiments/sb_imgs/supr.py:144-146` `random_x0_sampler` (`x_shape = (a, c)`). -/
noncomputable def randomX0 (a c : ℕ) (key : Key) : Rand (Fin a × Fin c → ℝ) :=
  Rand.sample key {u | ∀ i, u i ∈ Set.Ico (0 : ℝ) 1} (Measure.pi fun _ => unifMeasure)

/-- `/repo/experiments/sb_imgs/supr.py:149-151` `blank_x0_sampler`. -/
def blankX0 (a c : ℕ) : Rand (Fin a × Fin c → ℝ) := pure fun _ => 0

/-! `jax.image.resize(·, method='linear')` (`jax/_src/image/scale.py`, `compute_weight_mat`). -/

/-- `_triangle_kernel`. -/
def triangle (x : ℝ) : ℝ := max 0 (1 - |x|)

/-- `sample_f`: the position in the input, of length `n`, of entry `o` of the output, of length `m`. -/
noncomputable def samplePos (n m o : ℕ) : ℝ := ((o : ℝ) + 1 / 2) * ((n : ℝ) / m) - 1 / 2

/-- The weights before they are normalised; the kernel is stretched when the output is smaller than the input. -/
noncomputable def rawWeight (n m i o : ℕ) : ℝ := triangle (|samplePos n m o - i| / max ((n : ℝ) / m) 1)

/-- Entry `(i, o)` of the weight matrix. -/
noncomputable def weight (n m : ℕ) (i : Fin n) (o : Fin m) : ℝ :=
  let tot := ∑ k : Fin n, rawWeight n m k o
  if -1 / 2 ≤ samplePos n m o ∧ samplePos n m o ≤ n - 1 / 2 then
    if 1000 * (2 : ℝ)⁻¹ ^ 23 < |tot| then rawWeight n m i o / (if tot ≠ 0 then tot else 1) else 0
  else 0

/-- `jax.image.resize(img, (m, m', c), method='linear')` of an image of shape `(n, n', c)`. -/
noncomputable def resize {n n' : ℕ} (m m' : ℕ) (img : Fin n → Fin n' → Fin c → ℝ) : Fin m → Fin m' → Fin c → ℝ :=
  fun x y ch => ∑ i, ∑ j, weight n m i x * weight n' m' j y * img i j ch

/-- `/repo/experiments/sb_imgs/supr.py:154-159` `interp_x0_sampler`; `low` is `low_res`, `res` is `resolution`. -/
noncomputable def interpX0 (res low : ℕ) (mask : Mask) (y0 : Fin mask.obs.length × Fin c → ℝ) :
    Except String (Fin mask.unobs.length × Fin c → ℝ) :=
  if hl : mask.obs.length = low * low then
    let small : Fin low → Fin low → Fin c → ℝ := fun i j ch => y0 (Fin.cast hl.symm (finProdFinEquiv (i, j)), ch)
    let big : Fin (res * res) × Fin c → ℝ := fun p =>
      let q := finProdFinEquiv.symm p.1
      resize res res small q.1 q.2 p.2
    .ok (unpackMask (w := res) (h := res) mask big).1
  else .error "TypeError"

/-- `/repo/experiments/sb_imgs/supr.py:219-225`: one run of the filter per stored sample, each from a new guess; `pf` is
`pf` of lines 162-166 with the observation and the mask. -/
noncomputable def filterSamples {U : Type} (x0Sampler : Key → Rand U) (pf : Key → U → Rand U) : ℕ → Key → Rand (List U)
  | 0, _ => pure []
  | nsamples + 1, key => do
    let x0 ← x0Sampler (split key 2 1)
    let key := split key 2 0
    let x ← pf (split key 2 1) x0
    let rest ← filterSamples x0Sampler pf nsamples (split key 2 0)
    pure (x :: rest)

/-- `/repo/experiments/sb_imgs/supr.py:230-241`: the chain, from a guess through `gibbs_init` and `nsamples` calls of
`gibbs_kernel` (`bs_star` has `ts.2.length + 1` zeros); `init` returns the first value returned by `gibbs_init`. -/
noncomputable def gibbsChain {U V Z : Type} {n : ℕ} [NeZero n] (ef : Bool) (x0Sampler : Key → Rand U)
    (init : Key → U → Rand U) (m : Gibbs.Funs (Gibbs.rows n ef) U V Z) (margY eb : Bool) (y0 : V) (ts : Arr1 ℝ)
    (nsamples : ℕ) (key : Key) : Rand U := do
  let x0 ← x0Sampler (split key 2 1)
  let key := split key 2 0
  let x0 ← init (split key 2 1) x0
  Prod.fst <$> Gibbs.gibbsLoop ef m margY eb y0 ts nsamples (split key 2 0) x0 (0, List.replicate ts.2.length 0)

end SbImgs
end Fbs
