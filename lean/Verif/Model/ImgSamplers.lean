import Verif.Model.Restore
import Verif.Model.Linear
import Verif.Model.Smc

/-!
# The conditional samplers of the image experiments

`experiments/imgs/inpainting.py`; line numbers below refer to it.  `experiments/imgs/supr.py:99-162` and
`experiments/tabulators/plot_img_coalescence.py:83-141` hold the same functions, and `experiments/sb_imgs/supr.py:80-129`
holds them with another `reverse_drift`.  An array of shape `(n, c)` is a function of `Fin n × Fin c`; images of shape
`(w, h, c)` are reshaped to `(w * h, c)` (row-major), as `concat` and `unpack` of the data set do.  Functions that call
`dataset.concat` can raise, which is the value `.error`.
-/

namespace Fbs
namespace ImgSamplers

open Jax Restore

variable {w h c N : ℕ}

/-- The rows of an array of shape `(n, c)`. -/
def rows {n : ℕ} (x : Fin n × Fin c → ℝ) : List (Fin c → ℝ) := List.ofFn fun i ch => x (i, ch)

/-- The array of shape `(n, c)` with the given rows. -/
def ofRows (n : ℕ) (l : List (Fin c → ℝ)) : Fin n × Fin c → ℝ := fun p => l.getD p.1 0 p.2

/-- `dataset.concat(u, v, mask)` (`/repo/fbs/data/images.py:355-363`). -/
def concatMask (w h : ℕ) (mask : Mask) {a b : ℕ} (u : Fin a × Fin c → ℝ) (v : Fin b × Fin c → ℝ) :
    Except String (Fin (w * h) × Fin c → ℝ) :=
  (concat 0 w h (rows u) (rows v) mask).map (ofRows (w * h))

/-- `dataset.unpack(xy, mask)` (`/repo/fbs/data/images.py:333-353`). -/
def unpackMask (mask : Mask) (xy : Fin (w * h) × Fin c → ℝ) :
    (Fin mask.unobs.length × Fin c → ℝ) × (Fin mask.obs.length × Fin c → ℝ) :=
  (ofRows _ (unpack (rows xy) mask).1, ofRows _ (unpack (rows xy) mask).2)

/-- `/repo/experiments/imgs/inpainting.py:106-109` `reverse_drift_u`. -/
def reverseDriftU (mask : Mask) (drift : (Fin (w * h) × Fin c → ℝ) → ℝ → (Fin (w * h) × Fin c → ℝ)) {a b : ℕ}
    (u : Fin a × Fin c → ℝ) (v : Fin b × Fin c → ℝ) (t : ℝ) : Except String (Fin mask.unobs.length × Fin c → ℝ) :=
  (concatMask w h mask u v).map fun uv => (unpackMask mask (drift uv t)).1

/-- `/repo/experiments/imgs/inpainting.py:112-115` `reverse_drift_v`. -/
def reverseDriftV (mask : Mask) (drift : (Fin (w * h) × Fin c → ℝ) → ℝ → (Fin (w * h) × Fin c → ℝ)) {a b : ℕ}
    (v : Fin b × Fin c → ℝ) (u : Fin a × Fin c → ℝ) (t : ℝ) : Except String (Fin mask.obs.length × Fin c → ℝ) :=
  (concatMask w h mask u v).map fun uv => (unpackMask mask (drift uv t)).2

/-- `jax.vmap` of a function that can raise. -/
def vmapE {α : Type} : {n : ℕ} → (Fin n → Except String α) → Except String (Fin n → α)
  | 0, _ => .ok Fin.elim0
  | _ + 1, f => do
    let a ← f 0
    let as ← vmapE fun i => f i.succ
    pure (Fin.cons a as)

/-- `/repo/experiments/imgs/inpainting.py:122-128` `transition_sampler`; `drift` is `reverse_drift` (lines 102-103), `disp`
is `reverse_dispersion` (lines 118-119). -/
noncomputable def transitionSampler (mask : Mask) (drift : (Fin (w * h) × Fin c → ℝ) → ℝ → (Fin (w * h) × Fin c → ℝ))
    (disp : ℝ → ℝ) (dt : ℝ) (us : Fin N → Fin mask.unobs.length × Fin c → ℝ) (v : Fin mask.obs.length × Fin c → ℝ)
    (t : ℝ) (key : Key) : Rand (Except String (Fin N → Fin mask.unobs.length × Fin c → ℝ)) := do
  let z ← normal key (Fin N × Fin mask.unobs.length × Fin c)
  pure ((vmapE fun j => reverseDriftU mask drift (us j) v t).map fun ds j i =>
    us j i + ds j i * dt + Real.sqrt dt * disp t * z (j, i))

/-- `/repo/experiments/imgs/inpainting.py:131-138` `transition_logpdf`. -/
noncomputable def transitionLogpdf (mask : Mask) (drift : (Fin (w * h) × Fin c → ℝ) → ℝ → (Fin (w * h) × Fin c → ℝ))
    (disp : ℝ → ℝ) (dt : ℝ) (u : Fin mask.unobs.length × Fin c → ℝ) (us : Fin N → Fin mask.unobs.length × Fin c → ℝ)
    (v : Fin mask.obs.length × Fin c → ℝ) (t : ℝ) : Except String (Fin N → ℝ) :=
  (vmapE fun j => reverseDriftU mask drift (us j) v t).map fun ds j =>
    ∑ i, Linear.normLogpdf (u i) (us j i + ds j i * dt) (Real.sqrt dt * disp t)

/-- `/repo/experiments/imgs/inpainting.py:141-147` `likelihood_logpdf`. -/
noncomputable def likelihoodLogpdf (mask : Mask) (drift : (Fin (w * h) × Fin c → ℝ) → ℝ → (Fin (w * h) × Fin c → ℝ))
    (disp : ℝ → ℝ) (dt : ℝ) (v : Fin mask.obs.length × Fin c → ℝ) (us : Fin N → Fin mask.unobs.length × Fin c → ℝ)
    (vPrev : Fin mask.obs.length × Fin c → ℝ) (t : ℝ) : Except String (Fin N → ℝ) :=
  (vmapE fun j => reverseDriftV mask drift vPrev (us j) t).map fun ds j =>
    ∑ i, Linear.normLogpdf (v i) (vPrev i + ds j i * dt) (Real.sqrt dt * disp t)

/-- `/repo/experiments/imgs/inpainting.py:102-103` `reverse_drift`: `score` is `nn_score(·, ·, param)`. -/
noncomputable def reverseDrift {Z : Type} (sde : Linear.SDE) (T : ℝ) (score : (Z → ℝ) → ℝ → (Z → ℝ)) (uv : Z → ℝ)
    (t : ℝ) : Z → ℝ :=
  fun z => -Linear.drift sde (uv z) (T - t) + Linear.dispersion sde (T - t) ^ 2 * score uv (T - t) z

/-- `/repo/experiments/imgs/inpainting.py:160-161` `ref_sampler`. -/
noncomputable def refSampler {a : ℕ} {V : Type} (key : Key) (_ : V) (_ : ℕ) : Rand (Fin N → Fin a × Fin c → ℝ) :=
  (fun z j i => z (j, i)) <$> normal key (Fin N × Fin a × Fin c)

end ImgSamplers
end Fbs
