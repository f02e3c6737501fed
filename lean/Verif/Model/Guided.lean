import Verif.Model.Gp

/-!
# The twisted diffusion samplers of the experiments

`experiments/toy/gp_twisted.py`, `experiments/imgs/inpainting_twisted.py` and `supr_twisted.py`; line numbers refer to
`gp_twisted.py` unless another file is named.  The three files define the same functions from a score (`score`, or
`nn_score` with its trained parameter) and from a twisting function.  The entries of the state and of the observation
are indexed by `ζ` and `κ`.
-/

namespace Fbs
namespace Guided

open Jax

variable {ζ κ : Type} {N : ℕ}

/-- `/repo/experiments/toy/gp_twisted.py:82-83` and `/repo/experiments/imgs/inpainting_twisted.py:97-98`
`reverse_drift`. -/
noncomputable def reverseDrift (sde : Linear.SDE) (T : ℝ) (score : (ζ → ℝ) → ℝ → (ζ → ℝ)) (u : ζ → ℝ) (t : ℝ) : ζ → ℝ :=
  fun k => -Linear.drift sde (u k) (T - t) + Linear.dispersion sde (T - t) ^ 2 * score u (T - t) k

/-- `/repo/experiments/toy/gp_twisted.py:91-92` `reverse_dispersion`. -/
noncomputable def reverseDispersion (sde : Linear.SDE) (T t : ℝ) : ℝ := Linear.dispersion sde (T - t)

/-- `denoising_estimate`, `/repo/experiments/toy/gp_twisted.py:114`. -/
def denoise (drift : (ζ → ℝ) → ℝ → (ζ → ℝ)) (dt : ℝ) (u : ζ → ℝ) (t : ℝ) : ζ → ℝ := fun k => u k + drift u t k * dt

/-- `/repo/experiments/toy/gp_twisted.py:113-115` `twisting_logpdf`, where `obs` is the identity and `sd` is
`sqrt(obs_var)`; `/repo/experiments/imgs/inpainting_twisted.py:121-125`, where `obs` is the second part of `unpack`. -/
noncomputable def twistingLogpdf [Fintype κ] (obs : (ζ → ℝ) → κ → ℝ) (drift : (ζ → ℝ) → ℝ → (ζ → ℝ)) (dt : ℝ)
    (sd : ℝ → ℝ) (y : κ → ℝ) (u : ζ → ℝ) (t : ℝ) : ℝ :=
  ∑ i, Linear.normLogpdf (y i) (obs (denoise drift dt u t) i) (sd t)

/-- The standard deviation in `/repo/experiments/imgs/inpainting_twisted.py:124-125`; `v` is `data_variance`, `t0` is
`ts[0]`. -/
noncomputable def imgSd (sde : Linear.SDE) (t0 T v t : ℝ) : ℝ :=
  let FQ := Linear.discretise sde (T - t) t0
  Real.sqrt (FQ.1 ^ 2 * v + FQ.2)

/-- `/repo/experiments/toy/gp_twisted.py:86-88` `reverse_cond_drift`; `twist` is `twisting_logpdf`. -/
noncomputable def reverseCondDrift [DecidableEq ζ] (sde : Linear.SDE) (T : ℝ) (score : (ζ → ℝ) → ℝ → (ζ → ℝ))
    (twist : (κ → ℝ) → (ζ → ℝ) → ℝ → ℝ) (u : ζ → ℝ) (t : ℝ) (y : κ → ℝ) : ζ → ℝ := fun k =>
  -Linear.drift sde (u k) (T - t) + Linear.dispersion sde (T - t) ^ 2 *
    (score u (T - t) k + Linear.grad (fun u => twist y u t) u k)

variable [Fintype ζ]

/-- `/repo/experiments/toy/gp_twisted.py:100-104` `transition_logpdf`. -/
noncomputable def transitionLogpdf (drift : (ζ → ℝ) → ℝ → (ζ → ℝ)) (disp : ℝ → ℝ) (dt : ℝ) (us usPrev : Fin N → ζ → ℝ)
    (t : ℝ) : Fin N → ℝ := fun j =>
  ∑ k, Linear.normLogpdf (us j k) (usPrev j k + drift (usPrev j) t k * dt) (Real.sqrt dt * disp t)

/-- `/repo/experiments/toy/gp_twisted.py:121-123` `twisting_prop_sampler`. -/
noncomputable def propSampler (condDrift : (ζ → ℝ) → ℝ → (κ → ℝ) → (ζ → ℝ)) (disp : ℝ → ℝ) (dt : ℝ) (key : Key)
    (us : Fin N → ζ → ℝ) (t : ℝ) (y : κ → ℝ) : Rand (Fin N → ζ → ℝ) := do
  let m := fun j k => us j k + condDrift (us j) t y k * dt
  let z ← normal key (Fin N × ζ)
  pure fun j k => m j k + Real.sqrt dt * disp t * z (j, k)

/-- `/repo/experiments/toy/gp_twisted.py:126-129` `twisting_prop_logpdf`. -/
noncomputable def propLogpdf (condDrift : (ζ → ℝ) → ℝ → (κ → ℝ) → (ζ → ℝ)) (disp : ℝ → ℝ) (dt : ℝ)
    (us usPrev : Fin N → ζ → ℝ) (t : ℝ) (y : κ → ℝ) : Fin N → ℝ := fun j =>
  let m := fun k => usPrev j k + condDrift (usPrev j) t y k * dt
  ∑ k, Linear.normLogpdf (us j k) (m k) (Real.sqrt dt * disp t)

/-- `/repo/experiments/imgs/inpainting_twisted.py:117-118` `init_sampler`. -/
noncomputable def imgInit (key : Key) (_nparticles : ℕ) : Rand (Fin N → ζ → ℝ) := do
  let z ← normal key (Fin N × ζ)
  pure fun j k => z (j, k)

/-- The functions handed to `twisted_smc`, `/repo/experiments/toy/gp_twisted.py:136-139`; `twist` is mapped over the
particles, `:118`. -/
noncomputable def funs (initSampler : Key → ℕ → Rand (Fin N → ζ → ℝ)) (drift : (ζ → ℝ) → ℝ → (ζ → ℝ))
    (condDrift : (ζ → ℝ) → ℝ → (κ → ℝ) → (ζ → ℝ)) (twist : (κ → ℝ) → (ζ → ℝ) → ℝ → ℝ) (disp : ℝ → ℝ) (dt : ℝ) :
    Smc.TwistedFuns N (ζ → ℝ) (κ → ℝ) :=
  ⟨initSampler, transitionLogpdf drift disp dt, fun y us t j => twist y (us j) t, propSampler condDrift disp dt,
    propLogpdf condDrift disp dt⟩

/-- `/repo/experiments/toy/gp_twisted.py:133-140` `conditional_sampler`. -/
noncomputable def conditionalSampler [NeZero N] (m : Smc.TwistedFuns N (ζ → ℝ) (κ → ℝ)) (res : Smc.Resampling N)
    (y0 : κ → ℝ) (ts : Arr1 ℝ) (key : Key) : Rand (ζ → ℝ) := do
  let keyFilter := split key 2 0
  let keySelect := split key 2 1
  let r ← Smc.twistedSmc m res keyFilter y0 ts
  let i ← choice keySelect fun i => Real.exp (r.2 i)
  pure (r.1 i)

end Guided
end Fbs
