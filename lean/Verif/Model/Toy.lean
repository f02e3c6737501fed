import Verif.Model.Linear
import Verif.Model.Simulators
import Verif.Model.Smc
import Verif.Model.Csmc
import Verif.Model.Utils

/-!
# The conditional samplers of the experiment scripts

`experiments/toy/gp_gibbs.py`, `gp_filter.py`, `gp_pmcmc.py` and `experiments/sb/gibbs.py`, `filter.py` define the
same functions of a reverse process on pairs `(u, v)`; line numbers below refer to `gp_gibbs.py` unless another file
is named. The entries of `u`, `v` and of the pair are indexed by `ι`, `κ` and `ζ`, and `e : ι ⊕ κ ≃ ζ` says where
`concatenate` puts the entries (`finSumFinEquiv` for `jnp.concatenate([u, v])`; in `experiments/imgs/inpainting.py`
and `supr.py` the positions are given by the mask).
-/

namespace Fbs
namespace Toy

open Jax

variable {ι κ ζ : Type} {N : ℕ}

/-- `jnp.concatenate([u, v])`, `/repo/experiments/toy/gp_gibbs.py:99`, `:104`. -/
def concat (e : ι ⊕ κ ≃ ζ) (u : ι → ℝ) (v : κ → ℝ) : ζ → ℝ := fun z => Sum.elim u v (e.symm z)

/-- `xy[..., :d]`, `/repo/experiments/toy/gp_gibbs.py:89-90` `unpack`. -/
def unpackU (e : ι ⊕ κ ≃ ζ) (xy : ζ → ℝ) : ι → ℝ := fun i => xy (e (Sum.inl i))

/-- `xy[..., d:]`, `/repo/experiments/toy/gp_gibbs.py:89-90` `unpack`. -/
def unpackV (e : ι ⊕ κ ≃ ζ) (xy : ζ → ℝ) : κ → ℝ := fun i => xy (e (Sum.inr i))

/-- `/repo/experiments/toy/gp_gibbs.py:98-100` `reverse_drift_u`. -/
def driftU (e : ι ⊕ κ ≃ ζ) (drift : (ζ → ℝ) → ℝ → (ζ → ℝ)) (u : ι → ℝ) (v : κ → ℝ) (t : ℝ) : ι → ℝ :=
  unpackU e (drift (concat e u v) t)

/-- `/repo/experiments/toy/gp_gibbs.py:103-105` `reverse_drift_v`. -/
def driftV (e : ι ⊕ κ ≃ ζ) (drift : (ζ → ℝ) → ℝ → (ζ → ℝ)) (v : κ → ℝ) (u : ι → ℝ) (t : ℝ) : κ → ℝ :=
  unpackV e (drift (concat e u v) t)

/-- `/repo/experiments/toy/gp_gibbs.py:120-122` `transition_sampler`; `drift` is `reverse_drift`, `disp` is
`reverse_dispersion`. -/
noncomputable def transitionSampler [Fintype ι] (e : ι ⊕ κ ≃ ζ) (drift : (ζ → ℝ) → ℝ → (ζ → ℝ)) (disp : ℝ → ℝ)
    (dt : ℝ) (us : Fin N → ι → ℝ) (v : κ → ℝ) (t : ℝ) (key : Key) : Rand (Fin N → ι → ℝ) := do
  let z ← normal key (Fin N × ι)
  pure fun j i => us j i + driftU e drift (us j) v t i * dt + Real.sqrt dt * disp t * z (j, i)

/-- `/repo/experiments/toy/gp_gibbs.py:125-129` `transition_logpdf`. -/
noncomputable def transitionLogpdf [Fintype ι] (e : ι ⊕ κ ≃ ζ) (drift : (ζ → ℝ) → ℝ → (ζ → ℝ)) (disp : ℝ → ℝ)
    (dt : ℝ) (u : ι → ℝ) (us : Fin N → ι → ℝ) (v : κ → ℝ) (t : ℝ) : Fin N → ℝ := fun j =>
  ∑ i, Linear.normLogpdf (u i) (us j i + driftU e drift (us j) v t i * dt) (Real.sqrt dt * disp t)

/-- `/repo/experiments/toy/gp_gibbs.py:132-135` `likelihood_logpdf`. -/
noncomputable def likelihoodLogpdf [Fintype κ] (e : ι ⊕ κ ≃ ζ) (drift : (ζ → ℝ) → ℝ → (ζ → ℝ)) (disp : ℝ → ℝ)
    (dt : ℝ) (v : κ → ℝ) (us : Fin N → ι → ℝ) (vPrev : κ → ℝ) (t : ℝ) : Fin N → ℝ := fun j =>
  ∑ i, Linear.normLogpdf (v i) (vPrev i + driftV e drift vPrev (us j) t i * dt) (Real.sqrt dt * disp t)

/-- The functions handed to `bootstrap_filter`, `/repo/experiments/toy/gp_gibbs.py:157-158`. -/
noncomputable def filterFuns [Fintype ι] [Fintype κ] (e : ι ⊕ κ ≃ ζ) (drift : (ζ → ℝ) → ℝ → (ζ → ℝ)) (disp : ℝ → ℝ)
    (dt : ℝ) (refSampler : Key → (κ → ℝ) → ℕ → Rand (Fin N → ι → ℝ)) : Smc.Funs N (ι → ℝ) (κ → ℝ) :=
  ⟨refSampler, transitionSampler e drift disp dt, likelihoodLogpdf e drift disp dt⟩

/-- The functions handed to conditional SMC, with a constant initial log weight `c`:
`/repo/experiments/toy/gp_gibbs.py:167-171` through `/repo/fbs/samplers/gibbs.py:132-144`, where
`init_sampler` repeats the end of the path and `c = -log n`. -/
noncomputable def csmcFuns [Fintype ι] [Fintype κ] (e : ι ⊕ κ ≃ ζ) (drift : (ζ → ℝ) → ℝ → (ζ → ℝ)) (disp : ℝ → ℝ)
    (dt c : ℝ) (initSampler : Key → ℕ → Rand (Fin N → ι → ℝ)) : Csmc.Funs N (ι → ℝ) (κ → ℝ) :=
  ⟨initSampler, fun _ _ _ _ => c, transitionSampler e drift disp dt, transitionLogpdf e drift disp dt,
    likelihoodLogpdf e drift disp dt⟩

end Toy
end Fbs
