import Verif.Model.Gp

/-!
# The conditional score-based generative models of the experiments

`experiments/toy/gp_csgm.py`, `experiments/imgs/inpainting_csgm.py` and `supr_csgm.py`.  `choFactor` is
`jax.scipy.linalg.cho_factor` and `cholesky` is `jnp.linalg.cholesky`, both parameters; `m` is `joint_mean[:d]`, `K` is
`cov_mat`, `s` is `obs_var` and `t0` is `ts[0]`.
-/

namespace Fbs
namespace Csgm

open Jax Toy Utils Matrix

variable {ι κ ζ : Type}

/-- `jax.scipy.stats.multivariate_normal.logpdf(x, mean, cov)` (trusted transcription of
`jax/_src/scipy/stats/multivariate_normal.py`). -/
noncomputable def mvnLogpdf [Fintype ι] [DecidableEq ι] (cholesky : Matrix ι ι ℝ → Matrix ι ι ℝ) (x mean : ι → ℝ)
    (cov : Matrix ι ι ℝ) : ℝ :=
  let L := cholesky cov
  let y := L⁻¹ *ᵥ (x - mean);
  -1 / 2 * (y ⬝ᵥ y) - Fintype.card ι / 2 * Real.log (2 * Real.pi) - ∑ i, Real.log (L i i)

section Toy

variable [Fintype ι] [DecidableEq ι]

/-- `/repo/experiments/toy/gp_csgm.py:69-70` `cond_m_ref`. -/
noncomputable def condMRef (choFactor : Matrix ι ι ℝ → Matrix ι ι ℝ) (sde : Linear.SDE) (t0 T : ℝ) (m : ι → ℝ)
    (K : Matrix ι ι ℝ) (s : ℝ) (y0 : ι → ℝ) : ι → ℝ :=
  let FQ := Linear.discretise sde T t0
  FQ.1 • m + (FQ.1 • K) *ᵥ choSolveVec (choFactor (K + s • 1)) (y0 - m)

/-- `/repo/experiments/toy/gp_csgm.py:71-72` `cond_cov_ref`. -/
noncomputable def condCovRef (choFactor : Matrix ι ι ℝ → Matrix ι ι ℝ) (sde : Linear.SDE) (t0 T : ℝ)
    (K : Matrix ι ι ℝ) (s : ℝ) : Matrix ι ι ℝ :=
  let FQ := Linear.discretise sde T t0
  FQ.1 ^ 2 • K + FQ.2 • 1 - (FQ.1 • K) * choSolve (choFactor (K + s • 1)) (FQ.1 • K)

/-- `/repo/experiments/toy/gp_csgm.py:75-76` `cond_ref_sampler`. -/
noncomputable def condRefSampler (mRef : ι → ℝ) (covRef : Matrix ι ι ℝ) (key : Key) : Rand (ι → ℝ) := do
  let z ← normal key ι
  pure (mRef + covRef *ᵥ z)

/-- `/repo/experiments/toy/gp_csgm.py:86-89` `cond_logpdf`. -/
noncomputable def condLogpdf (choFactor cholesky : Matrix ι ι ℝ → Matrix ι ι ℝ) (F Q : ℝ) (m : ι → ℝ)
    (K : Matrix ι ι ℝ) (s : ℝ) (y0 x : ι → ℝ) : ℝ :=
  let chol := choFactor (F ^ 2 • K + Q • 1)
  let condM := m + (F • K) *ᵥ choSolveVec chol (x - F • m)
  let condCov := K + s • 1 - (F • K) * choSolve chol (F • K)
  mvnLogpdf cholesky y0 condM condCov

/-- `/repo/experiments/toy/gp_csgm.py:80-91` `reverse_drift`. -/
noncomputable def reverseDrift (choFactor cholesky : Matrix ι ι ℝ → Matrix ι ι ℝ) (sde : Linear.SDE) (t0 T : ℝ)
    (m : ι → ℝ) (K : Matrix ι ι ℝ) (s : ℝ) (y0 u : ι → ℝ) (t : ℝ) : ι → ℝ :=
  let FQ := Linear.discretise sde (T - t) t0
  let chol := choFactor (FQ.1 ^ 2 • K + FQ.2 • 1)
  let scoreX := -choSolveVec chol (u - FQ.1 • m)
  fun i => -Linear.drift sde (u i) (T - t) + Linear.dispersion sde (T - t) ^ 2 *
    (scoreX i + Linear.grad (condLogpdf choFactor cholesky FQ.1 FQ.2 m K s y0) u i)

/-- `/repo/experiments/toy/gp_csgm.py:102-107` `conditional_sampler`. -/
noncomputable def conditionalSampler (choFactor cholesky : Matrix ι ι ℝ → Matrix ι ι ℝ) (sde : Linear.SDE) (t0 T : ℝ)
    (m : ι → ℝ) (K : Matrix ι ι ℝ) (s : ℝ) (y0 : ι → ℝ) (ts : Arr1 ℝ) (key : Key) : Rand (ι → ℝ) := do
  let u0 ← condRefSampler (condMRef choFactor sde t0 T m K s y0) (condCovRef choFactor sde t0 T K s) (split key 2 0)
  Simulators.eulerLast (split key 2 1) u0 ts (reverseDrift choFactor cholesky sde t0 T m K s y0)
    (Gp.reverseDispersion sde T) 1

end Toy

section Images

variable [Fintype ι] [Fintype κ]

/-- `/repo/experiments/imgs/inpainting_csgm.py:87-91` `reverse_drift`; `e` says which pixels are observed. -/
noncomputable def imgDrift (e : ι ⊕ κ ≃ ζ) (sde : Linear.SDE) (t0 T : ℝ) (nnScore : (ζ → ℝ) → ℝ → (ζ → ℝ))
    (u : ι → ℝ) (t : ℝ) (key : Key) (y0 : κ → ℝ) : Rand (ι → ℝ) := do
  let FQ := Linear.discretise sde (T - t) t0
  let z ← normal key κ
  let vHat := fun i => FQ.1 * y0 i + Real.sqrt FQ.2 * z i
  let uv := concat e u vHat
  pure fun i => -Linear.drift sde (u i) (T - t) + Linear.dispersion sde (T - t) ^ 2 * unpackU e (nnScore uv (T - t)) i

/-- `/repo/experiments/imgs/inpainting_csgm.py:103-108` `scan_body`. -/
noncomputable def imgBody (e : ι ⊕ κ ≃ ζ) (sde : Linear.SDE) (t0 T dt : ℝ) (nnScore : (ζ → ℝ) → ℝ → (ζ → ℝ))
    (y0 : κ → ℝ) (u : ι → ℝ) (elem : (ι → ℝ) × ℝ × Key) : Rand ((ι → ℝ) × Unit) := do
  let (rnd, t, keyDrift) := elem
  let D ← imgDrift e sde t0 T nnScore u t keyDrift y0
  pure (fun i => u i + D i * dt + Linear.dispersion sde (T - t) * Real.sqrt dt * rnd i, ())

/-- `/repo/experiments/imgs/inpainting_csgm.py:102-113` `euler_maruyama`; `nsteps` is the number of intervals. -/
noncomputable def imgEuler (e : ι ⊕ κ ≃ ζ) (sde : Linear.SDE) (t0 T dt : ℝ) (nnScore : (ζ → ℝ) → ℝ → (ζ → ℝ))
    (ts : Arr1 ℝ) (key : Key) (u0 : ι → ℝ) (y0 : κ → ℝ) : Rand (ι → ℝ) := do
  let keyScan := split key 2 0
  let keyEst := split key 2 1
  let nsteps := ts.2.length
  let keyEsts := splitAll keyEst nsteps
  let rnds ← normalRows keyScan nsteps ι
  let r ← Rand.scan (imgBody e sde t0 T dt nnScore y0) u0 (rnds.zip (ts.init.zip keyEsts))
  pure r.1

/-- `/repo/experiments/imgs/inpainting_csgm.py:116-121` `conditional_sampler`, with `cond_ref_sampler` (`:98-99`). -/
noncomputable def imgConditional (e : ι ⊕ κ ≃ ζ) (sde : Linear.SDE) (t0 T dt : ℝ) (nnScore : (ζ → ℝ) → ℝ → (ζ → ℝ))
    (ts : Arr1 ℝ) (key : Key) (y : κ → ℝ) : Rand (ι → ℝ) := do
  let u0 ← normal (split key 2 0) ι
  imgEuler e sde t0 T dt nnScore ts (split key 2 1) u0 y

end Images

end Csgm
end Fbs
