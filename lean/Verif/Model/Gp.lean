import Verif.Model.Toy

/-!
# The Gaussian process regression experiments

`experiments/toy/gp_gibbs.py`, `gp_filter.py`, `gp_pmcmc.py`, `gp_kf.py`, `gp_csgm.py`, `gp_twisted.py` and
`experiments/sb/gibbs.py`, `filter.py`; line numbers refer to `gp_gibbs.py` unless another file is named.  The entries
of the latent function, of the data and of the pair are indexed by `ι`, `κ` and `ζ` as in `Verif.Model.Toy`.
`choFactor` is `jax.scipy.linalg.cho_factor` and `cholesky` is `jnp.linalg.cholesky`, both parameters.
-/

namespace Fbs
namespace Gp

open Jax Toy Utils Matrix

variable {ι κ ζ : Type} {N : ℕ}

/-- `/repo/experiments/toy/gp_gibbs.py:39-40` `cov_fn`: entry `(i, j)` compares `z2[i]` with `z1[j]`. -/
noncomputable def covFn {m n : Type} (sigma ell : ℝ) (z1 : n → ℝ) (z2 : m → ℝ) : Matrix m n ℝ :=
  Matrix.of fun i j => sigma ^ 2 * Real.exp (-|z1 j - z2 i| / ell)

/-- `/repo/experiments/toy/gp_gibbs.py:44-47`: the pair `(fs, y0)`. -/
noncomputable def genData [Fintype ι] (cholesky : Matrix ι ι ℝ → Matrix ι ι ℝ) (covMat : Matrix ι ι ℝ) (obsVar : ℝ)
    (key : Key) : Rand ((ι → ℝ) × (ι → ℝ)) := do
  let subkey := split key 2 1
  let key := split key 2 0
  let z ← normal subkey ι
  let fs := cholesky covMat *ᵥ z
  let subkey := split key 2 1
  let w ← normal subkey ι
  pure (fs, fun i => fs i + Real.sqrt obsVar * w i)

section Regression

variable [Fintype ι] [DecidableEq ι]

/-- `/repo/experiments/toy/gp_gibbs.py:51-52` `gp_mean`. -/
noncomputable def gpMean (choFactor : Matrix ι ι ℝ → Matrix ι ι ℝ) (covMat : Matrix ι ι ℝ) (obsVar : ℝ)
    (y0 : ι → ℝ) : ι → ℝ :=
  covMat *ᵥ choSolveVec (choFactor (covMat + obsVar • 1)) y0

/-- `/repo/experiments/toy/gp_gibbs.py:51-53` `gp_cov`. -/
noncomputable def gpCov (choFactor : Matrix ι ι ℝ → Matrix ι ι ℝ) (covMat : Matrix ι ι ℝ) (obsVar : ℝ) : Matrix ι ι ℝ :=
  covMat - covMat * choSolve (choFactor (covMat + obsVar • 1)) covMat

/-- `/repo/experiments/toy/gp_gibbs.py:56-58` `joint_cov`; `e` places the entries. -/
def jointCov (e : ι ⊕ ι ≃ ζ) (covMat : Matrix ι ι ℝ) (obsVar : ℝ) : Matrix ζ ζ ℝ :=
  (fromBlocks covMat covMat covMat (covMat + obsVar • 1)).submatrix e.symm e.symm

end Regression

section Noising

variable [Fintype ζ] [DecidableEq ζ]

/-- `/repo/experiments/toy/gp_gibbs.py:73-75` `forward_m_cov(t)`; `t0` is `ts[0]`. -/
noncomputable def forwardMCov (sde : Linear.SDE) (t0 : ℝ) (jointMean : ζ → ℝ) (jointCov : Matrix ζ ζ ℝ) (t : ℝ) :
    (ζ → ℝ) × Matrix ζ ζ ℝ :=
  let FQ := Linear.discretise sde t t0
  (FQ.1 • jointMean, FQ.1 ^ 2 • jointCov + FQ.2 • 1)

/-- `/repo/experiments/toy/gp_gibbs.py:78-81` `score(z, t)`. -/
noncomputable def score (choFactor : Matrix ζ ζ ℝ → Matrix ζ ζ ℝ) (sde : Linear.SDE) (t0 : ℝ) (jointMean : ζ → ℝ)
    (jointCov : Matrix ζ ζ ℝ) (z : ζ → ℝ) (t : ℝ) : ζ → ℝ :=
  let mc := forwardMCov sde t0 jointMean jointCov t;
  -choSolveVec (choFactor mc.2) (z - mc.1)

/-- `/repo/experiments/toy/gp_gibbs.py:94-95` `reverse_drift(uv, t)`. -/
noncomputable def reverseDrift (choFactor : Matrix ζ ζ ℝ → Matrix ζ ζ ℝ) (sde : Linear.SDE) (t0 T : ℝ)
    (jointMean : ζ → ℝ) (jointCov : Matrix ζ ζ ℝ) (uv : ζ → ℝ) (t : ℝ) : ζ → ℝ := fun k =>
  -Linear.drift sde (uv k) (T - t) + Linear.dispersion sde (T - t) ^ 2 *
    score choFactor sde t0 jointMean jointCov uv (T - t) k

/-- `/repo/experiments/toy/gp_gibbs.py:108-109` `reverse_dispersion(t)`. -/
noncomputable def reverseDispersion (sde : Linear.SDE) (T t : ℝ) : ℝ := Linear.dispersion sde (T - t)

end Noising

section Reference

/-- `cov_ref[:d, :d]`, `/repo/experiments/toy/gp_gibbs.py:140`. -/
def blockUU (e : ι ⊕ κ ≃ ζ) (C : Matrix ζ ζ ℝ) : Matrix ι ι ℝ := C.submatrix (e ∘ Sum.inl) (e ∘ Sum.inl)

/-- `cov_ref[:d, d:]`, `/repo/experiments/toy/gp_gibbs.py:139`. -/
def blockUV (e : ι ⊕ κ ≃ ζ) (C : Matrix ζ ζ ℝ) : Matrix ι κ ℝ := C.submatrix (e ∘ Sum.inl) (e ∘ Sum.inr)

/-- `cov_ref[d:, :d]`, `/repo/experiments/toy/gp_gibbs.py:140`. -/
def blockVU (e : ι ⊕ κ ≃ ζ) (C : Matrix ζ ζ ℝ) : Matrix κ ι ℝ := C.submatrix (e ∘ Sum.inr) (e ∘ Sum.inl)

/-- `cov_ref[d:, d:]`, `/repo/experiments/toy/gp_gibbs.py:86`. -/
def blockVV (e : ι ⊕ κ ≃ ζ) (C : Matrix ζ ζ ℝ) : Matrix κ κ ℝ := C.submatrix (e ∘ Sum.inr) (e ∘ Sum.inr)

variable [Fintype κ] [DecidableEq κ]

/-- `m_`, `/repo/experiments/toy/gp_gibbs.py:139`; `choFactor` of `cov_ref[d:, d:]` is `chol_ref`, `:86`. -/
noncomputable def refMean (choFactor : Matrix κ κ ℝ → Matrix κ κ ℝ) (e : ι ⊕ κ ≃ ζ) (mRef : ζ → ℝ)
    (covRef : Matrix ζ ζ ℝ) (yT : κ → ℝ) : ι → ℝ :=
  unpackU e mRef + blockUV e covRef *ᵥ choSolveVec (choFactor (blockVV e covRef)) (yT - unpackV e mRef)

/-- `cov_`, `/repo/experiments/toy/gp_gibbs.py:140`. -/
noncomputable def refCov (choFactor : Matrix κ κ ℝ → Matrix κ κ ℝ) (e : ι ⊕ κ ≃ ζ) (covRef : Matrix ζ ζ ℝ) : Matrix ι ι ℝ :=
  blockUU e covRef - blockUV e covRef * choSolve (choFactor (blockVV e covRef)) (blockVU e covRef)

variable [Fintype ι]

/-- `/repo/experiments/toy/gp_gibbs.py:138-141` `ref_sampler`; `nsamples_` is the number `N` of particles. -/
noncomputable def refSampler (choFactor : Matrix κ κ ℝ → Matrix κ κ ℝ) (cholesky : Matrix ι ι ℝ → Matrix ι ι ℝ)
    (e : ι ⊕ κ ≃ ζ) (mRef : ζ → ℝ) (covRef : Matrix ζ ζ ℝ) (key : Key) (yT : κ → ℝ) (_nsamples : ℕ) :
    Rand (Fin N → ι → ℝ) := do
  let m := refMean choFactor e mRef covRef yT
  let cov := refCov choFactor e covRef
  let z ← normal key (Fin N × ι)
  pure fun j => m + (fun i => z (j, i)) ᵥ* cholesky cov

/-- `/repo/experiments/sb/gibbs.py:53-54` `gp_posterior_sampler` and the last line of
`/repo/experiments/toy/gp_kf.py:150-156` `conditional_sampler`: one draw with mean `m` and covariance `cov`. -/
noncomputable def rowSampler (cholesky : Matrix ι ι ℝ → Matrix ι ι ℝ) (m : ι → ℝ) (cov : Matrix ι ι ℝ) (key : Key) :
    Rand (ι → ℝ) := do
  let z ← normal key ι
  pure (m + z ᵥ* cholesky cov)

/-- `/repo/experiments/toy/gp_twisted.py:107-110` `init_sampler`. -/
noncomputable def initSampler (cholesky : Matrix ι ι ℝ → Matrix ι ι ℝ) (mRef : ι → ℝ) (covRef : Matrix ι ι ℝ)
    (key : Key) (_nsamples : ℕ) : Rand (Fin N → ι → ℝ) := do
  let z ← normal key (Fin N × ι)
  pure fun j => mRef + cholesky covRef *ᵥ fun i => z (j, i)

end Reference

end Gp
end Fbs
