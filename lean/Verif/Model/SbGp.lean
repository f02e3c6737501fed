import Verif.Model.Gp
import Verif.Model.Chains

/-!
# The Gaussian Schrödinger bridge experiments

`experiments/sb/filter.py` and `gibbs.py`; line numbers refer to `filter.py` unless another file is named.  The
regression, the reference sampler and the particle functions are those of `Verif.Model.Gp` and `Verif.Model.Toy`.
-/

namespace Fbs
namespace SbGp

open Jax Toy Utils Matrix

variable {ι κ ζ : Type} [Fintype ζ]

/-- `/repo/experiments/sb/filter.py:62-64` `ref_cov` and `/repo/experiments/sb/gibbs.py:64-66`; the argument is
`subkey`. -/
noncomputable def refCov (subkey : Key) : Rand (Matrix ζ ζ ℝ) := do
  let z ← normal subkey (ζ × ζ)
  let a : Matrix ζ ζ ℝ := Matrix.of fun i j => z (i, j)
  pure (a * aᵀ)

section Bridge

variable [DecidableEq ζ]

/-- `/repo/experiments/sb/filter.py:73`: the bridge between the law of the pair (latent function, data) and the
reference law, whose mean is `jnp.ones((2 * d,))` (`:61`). -/
noncomputable def bridge [Fintype ι] [DecidableEq ι] (eigh : Matrix ζ ζ ℝ → (ζ → ℝ) × Matrix ζ ζ ℝ)
    (choFactor : Matrix ζ ζ ℝ → Matrix ζ ζ ℝ) (e : ι ⊕ ι ≃ ζ) (covMat : Matrix ι ι ℝ) (obsVar : ℝ)
    (covRef : Matrix ζ ζ ℝ) : GaussSB ζ :=
  makeGaussianBwSb eigh choFactor 0 (Gp.jointCov e covMat obsVar) (fun _ => 1) covRef 1

/-- `/repo/experiments/sb/filter.py:76-77` `dispersion`. -/
def dispersion (_ : ℝ) : ℝ := 1

/-- `/repo/experiments/sb/filter.py:80-83` `score`. -/
noncomputable def score (choFactor : Matrix ζ ζ ℝ → Matrix ζ ζ ℝ) (sb : GaussSB ζ) (z : ζ → ℝ) (t : ℝ) : ζ → ℝ :=
  -choSolveVec (choFactor (sb.cov t)) (z - sb.mean t)

/-- `/repo/experiments/sb/filter.py:87-88` `reverse_drift`; `T = 1` (`:68`). -/
noncomputable def reverseDrift (choFactor : Matrix ζ ζ ℝ → Matrix ζ ζ ℝ) (sb : GaussSB ζ) (uv : ζ → ℝ) (t : ℝ) :
    ζ → ℝ := fun k =>
  -sb.drift uv (1 - t) k + dispersion (1 - t) ^ 2 * score choFactor sb uv (1 - t) k

/-- `/repo/experiments/sb/filter.py:101-102` `reverse_dispersion`. -/
def reverseDispersion (t : ℝ) : ℝ := dispersion (1 - t)

end Bridge

/-- `/repo/experiments/sb/gibbs.py:141-143` `fwd_sampler`. -/
noncomputable def fwdSampler (e : ι ⊕ κ ≃ ζ) (sb : GaussSB ζ) (ts : Arr1 ℝ) (key : Key) (x0 : ι → ℝ) (y0 : κ → ℝ) :
    Rand (Arr1 (ζ → ℝ)) :=
  Simulators.eulerPath key (concat e x0 y0) ts sb.drift dispersion 10

variable [Fintype ι]

/-- `/repo/experiments/sb/filter.py:134-138` `fwd_ys_sampler_proper`; `gp_posterior_sampler` draws with mean `m` and
covariance `cov`. -/
noncomputable def fwdYsProper (cholesky : Matrix ι ι ℝ → Matrix ι ι ℝ) (m : ι → ℝ) (cov : Matrix ι ι ℝ) (e : ι ⊕ κ ≃ ζ)
    (sb : GaussSB ζ) (ts : Arr1 ℝ) (y0 : κ → ℝ) (key : Key) : Rand (Arr1 (κ → ℝ)) := do
  let x0 ← Gp.rowSampler cholesky m cov (split key 2 0)
  let path ← fwdSampler e sb ts (split key 2 1) x0 y0
  pure (path.map (unpackV e))

/-- `/repo/experiments/sb/filter.py:141-145` and `/repo/experiments/sb/gibbs.py:146-150` `fwd_ys_sampler_heuristic`. -/
noncomputable def fwdYsHeuristic (e : ι ⊕ κ ≃ ζ) (sb : GaussSB ζ) (ts : Arr1 ℝ) (y0 : κ → ℝ) (key : Key) :
    Rand (Arr1 (κ → ℝ)) := do
  let x0 ← normal (split key 2 0) ι
  let path ← fwdSampler e sb ts (split key 2 1) x0 y0
  pure (path.map (unpackV e))

/-- `/repo/experiments/sb/filter.py:148-161` `conditional_sampler` with the option `args.x0`. -/
noncomputable def conditionalSampler {U : Type} {N : ℕ} [NeZero N] (mf : Smc.Funs N U (κ → ℝ))
    (cholesky : Matrix ι ι ℝ → Matrix ι ι ℝ)
    (m : ι → ℝ) (cov : Matrix ι ι ℝ) (e : ι ⊕ κ ≃ ζ) (sb : GaussSB ζ) (ts : Arr1 ℝ) (y0 : κ → ℝ) (x0 : String) (key : Key) :
    Rand (Except String U) :=
  if x0 = "proper" then Except.ok <$> Chains.filterSampler mf (fwdYsProper cholesky m cov e sb ts y0) ts key
  else if x0 = "heuristic" then Except.ok <$> Chains.filterSampler mf (fwdYsHeuristic e sb ts y0) ts key
  else pure (.error "ValueError")

end SbGp
end Fbs
