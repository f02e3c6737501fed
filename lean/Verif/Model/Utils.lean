import Mathlib.Analysis.Normed.Algebra.MatrixExponential
import Mathlib.LinearAlgebra.Matrix.PosDef
import Mathlib.LinearAlgebra.Matrix.Block
import Mathlib.Analysis.SpecialFunctions.Log.Basic
import Mathlib.Analysis.Real.Sqrt
import Mathlib.Data.Matrix.ColumnRowPartitioned

/-!
# `fbs/utils.py` and `make_gaussian_bw_sb` of `fbs/sdes/linear.py`

Matrices are `Matrix n n ℝ` for an arbitrary finite index type.  The factorisations of `jnp.linalg`/`jax.scipy.linalg`
are parameters of the model; the theorems assume only their documented defining equations (`Spec.IsEigh`,
`Spec.IsChol`).  `expm` is the exponential series.
-/

open Matrix

namespace Fbs
namespace Utils

variable {n : Type} [Fintype n] [DecidableEq n]

/-- `/repo/fbs/utils.py:7-18` `discretise_lti_sde`; `jnp.vstack`/`jnp.hstack` of blocks is `fromBlocks`, and
`AB[0:d, :]` is the upper block of `expm(phi * dt) @ vstack([0, eye])`. -/
noncomputable def discretiseLtiSde (A gamma : Matrix n n ℝ) (dt : ℝ) : Matrix n n ℝ × Matrix n n ℝ :=
  let F := NormedSpace.exp (dt • A)
  let phi := fromBlocks A gamma 0 (-Aᵀ)
  let AB : Matrix (n ⊕ n) n ℝ := NormedSpace.exp (dt • phi) * fromRows 0 1
  let cov := AB.toRows₁ * Fᵀ
  (F, cov)

/-- `/repo/fbs/utils.py:21-28` `sqrtm(mat, method='eigh')`; `eigh` returns eigenvalues and eigenvectors. -/
noncomputable def sqrtm (eigh : Matrix n n ℝ → (n → ℝ) × Matrix n n ℝ) (mat : Matrix n n ℝ) : Matrix n n ℝ :=
  let (eigenvals, eigenvecs) := eigh mat
  eigenvecs * diagonal (fun i => Real.sqrt (eigenvals i)) * eigenvecsᵀ

/-- `/repo/fbs/utils.py:31-36` `bures_dist`. -/
noncomputable def buresDist (eigh : Matrix n n ℝ → (n → ℝ) × Matrix n n ℝ) (m0 : n → ℝ) (cov0 : Matrix n n ℝ)
    (m1 : n → ℝ) (cov1 : Matrix n n ℝ) : ℝ :=
  let sqrt := sqrtm eigh cov0
  let A := cov0 + cov1 - (2 : ℝ) • sqrtm eigh (sqrt * cov1 * sqrt)
  ∑ i, (m0 i - m1 i) ^ 2 + A.trace

/-- `/repo/fbs/utils.py:39-40` `_log_det`. -/
noncomputable def logDet (chol : Matrix n n ℝ) : ℝ := 2 * ∑ i, Real.log |chol i i|

/-- `jax.scipy.linalg.cho_solve((chol, lower), b)`: the solution of the system with matrix `cholᵀ chol`. -/
noncomputable def choSolve {m : Type} (chol : Matrix n n ℝ) (b : Matrix n m ℝ) : Matrix n m ℝ :=
  (cholᵀ * chol)⁻¹ * b

/-- `cho_solve` with a vector right-hand side. -/
noncomputable def choSolveVec (chol : Matrix n n ℝ) (b : n → ℝ) : n → ℝ := (cholᵀ * chol)⁻¹ *ᵥ b

/-- `/repo/fbs/utils.py:43-53` `kl`; `choFactor` is `jax.scipy.linalg.cho_factor` (upper factor). -/
noncomputable def kl (choFactor : Matrix n n ℝ → Matrix n n ℝ) (m0 : n → ℝ) (cov0 : Matrix n n ℝ)
    (m1 : n → ℝ) (cov1 : Matrix n n ℝ) : ℝ :=
  let d : ℝ := Fintype.card n
  let chol0 := choFactor cov0
  let chol1 := choFactor cov1
  let logDet0 := logDet chol0
  let logDet1 := logDet chol1
  (choSolve chol1 cov0).trace - d + (m1 - m0) ⬝ᵥ choSolveVec chol1 (m1 - m0) + logDet1 - logDet0

/-- The closure returned by `make_gaussian_bw_sb`. -/
structure GaussSB (n : Type) where
  /-- `C_sig`. -/
  C : Matrix n n ℝ
  /-- `marginal_mean`. -/
  mean : ℝ → n → ℝ
  /-- `marginal_cov`. -/
  cov : ℝ → Matrix n n ℝ
  /-- `s`. -/
  s : ℝ → Matrix n n ℝ
  /-- `drift`. -/
  drift : (n → ℝ) → ℝ → n → ℝ

/-- `/repo/fbs/sdes/linear.py:397-457` `make_gaussian_bw_sb`; `jnp.linalg.solve(sqrt0.T, D.T)` is the product with the
inverse. -/
noncomputable def makeGaussianBwSb (eigh : Matrix n n ℝ → (n → ℝ) × Matrix n n ℝ)
    (choFactor : Matrix n n ℝ → Matrix n n ℝ) (mean0 : n → ℝ) (cov0 : Matrix n n ℝ)
    (mean1 : n → ℝ) (cov1 : Matrix n n ℝ) (sig : ℝ) : GaussSB n :=
  let sqrt0 := sqrtm eigh cov0
  let D := sqrtm eigh ((4 : ℝ) • sqrt0 * cov1 * sqrt0 + sig ^ 4 • (1 : Matrix n n ℝ))
  let C := (0.5 : ℝ) • (sqrt0 * (sqrt0ᵀ⁻¹ * Dᵀ)ᵀ - sig ^ 2 • (1 : Matrix n n ℝ))
  let kappa := fun t _ : ℝ => t * sig ^ 2
  let r := fun t : ℝ => t
  let rBar := fun t : ℝ => 1 - t
  let rho := fun t : ℝ => t
  let marginalMean := fun t => rBar t • mean0 + r t • mean1
  let marginalCov := fun t => rBar t ^ 2 • cov0 + r t ^ 2 • cov1 + (r t * rBar t) • (C + Cᵀ)
    + (kappa t t * (1 - rho t)) • (1 : Matrix n n ℝ)
  let s := fun t =>
    let pt := r t • cov1 + rBar t • C
    let qt := rBar t • cov0 + r t • C
    pt - qtᵀ - (sig ^ 2 * rho t) • (1 : Matrix n n ℝ)
  let drift := fun x t =>
    let mt := marginalMean t
    let cholT := choFactor (marginalCov t)
    (s t)ᵀ *ᵥ choSolveVec cholT (x - mt) - mean0 + mean1
  ⟨C, marginalMean, marginalCov, s, drift⟩

end Utils
end Fbs
