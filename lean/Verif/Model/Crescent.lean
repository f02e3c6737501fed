import Verif.Base.Normal
import Mathlib.Analysis.Calculus.Deriv.Basic
import Mathlib.Data.Matrix.Mul

/-!
# The crescent model: `fbs/data/bayesian.py`
-/

namespace Fbs
namespace Crescent

open Jax

/-- `jax.scipy.stats.norm.logpdf(x, loc, scale)` (trusted transcription of `jax/_src/scipy/stats/norm.py`). -/
noncomputable def normLogpdf (x loc scale : ℝ) : ℝ :=
  (Real.log (2 * Real.pi * scale ^ 2) + (x - loc) ^ 2 / scale ^ 2) / (-2)

/-- `/repo/fbs/data/bayesian.py:19-20` `self.cov`. -/
def cov : Matrix (Fin 2) (Fin 2) ℝ := !![2, 0; 0, 1]

/-- `/repo/fbs/data/bayesian.py:33-35` `emission`. -/
noncomputable def emission (phi : Fin 2 → ℝ) (psi : ℝ) : ℝ := phi 1 / psi + 0.5 * (phi 0 ^ 2 + psi ^ 2)

/-- `/repo/fbs/data/bayesian.py:24-31` `sampler`; `L` is the value of `jnp.linalg.cholesky(self.cov)`, the mean
`self.m` is zero. -/
noncomputable def sampler (L : Matrix (Fin 2) (Fin 2) ℝ) (psi xi : ℝ) (key : Key) (n : ℕ) :
    Rand ((Fin n → Fin 2 → ℝ) × (Fin n → ℝ)) := do
  let z ← normal (split key 2 1) (Fin n × Fin 2)
  let xs : Fin n → Fin 2 → ℝ := fun j => 0 + Matrix.vecMul (fun i => z (j, i)) L
  let e ← normal (split (split key 2 0) 2 1) (Fin n)
  let ys := fun j => emission (xs j) psi + Real.sqrt xi * e j
  pure (xs, ys)

/-- `/repo/fbs/data/bayesian.py:37-41` `log_prior_pdf` (`self.cov_is_diag` is set). -/
noncomputable def logPriorPdf (phi : Fin 2 → ℝ) : ℝ := ∑ i, normLogpdf (phi i) 0 (cov i i)

/-- `/repo/fbs/data/bayesian.py:48-49` `log_cond_pdf_likelihood`. -/
noncomputable def logLik (psi xi y : ℝ) (phi : Fin 2 → ℝ) : ℝ := normLogpdf y (emission phi psi) (Real.sqrt xi)

/-- `jax.grad(f)(x)`: the partial derivatives. -/
noncomputable def grad {ι : Type} [DecidableEq ι] (f : (ι → ℝ) → ℝ) (x : ι → ℝ) : ι → ℝ :=
  fun i => deriv (fun u => f (Function.update x i u)) (x i)

/-- `/repo/fbs/data/bayesian.py:43-46` `score` at `xy = (phi, y)`. -/
noncomputable def score (psi xi : ℝ) (phi : Fin 2 → ℝ) (y : ℝ) : Fin 3 → ℝ :=
  Fin.snoc (α := fun _ => ℝ) (grad logPriorPdf phi) 0 +
    Fin.snoc (α := fun _ => ℝ) (grad (logLik psi xi y) phi) (deriv (fun y => logLik psi xi y phi) y)

/-- `jax.scipy.integrate.trapezoid(y, x)` of arrays of length `n` (the entries from `n` on are not used). -/
noncomputable def trapezoid (n : ℕ) (y x : ℕ → ℝ) : ℝ :=
  0.5 * ∑ i ∈ Finset.range (n - 1), (x (i + 1) - x i) * (y (i + 1) + y i)

/-- `/repo/fbs/data/bayesian.py:52` `energy`. -/
noncomputable def energy (psi xi y : ℝ) (phi : Fin 2 → ℝ) : ℝ := Real.exp (logPriorPdf phi + logLik psi xi y phi)

/-- `/repo/fbs/data/bayesian.py:51-57` `posterior` for a mesh of shape `(n, n, 2)` (for other shapes the two
trapezoidal rules do not fit the axes). -/
noncomputable def posterior (psi xi : ℝ) (n : ℕ) (mesh : ℕ → ℕ → Fin 2 → ℝ) (y : ℝ) : ℕ → ℕ → ℝ :=
  let evals := fun a b => energy psi xi y (mesh a b)
  let z := trapezoid n (fun b => trapezoid n (fun a => evals a b) (fun b => mesh 0 b 0)) (fun a => mesh a 0 1)
  fun a b => evals a b / z

end Crescent
end Fbs
