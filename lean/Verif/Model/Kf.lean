import Verif.Model.Gp
import Mathlib.Analysis.Calculus.Deriv.Basic

/-!
# The Kalman filter experiment, `experiments/toy/gp_kf.py`

`drift` and `dispersion` are `reverse_drift` and `reverse_dispersion` of the script, `Gp.reverseDrift` and
`Gp.reverseDispersion`.
-/

namespace Fbs
namespace Kf

open Jax Toy Gp Utils Matrix

variable {ι κ ζ : Type}

/-- `jax.jacfwd(f)(x)`: entry `(i, j)` is the derivative of output `i` along input `j`. -/
noncomputable def jac {m n : Type} [DecidableEq n] (f : (n → ℝ) → (m → ℝ)) (x : n → ℝ) : Matrix m n ℝ :=
  Matrix.of fun i j => deriv (fun y => f (Function.update x j y) i) (x j)

/-- `/repo/experiments/toy/gp_kf.py:103-104` `cond_state_mean`. -/
noncomputable def condStateMean (e : ι ⊕ κ ≃ ζ) (drift : (ζ → ℝ) → ℝ → (ζ → ℝ)) (dt : ℝ) (uPrev : ι → ℝ) (vPrev : κ → ℝ)
    (tPrev : ℝ) : ι → ℝ := fun i =>
  uPrev i + driftU e drift uPrev vPrev tPrev i * dt

/-- `/repo/experiments/toy/gp_kf.py:107-108` `cond_state_cov`. -/
noncomputable def condStateCov [DecidableEq ι] (dispersion : ℝ → ℝ) (dt tPrev : ℝ) : Matrix ι ι ℝ :=
  (Real.sqrt dt * dispersion tPrev) • 1

/-- `/repo/experiments/toy/gp_kf.py:111-112` `cond_obs_mean`. -/
noncomputable def condObsMean (e : ι ⊕ κ ≃ ζ) (drift : (ζ → ℝ) → ℝ → (ζ → ℝ)) (dt : ℝ) (uPrev : ι → ℝ) (vPrev : κ → ℝ)
    (tPrev : ℝ) : κ → ℝ := fun i =>
  vPrev i + driftV e drift vPrev uPrev tPrev i * dt

/-- `/repo/experiments/toy/gp_kf.py:115-116` `cond_obs_cov`. -/
noncomputable def condObsCov [DecidableEq κ] (dispersion : ℝ → ℝ) (dt tPrev : ℝ) : Matrix κ κ ℝ :=
  (Real.sqrt dt * dispersion tPrev) • 1

section Filter

variable [Fintype ι] [DecidableEq ι]

/-- `/repo/experiments/toy/gp_kf.py:130-144` `scan_body`; the products need equal dimensions of the two parts. -/
noncomputable def scanBody (choFactor : Matrix ι ι ℝ → Matrix ι ι ℝ) (e : ι ⊕ ι ≃ ζ) (drift : (ζ → ℝ) → ℝ → (ζ → ℝ))
    (dispersion : ℝ → ℝ) (dt : ℝ) (carry : (ι → ℝ) × Matrix ι ι ℝ) (elem : (ι → ℝ) × (ι → ℝ) × ℝ) :
    (ι → ℝ) × Matrix ι ι ℝ :=
  let (mf, vf) := carry
  let (v, vPrev, tPrev) := elem
  let F := jac (fun u => condStateMean e drift dt u vPrev tPrev) mf
  let mp := condStateMean e drift dt mf vPrev tPrev
  let vp := F * vf * Fᵀ + condStateCov dispersion dt tPrev
  let H := jac (fun v => condObsMean e drift dt mp v tPrev) vPrev
  let S := H * vp * Hᵀ + condObsCov dispersion dt tPrev
  let K := vp * (choSolve (choFactor S) H)ᵀ
  (mp + K *ᵥ (v - condObsMean e drift dt mp vPrev tPrev), vp - K * S * Kᵀ)

/-- `/repo/experiments/toy/gp_kf.py:129-146` `adhoc_kf`. -/
noncomputable def adhocKf (choFactor : Matrix ι ι ℝ → Matrix ι ι ℝ) (e : ι ⊕ ι ≃ ζ) (drift : (ζ → ℝ) → ℝ → (ζ → ℝ))
    (dispersion : ℝ → ℝ) (dt : ℝ) (initM : ι → ℝ) (initV : Matrix ι ι ℝ) (vs : List (ι → ℝ)) (ts : List ℝ) :
    (ι → ℝ) × Matrix ι ι ℝ :=
  (vs.tail.zip (vs.dropLast.zip ts.dropLast)).foldl (scanBody choFactor e drift dispersion dt) (initM, initV)

/-- `/repo/experiments/toy/gp_kf.py:149-156` `conditional_sampler`; `ref_solver`, `:119-122`, is the pair of `refMean` and
`refCov`. -/
noncomputable def conditionalSampler [Inhabited (ι → ℝ)] (choFactor cholesky : Matrix ι ι ℝ → Matrix ι ι ℝ) (e : ι ⊕ ι ≃ ζ)
    (drift : (ζ → ℝ) → ℝ → (ζ → ℝ)) (dispersion : ℝ → ℝ) (dt : ℝ) (mRef : ζ → ℝ) (covRef : Matrix ζ ζ ℝ) (sde : Linear.SDE)
    (ts : Arr1 ℝ) (y0 : ι → ℝ) (key : Key) : Rand (ι → ℝ) := do
  let keyFwd := split key 3 0
  let keyKf := split key 3 2
  let pathY ← Linear.simulatePath sde keyFwd y0 ts
  let vs := pathY.reverse
  let u0Mean := refMean choFactor e mRef covRef vs.head!
  let u0Cov := refCov choFactor e covRef
  let x0 := adhocKf choFactor e drift dispersion dt u0Mean u0Cov vs ts.toList
  rowSampler cholesky x0.1 x0.2 keyKf

end Filter

end Kf
end Fbs
