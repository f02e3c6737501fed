import Verif.Model.Csmc
import Verif.Spec.Resampling
import Mathlib.Probability.Kernel.Basic

/-!
# Path measures of state-space models

The specification the samplers are measured against.
-/

open MeasureTheory ProbabilityTheory
open scoped ENNReal

namespace Fbs
namespace Spec

variable {U V : Type} [MeasurableSpace U] {N : ℕ}

/-- One time step of a Feynman-Kac model: a Markov transition `M` and the logarithm `g` of a
potential, both evaluated at the previous state. -/
structure FKStep (U : Type) [MeasurableSpace U] where
  M : Kernel U U
  markov : IsMarkovKernel M
  g : U → ℝ
  meas : Measurable g

attribute [instance] FKStep.markov

/-- A state-space model with observations in `V`: initial law, transition `p(u_k | u_{k-1}, v_{k-1},
t_{k-1})`, log-likelihoods `log p(v_k | u_{k-1}, v_{k-1}, t_{k-1})` and initial log-likelihood. -/
structure StateSpace (U V : Type) [MeasurableSpace U] where
  init : Measure U
  prob : IsProbabilityMeasure init
  trans : V → ℝ → Kernel U U
  markov : ∀ v t, IsMarkovKernel (trans v t)
  /-- `logG v v_prev t_prev u_prev` -/
  logG : V → V → ℝ → U → ℝ
  measG : ∀ v v' t, Measurable (logG v v' t)
  /-- `logG0 v0 v1 u0` -/
  logG0 : V → V → U → ℝ
  measG0 : ∀ v v', Measurable (logG0 v v')

attribute [instance] StateSpace.prob StateSpace.markov

/-- The steps of the model along observations `v, vs` at times `ts`. -/
def StateSpace.steps (S : StateSpace U V) : V → List V → List ℝ → List (FKStep U)
  | v, v' :: vs, t :: ts =>
    ⟨S.trans v t, S.markov v t, S.logG v' v t, S.measG v' v t⟩ :: S.steps v' vs ts
  | _, _, _ => []

/-- Integral of `φ` of the future path against the unnormalised path measure
`Π_k exp(g_k(u_{k-1})) M_k(u_{k-1}, du_k)`, starting at `u`. -/
noncomputable def pathInt : List (FKStep U) → U → (List U → ℝ≥0∞) → ℝ≥0∞
  | [], _, φ => φ []
  | s :: ss, u, φ =>
    ENNReal.ofReal (Real.exp (s.g u)) * ∫⁻ u', pathInt ss u' (fun l => φ (u' :: l)) ∂(s.M u)

/-- The same with an independent uniform index in `0..N-1` attached to each state. -/
noncomputable def extInt (N : ℕ) : List (FKStep U) → U → (List (U × Fin N) → ℝ≥0∞) → ℝ≥0∞
  | [], _, φ => φ []
  | s :: ss, u, φ =>
    ENNReal.ofReal (Real.exp (s.g u)) *
      ∫⁻ u', (N : ℝ≥0∞)⁻¹ * ∑ b' : Fin N, extInt N ss u' (fun l => φ ((u', b') :: l)) ∂(s.M u)

/-- Integral against the full smoothing measure
`init(du_0) exp(g_0(u_0)) Π_k M_k(u_{k-1}, du_k) exp(g_k(u_{k-1}))`, an independent uniform index being
attached to each state. -/
noncomputable def StateSpace.target (S : StateSpace U V) (N : ℕ) (vs : Arr1 V) (ts : Arr1 ℝ)
    (φ : Arr1 (U × Fin N) → ℝ≥0∞) : ℝ≥0∞ :=
  ∫⁻ u, ENNReal.ofReal (Real.exp (S.logG0 vs.1 (vs.2.headD vs.1) u)) * ((N : ℝ≥0∞)⁻¹ * ∑ b : Fin N,
    extInt N (S.steps vs.1 vs.2 ts.toList) u (fun l => φ ((u, b), l))) ∂S.init

/-- The user functions handed to the sampler implement the model `S`: the samplers draw independent
particles from the model laws, the log densities are evaluated particle by particle. -/
structure Implements (m : Csmc.Funs N U V) (S : StateSpace U V) : Prop where
  init : ∀ k n (F : (Fin N → U) → ℝ≥0∞), Measurable F →
    (m.initSampler k n).E F = ∫⁻ x, F x ∂(Measure.pi fun _ => S.init)
  trans : ∀ xs v t k (F : (Fin N → U) → ℝ≥0∞), Measurable F →
    (m.transSampler xs v t k).E F = ∫⁻ x, F x ∂(Measure.pi fun i => S.trans v t (xs i))
  lik : ∀ v xs v' t i, m.lik v xs v' t i = S.logG v v' t (xs i)
  initLik : ∀ v xs v' i, m.initLik v xs v' i = S.logG0 v v' (xs i)

/-- A conditional resampling scheme that is the exact conditional of an underlying scheme: for
normalised weights `w i * P(cond = A) = P(joint = A and A j = i)`. -/
structure ExactScheme (res : Csmc.CondResampling N) where
  cond : (Fin N → ℝ) → Fin N → Fin N → (Fin N → Fin N) → ℝ≥0∞
  joint : (Fin N → ℝ) → (Fin N → Fin N) → ℝ≥0∞
  E_res : ∀ key w, Weights w → ∀ i j F, (res key w i j true).E F = ∑ A, cond w i j A * F A
  bayes : ∀ w, Weights w → ∀ i j A,
    ENNReal.ofReal (w i) * cond w i j A = if A j = i then joint w A else 0
  sum_cond : ∀ w, Weights w → ∀ i j, ∑ A, cond w i j A = 1
  meas : ∀ i j A, Measurable fun w => cond w i j A

/-- A test function on lists is measurable on lists of length `n`. -/
def MeasList {α : Type} [MeasurableSpace α] (n : ℕ) (φ : List α → ℝ≥0∞) : Prop :=
  Measurable fun p : Fin n → α => φ (List.ofFn p)

end Spec
end Fbs
