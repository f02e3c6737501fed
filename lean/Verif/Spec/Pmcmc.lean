import Verif.Spec.Smc
import Verif.Spec.Gibbs

/-!
# What the pseudo-marginal kernel is measured against
-/

open MeasureTheory ProbabilityTheory
open scoped ENNReal

namespace Fbs
namespace Spec

variable {U V : Type} [MeasurableSpace U] [MeasurableSpace V] {N K : ℕ}

/-- The model started from another initial law. -/
def StateSpace.startedAt (S : StateSpace U V) (μ : Measure U) [hμ : IsProbabilityMeasure μ] : StateSpace U V :=
  { S with init := μ, prob := hμ }

/-- The user functions of the pseudo-marginal filter implement the model `S` with reference law `ref v0`. -/
structure PmcmcImplements (m : Smc.Funs N U V) (ref : Kernel V U) (S : StateSpace U V) : Prop where
  init : ∀ k v n (F : (Fin N → U) → ℝ≥0∞), Measurable F →
    (m.initSampler k v n).E F = ∫⁻ x, F x ∂(Measure.pi fun _ => ref v)
  trans : ∀ xs v t k (F : (Fin N → U) → ℝ≥0∞), Measurable F →
    (m.transSampler xs v t k).E F = ∫⁻ x, F x ∂(Measure.pi fun i => S.trans v t (xs i))
  lik : ∀ v xs v' t i, m.lik v xs v' t i = S.logG v v' t (xs i)

/-- The law of the resampled indices depends measurably on the weights and not on the key. -/
def MeasurableScheme (res : Smc.Resampling N) : Prop :=
  ∃ q : (Fin N → ℝ) → (Fin N → Fin N) → ℝ≥0∞, (∀ A, Measurable fun w => q w A) ∧
    ∀ w, Weights w → ∑ A, q w A = 1 ∧ ∀ key, HasLaw (res w key) (q w)

/-- Relabelling the particles relabels the resampled indices. -/
def ExchangeableScheme (res : Smc.Resampling N) : Prop :=
  ∀ w, Weights w → ∀ (σ : Equiv.Perm (Fin N)) key (F : (Fin N → Fin N) → ℝ≥0∞),
    (res (w ∘ σ) key).E F = (res w key).E fun A => F fun i => σ.symm (A (σ i))

/-- Integral of `φ(x_0)` against `ref(du_0 | v_0) Π_k p(v_k | u_{k-1}, v_{k-1}) M_k(u_{k-1}, du_k)` for the
observations `v_k = y_{K-k}`, where `u_K = x_0`. -/
noncomputable def backwardInt (S : StateSpace U V) (ref : Kernel V U) [IsMarkovKernel ref] (ts : Fin (K + 1) → ℝ)
    (ys : Fin (K + 1) → V) (φ : U → ℝ≥0∞) : ℝ≥0∞ :=
  (S.startedAt (ref (ys (Fin.last K)))).filterInt (arr fun i => ys (Fin.rev i)) (arr ts) φ

/-- The noising of `y` does not involve `x` (with `y_0` given, `x_0 ~ π0` and the path `y ~ P` are independent),
and their joint law factorises backwards in time through the model, with some law `R` of the observations. -/
def SeparableExact (S : StateSpace U V) (ref : Kernel V U) [IsMarkovKernel ref] (π0 : Measure U)
    (P : Measure (Fin (K + 1) → V)) (ts : Fin (K + 1) → ℝ) : Prop :=
  ∃ R : Measure (Fin (K + 1) → V), ∀ ψ : U → (Fin (K + 1) → V) → ℝ≥0∞, Measurable (Function.uncurry ψ) →
    ∫⁻ ys, ∫⁻ x, ψ x ys ∂π0 ∂P = ∫⁻ ys, backwardInt S ref ts ys (fun x => ψ x ys) ∂R

/-- The extended target of the pseudo-marginal chain: a path from `P`, one run of the filter on it, weighted by the
estimated likelihood. -/
noncomputable def extTarget (m : Smc.Funs N U V) (res : Smc.Resampling N) (ts : Fin (K + 1) → ℝ) (i : Fin N)
    (P : Measure (Fin (K + 1) → V)) (key : Key) (φ : U → ℝ → (Fin (K + 1) → V) → ℝ≥0∞) : ℝ≥0∞ :=
  ∫⁻ ys, (Smc.pmcmcEstimate m res key ys ts i).E (fun p => ENNReal.ofReal (Real.exp p.2) * φ p.1 p.2 ys) ∂P

end Spec
end Fbs
