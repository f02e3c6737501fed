import Verif.Model.Smc
import Verif.Spec.Paths

/-!
# What the filters are measured against
-/

open MeasureTheory ProbabilityTheory
open scoped ENNReal

namespace Fbs
namespace Spec

variable {U V : Type} [MeasurableSpace U] {N : ℕ}

/-- The user functions handed to a filter implement the model `S`, started at observation `v0`:
independent particles from the model laws, log likelihoods evaluated particle by particle. -/
structure SmcImplements (m : Smc.Funs N U V) (S : StateSpace U V) (v0 : V) : Prop where
  init : ∀ k n (F : (Fin N → U) → ℝ≥0∞), Measurable F →
    (m.initSampler k v0 n).E F = ∫⁻ x, F x ∂(Measure.pi fun _ => S.init)
  trans : ∀ xs v t k (F : (Fin N → U) → ℝ≥0∞), Measurable F →
    (m.transSampler xs v t k).E F = ∫⁻ x, F x ∂(Measure.pi fun i => S.trans v t (xs i))
  lik : ∀ v xs v' t i, m.lik v xs v' t i = S.logG v v' t (xs i)

/-- Integral of `φ(u_K)` against `init(du_0) Π_k p(v_k | u_{k-1}) M_k(u_{k-1}, du_k)`. For `φ = 1` this is
the marginal likelihood of `v_1, ..., v_K`. -/
noncomputable def StateSpace.filterInt (S : StateSpace U V) (vs : Arr1 V) (ts : Arr1 ℝ)
    (φ : U → ℝ≥0∞) : ℝ≥0∞ :=
  ∫⁻ u, pathInt (S.steps vs.1 vs.2 ts.toList) u (fun l => φ (l.getLastD u)) ∂S.init

/-- A random program with finitely many results has the law `q`. -/
def HasLaw {α : Type} [Fintype α] (p : Rand α) (q : α → ℝ≥0∞) : Prop :=
  ∀ F : α → ℝ≥0∞, p.E F = ∑ a, q a * F a

/-- An unbiased resampling scheme: for normalised weights the expected sum of `c` over the selected
particles is `N` times the weighted mean of `c`. -/
def UnbiasedSums (res : Smc.Resampling N) : Prop :=
  ∀ w key, Weights w → ∀ c : Fin N → ℝ≥0∞,
    (res w key).E (fun A => ∑ j, c (A j)) = N * ∑ i, ENNReal.ofReal (w i) * c i

end Spec
end Fbs
