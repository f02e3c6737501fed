import Verif.Spec.Gibbs
import Mathlib.MeasureTheory.Constructions.Pi

/-!
# Hidden Markov models

The setting of `/repo/tests/test_csmc.py`: a Markov chain observed through conditionally independent observations.
-/

open MeasureTheory ProbabilityTheory
open scoped ENNReal

namespace Fbs
namespace Spec

variable {U V : Type} [MeasurableSpace U] [MeasurableSpace V]

/-- A Markov chain with initial law `init` and transition laws `trans t`, and an emission density `exp (logLik v u)` with
respect to `base`. -/
structure Hmm (U V : Type) [MeasurableSpace U] [MeasurableSpace V] where
  init : Measure U
  prob : IsProbabilityMeasure init
  trans : ℝ → Kernel U U
  markov : ∀ t, IsMarkovKernel (trans t)
  base : Measure V
  sigma : SigmaFinite base
  logLik : V → U → ℝ
  meas : Measurable fun p : V × U => logLik p.1 p.2
  total : ∀ u, ∫⁻ v, ENNReal.ofReal (Real.exp (logLik v u)) ∂base = 1

attribute [instance] Hmm.prob Hmm.markov Hmm.sigma

/-- The functions of the test (`/repo/tests/test_csmc.py:63-77`) ignore the previous observation; `likelihood_logpdf` and
`init_likelihood_logpdf` are the emission density. -/
def Hmm.space (H : Hmm U V) : StateSpace U V where
  init := H.init
  prob := H.prob
  trans _ t := H.trans t
  markov _ t := H.markov t
  logG v _ _ u := H.logLik v u
  measG _ _ _ := H.meas.comp measurable_prodMk_left
  logG0 v _ u := H.logLik v u
  measG0 _ _ := H.meas.comp measurable_prodMk_left

/-- Mean of `φ` of the next `ts.length` states of the chain started at `u`. -/
noncomputable def Hmm.walk (H : Hmm U V) : List ℝ → U → (List U → ℝ≥0∞) → ℝ≥0∞
  | [], _, φ => φ []
  | t :: ts, u, φ => ∫⁻ u', H.walk ts u' (fun l => φ (u' :: l)) ∂(H.trans t u)

/-- Mean of `φ` of the trajectory at the times `ts` under the prior. -/
noncomputable def Hmm.prior (H : Hmm U V) (ts : Arr1 ℝ) (φ : Arr1 U → ℝ≥0∞) : ℝ≥0∞ :=
  ∫⁻ u, H.walk ts.init u (fun l => φ (u, l)) ∂H.init

/-- `emit` draws the `K + 1` observations independently, the `i`-th one from the emission law at the state with number
`src i`. -/
def Hmm.Emits {K : ℕ} (H : Hmm U V) (src : Fin (K + 1) → Fin (K + 1)) (emit : Key → Arr1 U → Rand (Arr1 V)) : Prop :=
  ∀ key (q : Fin (K + 1) → U) (Φ : Arr1 V → ℝ≥0∞), (Measurable fun y : Fin (K + 1) → V => Φ (arr y)) →
    (emit key (arr q)).E Φ
      = ∫⁻ y, (∏ i, ENNReal.ofReal (Real.exp (H.logLik (y i) (q (src i))))) * Φ (arr y) ∂(Measure.pi fun _ => H.base)

/-- The state before the `i`-th one, `0` for `i = 0`. -/
def lag {K : ℕ} (i : Fin (K + 1)) : Fin (K + 1) := ⟨i - 1, by omega⟩

end Spec
end Fbs
