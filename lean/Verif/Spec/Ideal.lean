import Verif.Spec.Paths

/-!
# The ideal draws

What one call of the conditional samplers is meant to imitate: a draw of a whole trajectory from the normalised path law.
-/

open MeasureTheory ProbabilityTheory
open scoped ENNReal

namespace Fbs
namespace Spec

variable {U : Type} [MeasurableSpace U]

/-- The mean of `φ(u, u_1, …, u_K)` under the path law started at `u`, normalised. -/
noncomputable def pinMean (ss : List (FKStep U)) (u : U) (φ : List U → ℝ≥0∞) : ℝ≥0∞ :=
  pathInt ss u (fun l => φ (u :: l)) * (pathInt ss u fun _ => 1)⁻¹

/-- The mean of `φ(u_0, …, u_K)` under the path law with `u_0` from `ν` weighted by `exp g0`, normalised. -/
noncomputable def refMean (ν : Measure U) (g0 : U → ℝ) (ss : List (FKStep U)) (φ : List U → ℝ≥0∞) : ℝ≥0∞ :=
  (∫⁻ u, ENNReal.ofReal (Real.exp (g0 u)) * pathInt ss u (fun l => φ (u :: l)) ∂ν) *
    (∫⁻ u, ENNReal.ofReal (Real.exp (g0 u)) * pathInt ss u (fun _ => 1) ∂ν)⁻¹

/-- `2 (K+1) (1 + e^{2β(K+1)}) / N` -/
noncomputable def idealErr (β : ℝ) (N K : ℕ) : ℝ := 2 * (K + 1) * (1 + Real.exp (2 * β * (K + 1))) / N

end Spec
end Fbs
