import Verif.Spec.Consistency

/-!
# The variance of a resampling scheme
-/

open MeasureTheory
open scoped ENNReal

namespace Fbs
namespace Spec

open Jax

variable {N : ℕ}

/-- The mean square error of the mean over the selected particles. -/
noncomputable def resampleErr (res : Smc.Resampling N) (w : Fin N → ℝ) (key : Key) (c : Fin N → ℝ) : ℝ≥0∞ :=
  (res w key).E fun A => ENNReal.ofReal (((∑ j, c (A j)) / N - ∑ i, w i * c i) ^ 2)

/-- The variance of `c` under the weights. -/
noncomputable def weightVar (w : Fin N → ℝ) (c : Fin N → ℝ) : ℝ := ∑ i, w i * (c i - ∑ j, w j * c j) ^ 2

end Spec
end Fbs
