import Verif.Spec.Smc

/-!
# Resampling schemes with small conditional variance
-/

open scoped ENNReal

namespace Fbs
namespace Spec

variable {N : ℕ}

/-- A resampling scheme of small variance: for normalised weights `w` and any `c` with values in `[0,1]`, the
mean of `c` over the selected particles deviates from `Σ w_i c_i` by at most `1/N` in mean square. -/
def SmallVariance (res : Smc.Resampling N) : Prop :=
  ∀ w key, Weights w → ∃ q : (Fin N → Fin N) → ℝ≥0∞, HasLaw (res w key) q ∧
    ∀ c : Fin N → ℝ, (∀ i, 0 ≤ c i ∧ c i ≤ 1) →
      (res w key).E (fun A => ENNReal.ofReal (((∑ j, c (A j)) / N - ∑ i, w i * c i) ^ 2))
        ≤ ENNReal.ofReal (1 / N)

/-- The exact filtering mean of `φ`: the unnormalised filtering integral divided by the marginal likelihood. -/
noncomputable def StateSpace.filterMean {U V : Type} [MeasurableSpace U] (S : StateSpace U V) (vs : Arr1 V)
    (ts : Arr1 ℝ) (φ : U → ℝ) : ℝ :=
  (S.filterInt vs ts fun u => ENNReal.ofReal (φ u)).toReal / (S.filterInt vs ts fun _ => 1).toReal

end Spec
end Fbs
