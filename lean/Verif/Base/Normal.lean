import Verif.Model.Csmc
import Mathlib.Probability.Distributions.Gaussian.Real

/-!
# `jax.random.normal` (trusted transcription)
-/

open MeasureTheory ProbabilityTheory

namespace Fbs
namespace Jax

/-- Independent standard normal variables indexed by `ι`. -/
noncomputable def stdNormal (ι : Type) [Fintype ι] : Measure (ι → ℝ) :=
  Measure.pi fun _ => gaussianReal 0 1

/-- `jax.random.normal(key, shape)`, the entries of the array being indexed by `ι`. -/
noncomputable def normal (k : Key) (ι : Type) [Fintype ι] : Rand (ι → ℝ) :=
  Rand.sample k Set.univ (stdNormal ι)

/-- `jax.random.normal(key, (n, *shape))`: one draw of `n` rows. -/
noncomputable def normalRows (k : Key) (n : ℕ) (ι : Type) [Fintype ι] : Rand (List (ι → ℝ)) :=
  List.ofFn <$> Rand.sample k Set.univ (Measure.pi fun _ : Fin n => stdNormal ι)

end Jax
end Fbs
