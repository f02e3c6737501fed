import Verif.Model.Gibbs
import Verif.Model.Simulators

/-!
# The bridge of `fbs/samplers/gibbs.py`
-/

namespace Fbs
namespace Gibbs

/-- `/repo/fbs/samplers/gibbs.py:17-20` `bridge_sampler`. -/
noncomputable def bridgeSampler {ι : Type} [Fintype ι] [DecidableEq ι] (key : Key) (y0 yT : ι → ℝ) (ts : Arr1 ℝ)
    (sde : Linear.SDE) : Rand (Except String (Arr1 (ι → ℝ))) :=
  Simulators.doobBridge key sde y0 yT ts 100 true

end Gibbs
end Fbs
