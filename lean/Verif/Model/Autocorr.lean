import Mathlib.Analysis.SpecialFunctions.Sqrt
import Mathlib.Algebra.BigOperators.Fin

/-!
# The autocorrelation plots: `experiments/tabulators/plot_autocorrs_imgs.py`, `experiments/tabulators/plot_autocorrs_toy.py`

A chain of `N` samples of `d` variables is a function `Fin N → Fin d → ℝ`; `none` is nan.  The figure itself is left out, as are
the files the chains are loaded from.
-/

namespace Fbs
namespace Autocorr

variable {N d : ℕ}

/-- The sample mean. -/
noncomputable def mean (x : Fin N → ℝ) : ℝ := (∑ t, x t) / N

/-- `Σ_t (x_t - m) (x_{t+k} - m)`, which the library computes by Fourier transforms. -/
noncomputable def lagSum (x : Fin N → ℝ) (k : ℕ) : ℝ :=
  ∑ t : Fin N, if h : t + k < N then (x t - mean x) * (x ⟨t + k, h⟩ - mean x) else 0

/-- Entry `k` of `numpyro.diagnostics.autocorrelation` of one variable.  In the version of `requirements_freeze.txt` (0.14.0) the sums
are divided by their numbers of terms, `bias = false`; later versions do this only on demand. -/
noncomputable def autocorr (bias : Bool) (x : Fin N → ℝ) (k : ℕ) : Option ℝ :=
  let cov := fun j : ℕ => lagSum x j / (if bias then 1 else (N : ℝ) - j)
  if cov 0 = 0 then none else some (cov k / cov 0)

/-- `/repo/experiments/tabulators/plot_autocorrs_imgs.py:16-19` `ac_fn` for one variable and one lag; comparing nan gives false. -/
noncomputable def acFn (bias : Bool) (x : Fin N → ℝ) (k : ℕ) : Option ℝ :=
  (autocorr bias x k).map fun r => if r < 0 then 0 else r

/-- `np.nanmin` along an axis of length `d`: nan only if all entries are. -/
noncomputable def nanmin (v : Fin d → Option ℝ) : Option ℝ := ((List.ofFn v).filterMap id).min?

/-- `/repo/experiments/tabulators/plot_autocorrs_imgs.py:58-60`: the curve of one image, `samples` already reshaped to
`(nsamples, -1)`. -/
noncomputable def imgCurve (bias : Bool) (samples : Fin N → Fin d → ℝ) (k : ℕ) : Option ℝ :=
  nanmin fun j => acFn bias (fun t => samples t j) k

/-- All entries, unless one of them is nan. -/
def noNan (v : List (Option ℝ)) : Option (List ℝ) := v.mapM id

/-- `/repo/experiments/tabulators/plot_autocorrs_toy.py:42-43` `autocorr_over_chains` for one variable and one lag: the mean over the
chains, nan if one of them is. -/
noncomputable def overChains {c : ℕ} (bias : Bool) (chains : Fin c → Fin N → Fin d → ℝ) (j : Fin d) (k : ℕ) : Option ℝ :=
  (noNan (List.ofFn fun i => autocorr bias (fun t => chains i t j) k)).map fun l => l.sum / c

/-- `/repo/experiments/tabulators/plot_autocorrs_toy.py:57-59`: the curve of one experiment, the maximum over the variables. -/
noncomputable def toyCurve {c : ℕ} (bias : Bool) (chains : Fin c → Fin N → Fin d → ℝ) (k : ℕ) : Option ℝ :=
  (noNan (List.ofFn fun j => overChains bias chains j k)).bind List.max?

end Autocorr
end Fbs
