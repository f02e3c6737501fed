import Verif.Model.Utils
import Verif.Model.Images
import Mathlib.Analysis.SpecialFunctions.Log.Base

/-!
# The error statistics of the tables and figures

`/repo/experiments/tabulators/tabulate_toy.py`, `/repo/experiments/tabulators/plot_sb.py`,
`/repo/experiments/tabulators/plot_toy_contours.py` and `/repo/experiments/tabulators/tabulate_imgs.py`.
An array of samples of shape `(n, d)` is a function `Fin n → ι → ℝ` with `d = card ι`; `none` stands for NaN.
-/

open Matrix
open scoped BigOperators

namespace Fbs
namespace Tables

variable {ι : Type} [Fintype ι] {n nchains : ℕ}

/-- `np.mean(x)` over all entries of an array with entries indexed by `κ`. -/
noncomputable def npMean {κ : Type} [Fintype κ] (x : κ → ℝ) : ℝ := (∑ i, x i) / Fintype.card κ

/-- `np.std(x)` over all entries (`ddof=0`). -/
noncomputable def npStd {κ : Type} [Fintype κ] (x : κ → ℝ) : ℝ := Real.sqrt (npMean fun i => (x i - npMean x) ^ 2)

/-- `np.mean(samples, axis=0)`, `/repo/experiments/tabulators/tabulate_toy.py:54`, `:43` for every chain. -/
noncomputable def sampleMean (s : Fin n → ι → ℝ) : ι → ℝ := fun k => (∑ i, s i k) / n

/-- `np.cov(samples, rowvar=False)`, `/repo/experiments/tabulators/tabulate_toy.py:55`, `:44` for every chain: the
centred samples, the product of their transpose with them, divided by `n - 1`; NaN when `n ≤ 1`. -/
noncomputable def sampleCov (s : Fin n → ι → ℝ) : Option (Matrix ι ι ℝ) :=
  if n ≤ 1 then none
  else
    let X : Matrix (Fin n) ι ℝ := Matrix.of fun i k => s i k - sampleMean s k
    some ((1 / ((n : ℝ) - 1)) • (Xᵀ * X))

/-- The four errors of a row of the table. -/
structure Errors where
  m : ℝ
  var : ℝ
  kl : ℝ
  bures : ℝ

variable [DecidableEq ι]

/-- `/repo/experiments/tabulators/tabulate_toy.py:57-60` the errors of an approximate mean and covariance.  The skewness
and the kurtosis (lines 61-62) are computed but not printed and are left out. -/
noncomputable def errors (eigh : Matrix ι ι ℝ → (ι → ℝ) × Matrix ι ι ℝ) (cho : Matrix ι ι ℝ → Matrix ι ι ℝ)
    (gpMean : ι → ℝ) (gpCov : Matrix ι ι ℝ) (approxMean : ι → ℝ) (approxCov : Matrix ι ι ℝ) : Errors where
  m := npMean fun k => |approxMean k - gpMean k|
  var := npMean fun k => |approxCov k k - gpCov k k|
  kl := Utils.kl cho gpMean gpCov approxMean approxCov
  bures := Utils.buresDist eigh gpMean gpCov approxMean approxCov

/-- `/repo/experiments/tabulators/tabulate_toy.py:53-60` (and `plot_sb.py:37-40`) the errors of samples of shape `(n, d)`. -/
noncomputable def errorsFlat (eigh : Matrix ι ι ℝ → (ι → ℝ) × Matrix ι ι ℝ) (cho : Matrix ι ι ℝ → Matrix ι ι ℝ)
    (gpMean : ι → ℝ) (gpCov : Matrix ι ι ℝ) (samples : Fin n → ι → ℝ) : Option Errors :=
  (sampleCov samples).map (errors eigh cho gpMean gpCov (sampleMean samples))

/-- `/repo/experiments/tabulators/tabulate_toy.py:42-50` the errors of samples of shape `(nchains, n, d)`: means and
covariances chain by chain, then averages over everything. -/
noncomputable def errorsChains (eigh : Matrix ι ι ℝ → (ι → ℝ) × Matrix ι ι ℝ) (cho : Matrix ι ι ℝ → Matrix ι ι ℝ)
    (gpMean : ι → ℝ) (gpCov : Matrix ι ι ℝ) (samples : Fin nchains → Fin n → ι → ℝ) : Option Errors :=
  if n ≤ 1 then none
  else
    let approxMeans := fun c => sampleMean (samples c)
    let approxCovs := fun c => (sampleCov (samples c)).getD 0
    some
      { m := npMean fun ck : Fin nchains × ι => |approxMeans ck.1 ck.2 - gpMean ck.2|
        var := npMean fun ck : Fin nchains × ι => |approxCovs ck.1 ck.2 ck.2 - gpCov ck.2 ck.2|
        kl := npMean fun c => Utils.kl cho gpMean gpCov (approxMeans c) (approxCovs c)
        bures := npMean fun c => Utils.buresDist eigh gpMean gpCov (approxMeans c) (approxCovs c) }

/-- `/repo/experiments/tabulators/plot_toy_contours.py:56-58` the mean and covariance drawn in the figure for samples of
several chains: averages of those of the chains. -/
noncomputable def contourMoments (samples : Fin nchains → Fin n → ι → ℝ) : (ι → ℝ) × Matrix ι ι ℝ :=
  (fun k => npMean fun c => sampleMean (samples c) k,
    Matrix.of fun k l => npMean fun c => (sampleCov (samples c)).getD 0 k l)

/-- `/repo/experiments/tabulators/tabulate_toy.py:71-75` mean and standard deviation over the Monte Carlo runs. -/
noncomputable def report {runs : ℕ} (errs : Fin runs → ℝ) : ℝ × ℝ := (npMean errs, npStd errs)

/-! ### Images -/

variable {h w c : ℕ}

/-- `/repo/experiments/tabulators/tabulate_imgs.py:15-17` `to_img` for colour images; `normalise(img, method='clip')`
is `Images.clip`. -/
noncomputable def toImg (img : Fin h → Fin w → Fin c → ℝ) : Fin h → Fin w → Fin c → ℝ :=
  fun i j k => Images.clip (img i j k)

/-- `/repo/experiments/tabulators/tabulate_imgs.py:20-26` `to_torch_tensor` for colour images: `np.swapaxes(img, -1, 0)`
exchanges the first and the last axis, a leading axis is added and `[0, 1]` is scaled to `[-1, 1]`. -/
def toTorchTensor (img : Fin h → Fin w → Fin c → ℝ) : Fin 1 → Fin c → Fin w → Fin h → ℝ :=
  fun _ k j i => img i j k * 2 - 1

/-- `skimage.metrics.mean_squared_error`. -/
noncomputable def mse {κ : Type} [Fintype κ] (a b : κ → ℝ) : ℝ := npMean fun i => (a i - b i) ^ 2

/-- `skimage.metrics.peak_signal_noise_ratio(true, test, data_range=1)`,
`/repo/experiments/tabulators/tabulate_imgs.py:64`: `10 * log10(data_range ** 2 / err)`; the division by zero for equal
images gives infinity. -/
noncomputable def psnr {κ : Type} [Fintype κ] (a b : κ → ℝ) : EReal :=
  if mse a b = 0 then ⊤ else ((10 * Real.logb 10 (1 / mse a b) : ℝ) : EReal)

end Tables
end Fbs
