import Verif.Base.Normal
import Mathlib.Analysis.SpecialFunctions.Trigonometric.Basic
import Mathlib.Analysis.SpecialFunctions.Log.Basic
import Mathlib.Logic.Equiv.Fin.Basic

/-!
# Neural network helpers: `fbs/nn/base.py` and `fbs/nn/utils.py`
-/

namespace Fbs
namespace Nn

/-! ## Time embedding -/

/-- The exceptions of `sinusoidal_embedding`. -/
inductive EmbErr
  | mathDomain
  | oddDim
  deriving DecidableEq

/-- `/repo/fbs/nn/base.py:72` `fs`: entry `i` of `jnp.exp(-math.log(max_period) * jnp.arange(half) / (half - 1))`; `none`
is the `nan` of `0 / 0` when `half = 1`. -/
noncomputable def freq (half maxPeriod i : ℕ) : Option ℝ :=
  if half = 1 then none
  else some (Real.exp (-Real.log maxPeriod * (i : ℝ) / ((half : ℝ) - 1)))

/-- `/repo/fbs/nn/base.py:44-77` `sinusoidal_embedding` of a scalar time (`none`: `nan`). -/
noncomputable def sinusoidalEmbedding (t : ℝ) (outDim maxPeriod : ℕ) : Except EmbErr (List (Option ℝ)) :=
  let half := outDim / 2
  if maxPeriod = 0 then .error .mathDomain
  else
    let embs := (List.range half).map fun i => (freq half maxPeriod i).map fun f => t * f
    let embs := embs.map (Option.map Real.sin) ++ embs.map (Option.map Real.cos)
    if outDim % 2 = 1 then .error .oddDim else .ok embs

/-! ## Pixel shuffle -/

/-- An axis `(a b)` of an `einops` pattern split into its two factors, in row-major order. -/
def splitAxis {a b : ℕ} : Fin (a * b) ≃ Fin a × Fin b := finProdFinEquiv.symm

/-- `/repo/fbs/nn/utils.py:53-57` `PixelShuffle.__call__`: the `einops` pattern
`'b h w (h2 w2 c) -> b (h h2) (w w2) c'` with `h2 = w2 = scale`, for inputs whose last axis has `scale * scale * c`
entries (`einops` raises otherwise). -/
def pixelShuffle {α : Type} {b h w c : ℕ} (scale : ℕ) (x : Fin b → Fin h → Fin w → Fin (scale * scale * c) → α) :
    Fin b → Fin (h * scale) → Fin (w * scale) → Fin c → α :=
  -- reshape to `b h w h2 w2 c`
  let y : Fin b → Fin h → Fin w → Fin scale → Fin scale → Fin c → α := fun bi hi wi h2 w2 ci =>
    x bi hi wi (splitAxis.symm (splitAxis.symm (h2, w2), ci))
  -- transpose to `b h h2 w w2 c`, then merge the axes
  fun bi hh ww ci => y bi (splitAxis hh).1 (splitAxis ww).1 (splitAxis hh).2 (splitAxis ww).2 ci

/-! ## Exponential moving average -/

section Ema

variable {V : Type} [AddCommGroup V] [Module ℝ V]

/-- `/repo/fbs/nn/utils.py:67-69` `ema_update`. -/
def emaUpdate (param emaParam : V) (decay : ℝ) : V := decay • emaParam + (1 - decay) • param

/-- `/repo/fbs/nn/utils.py:71-81` `ema_kernel`; `none` is the `ZeroDivisionError` of `count % 0`. -/
def emaKernel (emaParam param : V) (count countStart countEvery : ℕ) (decay : ℝ) : Option V :=
  if count < countStart then some param
  else if countEvery = 0 then none
  else if count % countEvery = 0 then some (emaUpdate param emaParam decay)
  else some emaParam

/-- `/repo/experiments/imgs/train.py:112-119`: the average after a history of counts and parameters, with one
`ema_kernel` call per optimiser step. -/
def emaRun (countStart countEvery : ℕ) (decay : ℝ) (ema0 : V) (history : List (ℕ × V)) : Option V :=
  history.foldlM (fun e p => emaKernel e p.2 p.1 countStart countEvery decay) ema0

end Ema

end Nn
end Fbs
