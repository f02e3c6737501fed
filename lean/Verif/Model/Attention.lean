import Verif.Model.Nn
import Mathlib.Analysis.SpecialFunctions.Sqrt

/-!
# The layers of `fbs/nn/unet.py` that mix pixels or normalise

An array of shape `(B, H, W, C)` is a function of its four indices.  Parameters of the layers are arguments.  `flax` and
`einops` functions are trusted transcriptions; floating point types are not modelled.
-/

namespace Fbs
namespace Attention

open Nn

variable {B H W C O heads dimHead : ℕ}

/-- An array of shape `(B, H, W, C)`. -/
abbrev Tensor (B H W C : ℕ) : Type := Fin B → Fin H → Fin W → Fin C → ℝ

/-- `nn.softmax` along an axis with `n` entries (`jax/_src/nn/functions.py`): the maximum is subtracted first. -/
noncomputable def softmax {n : ℕ} (x : Fin n → ℝ) (i : Fin n) : ℝ :=
  let m := ⨆ j, x j
  Real.exp (x i - m) / ∑ j, Real.exp (x j - m)

/-- `nn.Conv(features, kernel_size=(1, 1), use_bias=False)` with kernel `w`. -/
noncomputable def conv1 (w : Fin C → Fin O → ℝ) (x : Tensor B H W C) : Tensor B H W O := fun b i j o => ∑ c, x b i j c * w c o

/-- `nn.Conv(features, kernel_size=(1, 1))` with kernel `w` and bias. -/
noncomputable def conv1Bias (w : Fin C → Fin O → ℝ) (bias : Fin O → ℝ) (x : Tensor B H W C) : Tensor B H W O :=
  fun b i j o => conv1 w x b i j o + bias o

/-- `nn.LayerNorm(epsilon=1e-5, use_bias=False)` with parameter `scale`, over the last axis (`flax/linen/normalization.py`,
`_compute_stats` with `use_fast_variance` and `_normalize`). -/
noncomputable def layerNorm (scale : Fin C → ℝ) (x : Tensor B H W C) : Tensor B H W C := fun b i j c =>
  let mean := (∑ k, x b i j k) / C
  let var := max 0 ((∑ k, x b i j k ^ 2) / C - mean ^ 2)
  (x b i j c - mean) * ((Real.sqrt (var + 1e-5))⁻¹ * scale c)

/-- `/repo/fbs/nn/unet.py:25-39` `l2norm` with its default axis 1, for an array with four axes. -/
noncomputable def l2norm {n a d : ℕ} (t : Fin B → Fin n → Fin a → Fin d → ℝ) (eps : ℝ := 1e-12) :
    Fin B → Fin n → Fin a → Fin d → ℝ := fun b i h k =>
  let denom := max (Real.sqrt (∑ i', |t b i' h k| ^ 2)) eps
  t b i h k / denom

/-- `/repo/fbs/nn/unet.py:188-190`, `:226-228`: part `part` of `jnp.split(qkv, 3, axis=-1)`, after the pattern
`'b x y (h d) -> b (x y) h d'`. -/
noncomputable def splitHeads (qkv : Tensor B H W (3 * (heads * dimHead))) (part : Fin 3) :
    Fin B → Fin (H * W) → Fin heads → Fin dimHead → ℝ := fun b n h d =>
  let t : Tensor B H W (heads * dimHead) := fun b i j o => qkv b i j (splitAxis.symm (part, o))
  t b (splitAxis n).1 (splitAxis n).2 (splitAxis.symm (h, d))

/-- `/repo/fbs/nn/unet.py:175-206` `Attention.__call__`, with the kernel `wqkv` of `to_qkv.conv_0` and the parameters
`wout`, `bout` of `to_out.conv_0`. -/
noncomputable def attention (scale : ℝ) (wqkv : Fin C → Fin (3 * (heads * dimHead)) → ℝ)
    (wout : Fin (heads * dimHead) → Fin C → ℝ) (bout : Fin C → ℝ) (x : Tensor B H W C) : Tensor B H W C :=
  let qkv := conv1 wqkv x
  let q := l2norm (splitHeads qkv 0)
  let k := l2norm (splitHeads qkv 1)
  let v := splitHeads qkv 2
  let sim : Fin B → Fin heads → Fin (H * W) → Fin (H * W) → ℝ := fun b h i j => (∑ d, q b i h d * k b j h d) * scale
  let attn : Fin B → Fin heads → Fin (H * W) → Fin (H * W) → ℝ := fun b h i => softmax (sim b h i)
  let out : Fin B → Fin heads → Fin (H * W) → Fin dimHead → ℝ := fun b h i d => ∑ j, attn b h i j * v b j h d
  let out : Tensor B H W (heads * dimHead) := fun b x y o =>
    out b (splitAxis o).1 (splitAxis.symm (x, y)) (splitAxis o).2
  conv1Bias wout bout out

/-- `/repo/fbs/nn/unet.py:209-245` `LinearAttention.__call__`; `gamma` is the parameter of `to_out.norm_0`. -/
noncomputable def linearAttention (wqkv : Fin C → Fin (3 * (heads * dimHead)) → ℝ)
    (wout : Fin (heads * dimHead) → Fin C → ℝ) (bout gamma : Fin C → ℝ) (x : Tensor B H W C) : Tensor B H W C :=
  let qkv := conv1 wqkv x
  let q : Fin B → Fin (H * W) → Fin heads → Fin dimHead → ℝ := fun b n h d =>
    softmax (splitHeads qkv 0 b n h) d / Real.sqrt dimHead
  let k : Fin B → Fin (H * W) → Fin heads → Fin dimHead → ℝ := fun b n h d =>
    softmax (fun n' => splitHeads qkv 1 b n' h d) n
  let v : Fin B → Fin (H * W) → Fin heads → Fin dimHead → ℝ := fun b n h d => splitHeads qkv 2 b n h d / (H * W : ℕ)
  let context : Fin B → Fin heads → Fin dimHead → Fin dimHead → ℝ := fun b h d e => ∑ n, k b n h d * v b n h e
  let out : Fin B → Fin heads → Fin dimHead → Fin (H * W) → ℝ := fun b h e n => ∑ d, context b h d e * q b n h d
  let out : Tensor B H W (heads * dimHead) := fun b x y o =>
    out b (splitAxis o).1 (splitAxis o).2 (splitAxis.symm (x, y))
  layerNorm gamma (conv1Bias wout bout out)

/-- `/repo/fbs/nn/unet.py:248-264` `AttnBlock.__call__`; `attn` is `LinearAttention` or `Attention`, `gamma` the parameter
of the first layer norm. -/
noncomputable def attnBlock (attn : Tensor B H W C → Tensor B H W C) (gamma : Fin C → ℝ) (x : Tensor B H W C) :
    Tensor B H W C :=
  let out := attn (layerNorm gamma x)
  fun b i j c => out b i j c + x b i j c

/-- `/repo/fbs/nn/unet.py:112-120` the kernel used by `WeightStandardizedConv`, for a kernel whose axes but the last
(output channels) are indexed by `R`. -/
noncomputable def standardizedKernel {R : Type} [Fintype R] (eps : ℝ) (kernel : R → Fin O → ℝ) : R → Fin O → ℝ := fun r o =>
  let mean := (∑ r', kernel r' o) / Fintype.card R
  let var := (∑ r', |kernel r' o - mean| ^ 2) / Fintype.card R
  (kernel r o - mean) / Real.sqrt (var + eps)

end Attention
end Fbs
