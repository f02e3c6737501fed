import Mathlib.Data.Nat.Basic
import Mathlib.Data.List.Basic

/-!
# The UNet: `fbs/nn/unet.py`

The forward passes acting on shapes `(B, H, W, C)`.  `none`: an assertion fails or an exception is raised (by the module
itself, by `flax`, by `einops` or by a shape mismatch of `jax.numpy`).  Values, parameters and data types are not
modelled; `swish`, `gelu`, `LayerNorm` and `Dense` keep all axes but the last.
-/

namespace Fbs
namespace Unet

/-- A shape `(B, H, W, C)`. -/
structure Shape where
  b : ℕ
  h : ℕ
  w : ℕ
  c : ℕ
  deriving DecidableEq

/-- Python `assert`. -/
def assert (p : Prop) [Decidable p] : Option Unit := if p then some () else none

/-- Output size of a convolution along one axis (`jax/_src/lax/convolution.py`, `core.stride_dim`): input size `d`,
kernel `k`, stride `s`, padding `p` on both sides. -/
def convDim (d k s p : ℕ) : ℕ := if d + 2 * p < k then 0 else (d + 2 * p - k) / s + 1

/-- `flax.linen.Conv` with a square kernel. -/
def conv (features k s p : ℕ) (x : Shape) : Shape := ⟨x.b, convDim x.h k s p, convDim x.w k s p, features⟩

/-- `jnp.concatenate([x, y], axis=-1)`. -/
def concat (x y : Shape) : Option Shape := do
  assert (x.b = y.b ∧ x.h = y.h ∧ x.w = y.w)
  pure ⟨x.b, x.h, x.w, x.c + y.c⟩

/-- `flax.linen.GroupNorm(num_groups)`: refuses channel numbers that are not multiples of the number of groups. -/
def groupNorm (groups : ℕ) (x : Shape) : Option Shape := do
  assert (0 < groups ∧ x.c % groups = 0)
  pure x

/-- `/repo/fbs/nn/unet.py:42-52` `Downsample.__call__`. -/
def downsample (dim : ℕ) (x : Shape) : Option Shape := do
  let y := conv dim 4 2 1 x
  assert (y = ⟨x.b, x.h / 2, x.w / 2, dim⟩)
  pure y

/-- `/repo/fbs/nn/utils.py:53-57` `PixelShuffle` on shapes. -/
def pixelShuffle (scale : ℕ) (x : Shape) : Option Shape := do
  assert (0 < scale ∧ x.c % (scale * scale) = 0)
  pure ⟨x.b, x.h * scale, x.w * scale, x.c / (scale * scale)⟩

/-- `upsampling`: `'resize'`, `'pixel_shuffle'` or anything else. -/
inductive Method
  | resize
  | shuffle
  | other
  deriving DecidableEq

/-- `/repo/fbs/nn/unet.py:55-74` `Upsample.__call__`. -/
def upsample (method : Method) (dim : ℕ) (x : Shape) : Option Shape := do
  let y ← match method with
    | .resize => some (conv dim 3 1 1 ⟨x.b, x.h * 2, x.w * 2, x.c⟩)
    | .shuffle => do
      let y ← pixelShuffle 2 (conv (x.c * 4) 3 1 1 x)
      pure (conv dim 3 1 1 y)
    | .other => none
  assert (y = ⟨x.b, x.h * 2, x.w * 2, dim⟩)
  pure y

/-- `/repo/fbs/nn/unet.py:127-172` `ResnetBlock.__call__`; `embs` is the leading axis of the time embedding (whose rank
is always two, `time_emb.shape[-1]` is replaced by `2 dim`). -/
def resnetBlock (dim groups embs : ℕ) (x : Shape) : Option Shape := do
  assert (embs = x.b)
  let h := conv dim 3 1 1 x
  let h ← groupNorm groups h
  -- `jnp.split(time_emb, 2, axis=-1)` has pieces of shape `(B, 1, 1, dim)`, which fit `h`
  let h := conv dim 3 1 1 h
  let h ← groupNorm groups h
  let x := if x.c ≠ dim then conv dim 1 1 0 x else x
  assert (x = h)
  pure x

/-- `/repo/fbs/nn/unet.py:175-206` and `:209-245`: `Attention.__call__` and `LinearAttention.__call__` have the same
shapes: `dim = heads * dim_head` channels are cut into `(b, h w, heads, dim_head)` and put back. -/
def attention (heads dimHead : ℕ) (x : Shape) : Option Shape := do
  let dim := dimHead * heads
  let qkv := conv (dim * 3) 1 1 0 x
  assert (qkv.c % 3 = 0)
  let q : Shape := { qkv with c := qkv.c / 3 }
  -- `rearrange(t, 'b x y (h d) -> b (x y) h d', h=heads)`
  assert (0 < heads ∧ q.c % heads = 0)
  let q' : ℕ × ℕ × ℕ × ℕ := (q.b, q.h * q.w, heads, q.c / heads)
  assert (q' = (x.b, x.h * x.w, heads, dimHead))
  -- `rearrange(out, 'b h (x y) d -> b x y (h d)', x=H)`
  assert (0 < x.h ∧ q'.2.1 % x.h = 0)
  let out : Shape := ⟨q'.1, x.h, q'.2.1 / x.h, q'.2.2.1 * q'.2.2.2⟩
  assert (out = ⟨x.b, x.h, x.w, dim⟩)
  pure (conv x.c 1 1 0 out)

/-- `/repo/fbs/nn/unet.py:248-264` `AttnBlock.__call__` with the default `heads = 4`, `dim_head = 32`. -/
def attnBlock (x : Shape) : Option Shape := do
  let out ← attention 4 32 x
  assert (out = x)
  pure out

/-- The fields of `UNet` (`/repo/fbs/nn/unet.py:267-276`). -/
structure Config where
  dim : ℕ
  upsampling : Method
  initDim : Option ℕ
  outDim : Option ℕ
  dimMults : List ℕ
  groups : ℕ
  learntVariance : Bool

/-- `self.dim_mults[i]`. -/
def Config.mult (cfg : Config) (i : ℕ) : ℕ := cfg.dimMults.getD i 0

/-- `/repo/fbs/nn/unet.py:284`. -/
def Config.init (cfg : Config) : ℕ := cfg.initDim.getD cfg.dim

/-- `/repo/fbs/nn/unet.py:294-300` the leading axis of the time embedding for a scalar time (`none`) or a vector of
times; `sinusoidal_embedding` refuses odd dimensions.  Times of higher rank are not modelled. -/
def timeEmb (cfg : Config) (b : ℕ) (time : Option ℕ) : Option ℕ := do
  assert (cfg.dim % 2 = 0)
  pure (time.getD b)

/-- `/repo/fbs/nn/unet.py:304-315` one iteration of the down loop; the list is the stack `hs`. -/
def downStep (cfg : Config) (embs : ℕ) (s : Shape × List Shape) (ind : ℕ) : Option (Shape × List Shape) := do
  let (h, hs) := s
  let dimIn := h.c
  let h ← resnetBlock dimIn cfg.groups embs h
  let hs := h :: hs
  let h ← resnetBlock dimIn cfg.groups embs h
  let h ← attnBlock h
  let hs := h :: hs
  let h ← if ind < cfg.dimMults.length - 1 then downsample (cfg.dim * cfg.mult ind) h else some h
  pure (h, hs)

/-- `hs.pop()`. -/
def pop : List Shape → Option (Shape × List Shape)
  | [] => none
  | x :: xs => some (x, xs)

/-- `/repo/fbs/nn/unet.py:330-349` one iteration of the up loop. -/
def upStep (cfg : Config) (embs : ℕ) (s : Shape × List Shape) (ind : ℕ) : Option (Shape × List Shape) := do
  let (h, hs) := s
  let dimIn := cfg.dim * cfg.mult ind
  let dimOut := if ind > 0 then cfg.dim * cfg.mult (ind - 1) else cfg.init
  assert (h.c = dimIn)
  let (x, hs) ← pop hs
  let h ← concat h x
  assert (h.c = dimIn + dimOut)
  let h ← resnetBlock dimIn cfg.groups embs h
  let (x, hs) ← pop hs
  let h ← concat h x
  assert (h.c = dimIn + dimOut)
  let h ← resnetBlock dimIn cfg.groups embs h
  let h ← attnBlock h
  assert (h.c = dimIn)
  let h ← if ind > 0 then upsample cfg.upsampling dimOut h else some h
  pure (h, hs)

/-- `/repo/fbs/nn/unet.py:278-368` `UNet.__call__` from the shapes of `x` and `time` to the shape of the result. -/
def forward (cfg : Config) (x : List ℕ) (time : Option ℕ) : Option (List ℕ) := do
  let x := if x.length < 4 then 1 :: x else x
  match x with
  | [b, h, w, c] =>
    let h0 := conv cfg.init 7 1 3 ⟨b, h, w, c⟩
    let embs ← timeEmb cfg b time
    let n := cfg.dimMults.length
    let (h, hs) ← (List.range n).foldlM (downStep cfg embs) (h0, [h0])
    -- `self.dim_mults[-1]`
    let last ← cfg.dimMults.getLast?
    let midDim := cfg.dim * last
    let h := conv midDim 3 1 1 h
    let h ← resnetBlock midDim cfg.groups embs h
    let h ← attnBlock h
    let h ← resnetBlock midDim cfg.groups embs h
    let (h, hs) ← (List.range n).reverse.foldlM (upStep cfg embs) (h, hs)
    let h := conv cfg.init 3 1 1 h
    let (y, _) ← pop hs
    let h ← concat h y
    assert (h.c = cfg.init * 2)
    let out ← resnetBlock cfg.dim cfg.groups embs h
    let defaultOutDim := c * (if cfg.learntVariance then 2 else 1)
    let out := conv (cfg.outDim.getD defaultOutDim) 1 1 0 out
    if out.b = 1 then some [out.h, out.w, out.c] else some [out.b, out.h, out.w, out.c]
  | _ => none

end Unet
end Fbs
