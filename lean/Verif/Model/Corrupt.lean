import Verif.Model.Images
import Verif.Model.Restore
import Verif.Model.Losses

/-!
# Corrupted images and standardised data: the rest of `fbs/data`

`none` stands for `nan`.
-/

namespace Fbs
namespace Corrupt

open Jax Images Losses

variable {h w c : ℕ}

/-- `/repo/fbs/data/base.py:29-33` `Dataset.standardise` of an array of shape `(n, d)`; `jnp.std` is the square root of the
mean squared deviation, and a constant column gives `0 / 0`. -/
noncomputable def standardise {n d : ℕ} (array : Fin n → Fin d → ℝ) : Fin n → Fin d → Option ℝ := fun i k =>
  let mean := (∑ i', array i' k) / n
  let std := Real.sqrt ((∑ i', |array i' k - mean| ^ 2) / n)
  if std = 0 then none else some ((array i k - mean) / std)

/-- Entry `a` of `jnp.linspace(-1, 1, kernel_size)`. -/
noncomputable def lin (kernelSize : ℕ) (a : Fin kernelSize) : ℝ := -1 + (a : ℕ) * ((1 - -1) / (kernelSize - 1 : ℕ))

/-- `/repo/fbs/data/images.py:48-50` `kernel`, which has the same entries for all pairs of input and output channels. -/
noncomputable def kernel (variance : ℝ) (kernelSize : ℕ) (a b : Fin kernelSize) : ℝ :=
  Real.exp (-lin kernelSize b ^ 2 / variance) * Real.exp (-lin kernelSize a ^ 2 / variance)

/-- An image extended by zeros. -/
noncomputable def padded (img : Fin h → Fin w → Fin c → ℝ) (i j : ℤ) (k : Fin c) : ℝ :=
  if hij : (0 ≤ i ∧ i < h) ∧ 0 ≤ j ∧ j < w then img ⟨i.toNat, by omega⟩ ⟨j.toNat, by omega⟩ k else 0

/-- `/repo/fbs/data/images.py:51-53` `jax.lax.conv_general_dilated(img, kernel, (1, 1), 'SAME', ...)`: correlation with the
kernel after padding with `(kernel_size - 1) // 2` zeros in front and the remaining ones behind. -/
noncomputable def blur (variance : ℝ) (kernelSize : ℕ) (img : Fin h → Fin w → Fin c → ℝ) : Fin h → Fin w → Fin c → ℝ :=
  fun i j _ => ∑ a : Fin kernelSize, ∑ b : Fin kernelSize, ∑ k : Fin c,
    padded img ((i : ℕ) + (a : ℕ) - ((kernelSize - 1) / 2 : ℕ)) ((j : ℕ) + (b : ℕ) - ((kernelSize - 1) / 2 : ℕ)) k *
      kernel variance kernelSize a b

/-- `/repo/fbs/data/images.py:29-54` `Image.conv`. -/
noncomputable def conv [NeZero h] [NeZero w] (key : Key) (img : Fin h → Fin w → Fin c → ℝ) (kernelSize : ℕ) :
    Rand (Fin h → Fin w → Fin c → Option ℝ) := do
  let u ← uniform key
  let variance := u * (5 - 0.1) + 0.1
  pure (minMax (blur variance kernelSize img))

/-- The tasks of `Image.corrupt`: `'inpaint-r'`, `'deconv-s'`, `'supr'`, `'none'` and all others. -/
inductive Task where
  | inpaint (r : ℕ)
  | deconv (s : ℕ)
  | supr
  | none
  | other

/-- `/repo/fbs/data/images.py:72-82` `Image.corrupt`. -/
noncomputable def corrupt [NeZero h] [NeZero w] (hh : 8 ≤ h) (hw : 8 ≤ w) (key : Key) (img : Fin h → Fin w → Fin c → ℝ) :
    Task → Rand (Except String (Fin h → Fin w → Fin c → Option ℝ))
  | .inpaint r => (fun y => .ok fun i j k => some (y i j k)) <$> paint key img r
  | .deconv s => .ok <$> conv key img s
  | .supr => (fun y => .ok fun i j k => some (y i j k)) <$> downsample key img hh hw
  | .none | .other => pure (.error "ValueError")

/-- `/repo/fbs/data/images.py:84-100` `Image.sampler` of a data set of `n` images. -/
noncomputable def sampler [NeZero h] [NeZero w] (hh : 8 ≤ h) (hw : 8 ≤ w) {n : ℕ} (xs : Fin n → Fin h → Fin w → Fin c → ℝ)
    (task : Task) (key : Key) :
    Rand ((Fin h → Fin w → Fin c → ℝ) × Except String (Fin h → Fin w → Fin c → Option ℝ)) := do
  let i ← randint (split key 2 0) n
  let x := xs i
  let y ← corrupt hh hw (split key 2 1) x task
  pure (x, y)

/-- `/repo/fbs/data/images.py:102-110` `Image._enumerate_jit` for `m` indices within range. -/
noncomputable def enumerateJit [NeZero h] [NeZero w] (hh : 8 ≤ h) (hw : 8 ≤ w) {n m : ℕ}
    (xs : Fin n → Fin h → Fin w → Fin c → ℝ) (inds : Fin m → Fin n) (key : Key) (task : Task) :
    Rand ((Fin m → Fin h → Fin w → Fin c → ℝ) × Option (Fin m → Except String (Fin h → Fin w → Fin c → Option ℝ))) :=
  let xs := fun r => xs (inds r)
  match task with
  | .none => pure (xs, none)
  | task => do
    let ys ← vmapR fun r => corrupt hh hw (split key m r) (xs r) task
    pure (xs, some ys)

/-- `/repo/fbs/data/images.py:314-331` `ImageRestore.sampler` of a data set of `n` images with `width * height` pixels. -/
noncomputable def restoreSampler {α : Type} [Inhabited α] {n : ℕ} (xs : Fin n → List α) (width height : ℕ) (srRandom : Bool)
    (task : Restore.Task) (key : Key) : Rand (Except String (List α × List α × Restore.Mask)) := do
  let i ← randint (split key 2 0) n
  let x := xs i
  let mask ← Restore.genMask width height (split key 2 1) srRandom task
  pure (mask.map fun mask => (x, (Restore.unpack x mask).2, mask))

end Corrupt
end Fbs
