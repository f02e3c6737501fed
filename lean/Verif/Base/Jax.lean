import Verif.Base.Rand
import Mathlib.Analysis.SpecialFunctions.Log.Basic
import Mathlib.Data.Fintype.BigOperators
import Mathlib.Data.Finset.Max

/-!
# JAX primitives (trusted transcription, JAX 0.4.26)

Real-valued arrays of length `n` are functions `Fin n → ℝ`.
-/

open MeasureTheory
open scoped ENNReal

namespace Fbs
namespace Jax

variable {n m : ℕ} {α : Type}

/-- `jnp.cumsum`. -/
def cumsum (w : Fin n → ℝ) (i : Fin n) : ℝ := ∑ j ∈ Finset.Iic i, w j

/-- The last entry of `jnp.cumsum` (zero for an empty array). -/
def total (w : Fin n → ℝ) : ℝ := ∑ j, w j

/-- `jnp.searchsorted(a, v)` with the default `side='left'` for a non-decreasing `a`:
the number of entries strictly smaller than `v`. -/
noncomputable def searchsorted (a : Fin n → ℝ) (v : ℝ) : ℕ := by
  classical exact (Finset.univ.filter fun i => a i < v).card

/-- `jnp.clip(idx, 0, n - 1)` of a natural number, as an index (needs a non-empty array). -/
def clipIdx (n : ℕ) [NeZero n] (i : ℕ) : Fin n :=
  ⟨min i (n - 1), lt_of_le_of_lt (min_le_right _ _) (Nat.sub_lt (Nat.pos_of_ne_zero (NeZero.ne n)) one_pos)⟩

/-- `x.at[j].set(v)`. -/
def atSet (x : Fin n → α) (j : Fin n) (v : α) : Fin n → α := Function.update x j v

/-- `x[inds]` / `jnp.take(x, inds, axis=0)` with valid indices. -/
def take (x : Fin n → α) (inds : Fin m → Fin n) : Fin m → α := fun i => x (inds i)

/-- `jnp.roll(x, shift)` for an integer shift: `out[k] = x[(k - shift) mod n]`. -/
def roll (x : Fin n → α) (shift : ℤ) : Fin n → α := fun k =>
  x ⟨(((k : ℤ) - shift) % (n : ℤ)).toNat, by
    have hn : (0 : ℤ) < n := by exact_mod_cast lt_of_le_of_lt (Nat.zero_le _) k.2
    have h1 := Int.emod_nonneg ((k : ℤ) - shift) hn.ne'
    have h2 := Int.emod_lt_of_pos ((k : ℤ) - shift) hn
    omega⟩

/-- `weights.max()` of a non-empty array. -/
noncomputable def vmax [NeZero n] (w : Fin n → ℝ) : ℝ :=
  Finset.univ.sup' ⟨0, Finset.mem_univ _⟩ w

/-- `jax.scipy.special.logsumexp`. -/
noncomputable def logsumexp (x : Fin n → ℝ) : ℝ := Real.log (∑ i, Real.exp (x i))

/-! ### Random primitives -/

/-- Lebesgue measure on `[0,1)`: the law of one `jax.random.uniform` draw. -/
noncomputable def unifMeasure : Measure ℝ := volume.restrict (Set.Ico 0 1)

/-- `jax.random.uniform(key)`: values in `[0,1)`. -/
noncomputable def uniform (k : Key) : Rand ℝ := Rand.sample k (Set.Ico 0 1) unifMeasure

/-- `jax.random.uniform(key, (n,))`. -/
noncomputable def uniforms (k : Key) (n : ℕ) : Rand (Fin n → ℝ) :=
  Rand.sample k {u | ∀ i, u i ∈ Set.Ico (0 : ℝ) 1} (Measure.pi fun _ => unifMeasure)

/-- The index computed by `jax.random.choice(key, n, p=p)` from its uniform draw `u`
(`jax/_src/random.py`): `searchsorted(cumsum(p), cumsum(p)[-1] * (1 - u))`. The result is
always a valid index for `u ∈ [0,1)` (`choiceIdx_eq` below); clipping only makes it total. -/
noncomputable def choiceIdx [NeZero n] (p : Fin n → ℝ) (u : ℝ) : Fin n :=
  clipIdx n (searchsorted (cumsum p) (total p * (1 - u)))

/-- `jax.random.choice(key, n, p=p)`. -/
noncomputable def choice [NeZero n] (k : Key) (p : Fin n → ℝ) : Rand (Fin n) :=
  choiceIdx p <$> uniform k

/-- `jax.random.choice(key, n, (m,), p=p)` (with replacement). -/
noncomputable def choices [NeZero n] (k : Key) (p : Fin n → ℝ) (m : ℕ) : Rand (Fin m → Fin n) :=
  (fun u i => choiceIdx p (u i)) <$> uniforms k m

/-- `jax.random.randint(key, (m,), 0, n)` for `n ≥ 1`, ideal uniform draws
(the modulo bias of the implementation is not modelled). -/
noncomputable def randints (k : Key) (m n : ℕ) : Rand (Fin m → Fin n) :=
  Rand.sample k Set.univ (Measure.pi fun _ => ((n : ℝ≥0∞)⁻¹ • Measure.count))

/-- `jax.random.randint(key, (), 0, n)`, also the draw made by `jax.random.choice(key, n)` without
weights (`jax/_src/random.py`). -/
noncomputable def randint (k : Key) (n : ℕ) : Rand (Fin n) :=
  Rand.sample k Set.univ ((n : ℝ≥0∞)⁻¹ • Measure.count)

end Jax
end Fbs
