import Verif.Model.CsmcResampling

/-!
# Specification vocabulary for resampling

Independent of how the schemes are implemented.
-/

open MeasureTheory
open scoped ENNReal

namespace Fbs
namespace Spec

variable {n : ℕ}

/-- Normalised weights. -/
structure Weights (w : Fin n → ℝ) : Prop where
  nonneg : ∀ i, 0 ≤ w i
  sum_one : ∑ i, w i = 1

/-- How often particle `i` was copied. -/
def copies (A : Fin n → Fin n) (i : Fin n) : ℕ := (Finset.univ.filter fun m => A m = i).card

/-- A scheme (a random index array for each weight vector) is unbiased: the expected number
of copies of particle `i` is `n * w i`. -/
def Unbiased (scheme : (Fin n → ℝ) → Rand (Fin n → Fin n)) : Prop :=
  ∀ w, Weights w → ∀ i, (scheme w).E (fun A => (copies A i : ℝ≥0∞)) = n * ENNReal.ofReal (w i)

/-- A uniformly distributed cyclic shift. -/
noncomputable def uniformShift (key : Key) : Rand (Fin n) :=
  Rand.sample key Set.univ ((n : ℝ≥0∞)⁻¹ • Measure.count)

/-- The reference law for conditional killing: an unconditional killing draw
(`fbs.samplers.resampling.killing`) followed by a uniform cyclic shift of the positions. -/
noncomputable def shiftedKilling [NeZero n] (k₁ k₂ : Key) (w : Fin n → ℝ) :
    Rand (Fin n → Fin n) := do
  let A ← Resampling.killing w k₁
  let s ← uniformShift k₂
  pure fun k => A (k - s)

/-- The program `cond` is the conditional law of the program `joint` given `A j = i`, an event of
probability `pi`: `pi * E[F(cond)] = E[F(joint) ; A j = i]` for every test function. -/
def IsConditional (pi : ℝ≥0∞) (joint cond : Rand (Fin n → Fin n)) (i j : Fin n) : Prop :=
  ∀ F : (Fin n → Fin n) → ℝ≥0∞,
    pi * cond.E F = joint.E (fun A => if A j = i then F A else 0)

end Spec
end Fbs
