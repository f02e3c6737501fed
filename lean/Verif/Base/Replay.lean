import Verif.Base.Rand

/-!
# Runs with a fixed generator

On a machine the value of a draw is a function of the key and of the kind of draw.  `Gen` is such a function and
`Rand.replay` runs a program with it, so two programs can be compared number by number.
-/

open MeasureTheory

namespace Fbs

/-- A pseudo random number generator: the value of the draw with key `k` from `S` and `μ`, if there is one. -/
abbrev Gen : Type 1 := ∀ (_ : Key) (β : Type) [MeasurableSpace β] (_ : Set β) (_ : Measure β), Option β

namespace Rand

variable {α β : Type}

/-- The result of a program with the given generator. -/
def replay (g : Gen) : Rand α → Option α
  | ret a => some a
  | draw k β S μ c => (g k β S μ).bind fun b => replay g (c b)

@[simp] theorem replay_ret (g : Gen) (a : α) : (ret a).replay g = some a := rfl

@[simp] theorem replay_sample (g : Gen) (k : Key) [MeasurableSpace β] (S : Set β) (μ : Measure β) :
    (sample k S μ).replay g = g k β S μ := by
  show ((g k β S μ).bind fun b => some b) = _
  cases g k β S μ <;> rfl

@[simp] theorem replay_bind (g : Gen) (p : Rand α) (f : α → Rand β) :
    (p >>= f).replay g = (p.replay g).bind fun a => (f a).replay g := by
  induction p with
  | ret a => rfl
  | draw k β' S μ c ih =>
    show ((g k β' S μ).bind fun b => (bind (c b) f).replay g) = ((g k β' S μ).bind fun b => (c b).replay g).bind _
    rw [Option.bind_assoc]
    exact congrArg _ (funext fun b => ih b)

@[simp] theorem replay_map (g : Gen) (p : Rand α) (f : α → β) : (f <$> p).replay g = (p.replay g).map f := by
  show (p >>= fun a => ret (f a)).replay g = _
  rw [replay_bind]
  cases p.replay g <;> rfl

end Rand
end Fbs
