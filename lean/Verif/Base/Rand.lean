import Mathlib.MeasureTheory.Constructions.Pi
import Mathlib.MeasureTheory.Measure.Lebesgue.Basic

/-!
# Random programs

JAX programs receive a PRNG key, split it, and feed the pieces to samplers.  We model such a program
as a tree of draws.  The tree records which (symbolic) key each draw consumes, the measure of the
ideal draw, and the set of values the primitive may return.
-/

open MeasureTheory
open scoped ENNReal

namespace Fbs

/-- A symbolic PRNG key: the path of `(num, index)` pairs of `jax.random.split(key, num)[index]`
calls, starting at the key handed in by the caller (the empty path). -/
abbrev Key := List (ℕ × ℕ)

/-- `jax.random.split(key, num)[i]`. -/
def split (k : Key) (num i : ℕ) : Key := k ++ [(num, i)]

/-- The array `jax.random.split(key, num)`. -/
def splitAll (k : Key) (num : ℕ) : List Key := (List.range num).map (split k num)

/-- Two keys are independent when they stem from different entries of one and the same split.
In particular a key is not independent of itself, of its descendants, or of keys obtained by
splitting the same parent with another `num`. -/
def Key.Indep (k k' : Key) : Prop :=
  ∃ (p : Key) (n i j : ℕ) (r r' : Key), i ≠ j ∧ k = p ++ (n, i) :: r ∧ k' = p ++ (n, j) :: r'

/-- A random program returning a value of type `α`. -/
inductive Rand (α : Type) : Type 1 where
  /-- return a value -/
  | ret : α → Rand α
  /-- consume `key`, obtain a value in `S` distributed according to `μ`, continue -/
  | draw (key : Key) (β : Type) [MeasurableSpace β] (S : Set β) (μ : Measure β)
      (cont : β → Rand α) : Rand α

namespace Rand

variable {α β γ : Type}

/-- Sequencing. -/
def bind : Rand α → (α → Rand β) → Rand β
  | ret a, g => g a
  | draw k β' S μ c, g => draw k β' S μ (fun b => bind (c b) g)

instance : Monad Rand where
  pure := ret
  bind := bind

/-- One draw. -/
def sample (k : Key) {β : Type} [MeasurableSpace β] (S : Set β) (μ : Measure β) : Rand β :=
  draw k β S μ ret

/-- Expectation of `f` of the returned value: iterated Lebesgue integral over the draws. -/
noncomputable def E : Rand α → (α → ℝ≥0∞) → ℝ≥0∞
  | ret a, f => f a
  | draw _ _ _ μ c, f => ∫⁻ b, E (c b) f ∂μ

/-- `Runs p ks a`: with some admissible draws the program returns `a` having consumed the keys `ks`,
in this order. -/
def Runs : Rand α → List Key → α → Prop
  | ret a, ks, x => ks = [] ∧ x = a
  | draw k _ S _ c, ks, x => ∃ b ∈ S, ∃ ks', ks = k :: ks' ∧ Runs (c b) ks' x

/-- The value `a` is a possible result. -/
def Returns (p : Rand α) (a : α) : Prop := ∃ ks, Runs p ks a

@[simp] theorem bind_ret (a : α) (g : α → Rand β) : (ret a >>= g) = g a := rfl

@[simp] theorem pure_eq (a : α) : (pure a : Rand α) = ret a := rfl

@[simp] theorem E_ret (a : α) (f : α → ℝ≥0∞) : E (ret a) f = f a := rfl

@[simp] theorem E_sample (k : Key) [MeasurableSpace β] (S : Set β) (μ : Measure β)
    (f : β → ℝ≥0∞) : E (sample k S μ) f = ∫⁻ b, f b ∂μ := rfl

theorem E_bind (p : Rand α) (g : α → Rand β) (f : β → ℝ≥0∞) :
    E (p >>= g) f = E p (fun a => E (g a) f) := by
  induction p with
  | ret a => rfl
  | draw k β' S μ c ih =>
    show (∫⁻ b, E (bind (c b) g) f ∂μ) = ∫⁻ b, E (c b) _ ∂μ
    exact lintegral_congr fun b => ih b

theorem E_map (p : Rand α) (g : α → β) (f : β → ℝ≥0∞) :
    E (g <$> p) f = E p (fun a => f (g a)) := by
  show E (p >>= fun a => ret (g a)) f = _
  rw [E_bind]; rfl

theorem E_mono (p : Rand α) {f g : α → ℝ≥0∞} (h : ∀ a, f a ≤ g a) : E p f ≤ E p g := by
  induction p with
  | ret a => exact h a
  | draw k β' S μ c ih => exact lintegral_mono fun b => ih b

theorem E_congr (p : Rand α) {f g : α → ℝ≥0∞} (h : ∀ a, f a = g a) : E p f = E p g := by
  rw [funext h]

@[simp] theorem runs_ret (a : α) (ks : List Key) (x : α) :
    Runs (ret a) ks x ↔ ks = [] ∧ x = a := Iff.rfl

theorem runs_bind {p : Rand α} {g : α → Rand β} {ks : List Key} {y : β} :
    Runs (p >>= g) ks y ↔
      ∃ ks₁ a ks₂, ks = ks₁ ++ ks₂ ∧ Runs p ks₁ a ∧ Runs (g a) ks₂ y := by
  induction p generalizing ks with
  | ret a =>
    constructor
    · intro h; exact ⟨[], a, ks, rfl, ⟨rfl, rfl⟩, h⟩
    · rintro ⟨ks₁, a', ks₂, rfl, ⟨rfl, rfl⟩, h⟩; exact h
  | draw k β' S μ c ih =>
    constructor
    · rintro ⟨b, hb, ks', rfl, h⟩
      obtain ⟨ks₁, a, ks₂, rfl, h1, h2⟩ := (ih b).1 h
      exact ⟨k :: ks₁, a, ks₂, rfl, ⟨b, hb, ks₁, rfl, h1⟩, h2⟩
    · rintro ⟨ks₁, a, ks₂, rfl, ⟨b, hb, ks', rfl, h1⟩, h2⟩
      exact ⟨b, hb, ks' ++ ks₂, rfl, (ih b).2 ⟨ks', a, ks₂, rfl, h1, h2⟩⟩

theorem runs_map {p : Rand α} {g : α → β} {ks : List Key} {y : β} :
    Runs (g <$> p) ks y ↔ ∃ a, Runs p ks a ∧ y = g a := by
  show Runs (p >>= fun a => ret (g a)) ks y ↔ _
  rw [runs_bind]
  constructor
  · rintro ⟨ks₁, a, ks₂, rfl, h, rfl, rfl⟩; exact ⟨a, by simpa using h, rfl⟩
  · rintro ⟨a, h, rfl⟩; exact ⟨ks, a, [], by simp, h, rfl, rfl⟩

theorem runs_sample {k : Key} [MeasurableSpace β] {S : Set β} {μ : Measure β} {ks : List Key}
    {b : β} : Runs (sample k S μ) ks b ↔ ks = [k] ∧ b ∈ S := by
  constructor
  · rintro ⟨b', hb, ks', rfl, rfl, rfl⟩; exact ⟨rfl, hb⟩
  · rintro ⟨rfl, hb⟩; exact ⟨b, hb, [], rfl, rfl, rfl⟩

theorem returns_bind {p : Rand α} {g : α → Rand β} {y : β} :
    Returns (p >>= g) y ↔ ∃ a, Returns p a ∧ Returns (g a) y := by
  constructor
  · rintro ⟨ks, h⟩
    obtain ⟨ks₁, a, ks₂, -, h1, h2⟩ := runs_bind.1 h
    exact ⟨a, ⟨ks₁, h1⟩, ⟨ks₂, h2⟩⟩
  · rintro ⟨a, ⟨ks₁, h1⟩, ⟨ks₂, h2⟩⟩
    exact ⟨ks₁ ++ ks₂, runs_bind.2 ⟨ks₁, a, ks₂, rfl, h1, h2⟩⟩

theorem returns_map {p : Rand α} {g : α → β} {y : β} :
    Returns (g <$> p) y ↔ ∃ a, Returns p a ∧ y = g a := by
  constructor
  · rintro ⟨ks, h⟩
    obtain ⟨a, h', rfl⟩ := runs_map.1 h
    exact ⟨a, ⟨ks, h'⟩, rfl⟩
  · rintro ⟨a, ⟨ks, h⟩, rfl⟩; exact ⟨ks, runs_map.2 ⟨a, h, rfl⟩⟩

@[simp] theorem returns_ret {a x : α} : Returns (ret a) x ↔ x = a := by
  simp [Returns]

theorem returns_sample {k : Key} [MeasurableSpace β] {S : Set β} {μ : Measure β} {b : β} :
    Returns (sample k S μ) b ↔ b ∈ S := by
  simp [Returns, runs_sample]

theorem bind_assoc' (p : Rand α) (g : α → Rand β) (h : β → Rand γ) :
    ((p >>= g) >>= h) = (p >>= fun a => g a >>= h) := by
  induction p with
  | ret a => rfl
  | draw k β' S μ c ih =>
    show draw k β' S μ _ = draw k β' S μ _
    congr 1
    funext b
    exact ih b

theorem bind_ret_right (p : Rand α) : (p >>= ret) = p := by
  induction p with
  | ret a => rfl
  | draw k β' S μ c ih =>
    show draw k β' S μ _ = draw k β' S μ _
    congr 1
    funext b
    exact ih b

instance : LawfulMonad Rand := LawfulMonad.mk'
  (id_map := fun p => bind_ret_right p)
  (pure_bind := fun _ _ => rfl)
  (bind_assoc := bind_assoc')

/-- `jax.lax.scan`: thread a carry through a list of inputs and collect the outputs. -/
def scan {σ ι ο : Type} (body : σ → ι → Rand (σ × ο)) : σ → List ι → Rand (σ × List ο)
  | s, [] => pure (s, [])
  | s, i :: is => do
    let r ← body s i
    let rs ← scan body r.1 is
    pure (rs.1, r.2 :: rs.2)

/-- Every draw of the program is from a probability measure. -/
def IsProb : Rand α → Prop
  | ret _ => True
  | draw _ _ _ μ c => IsProbabilityMeasure μ ∧ ∀ b, IsProb (c b)

theorem E_const {p : Rand α} (hp : p.IsProb) (c : ℝ≥0∞) : E p (fun _ => c) = c := by
  induction p with
  | ret a => rfl
  | draw k β' S μ cont ih =>
    obtain ⟨hμ, hc⟩ := hp
    show (∫⁻ b, E (cont b) _ ∂μ) = c
    simp [fun b => ih b (hc b)]

theorem IsProb.bind {p : Rand α} {g : α → Rand β} (hp : p.IsProb) (hg : ∀ a, (g a).IsProb) :
    (p >>= g).IsProb := by
  induction p with
  | ret a => exact hg a
  | draw k β' S μ c ih => exact ⟨hp.1, fun b => ih b (hp.2 b)⟩

theorem E_const_mul (p : Rand α) {c : ℝ≥0∞} (hc : c ≠ ∞) (f : α → ℝ≥0∞) :
    E p (fun a => c * f a) = c * E p f := by
  induction p with
  | ret a => rfl
  | draw k β' S μ cont ih =>
    show (∫⁻ b, E (cont b) _ ∂μ) = c * ∫⁻ b, E (cont b) f ∂μ
    rw [← lintegral_const_mul' _ _ hc]
    exact lintegral_congr fun b => ih b

end Rand

/-! ### Keys -/

theorem Key.Indep.symm {k k' : Key} (h : k.Indep k') : k'.Indep k := by
  obtain ⟨p, n, i, j, r, r', hij, rfl, rfl⟩ := h
  exact ⟨p, n, j, i, r', r, hij.symm, rfl, rfl⟩

theorem Key.Indep.append {k k' : Key} (h : k.Indep k') (a b : Key) :
    Key.Indep (k ++ a) (k' ++ b) := by
  obtain ⟨p, n, i, j, r, r', hij, rfl, rfl⟩ := h
  exact ⟨p, n, i, j, r ++ a, r' ++ b, hij, by simp, by simp⟩

theorem Key.not_indep_append (k a : Key) : ¬ Key.Indep k (k ++ a) := by
  rintro ⟨p, n, i, j, r, r', hij, rfl, h⟩
  have h1 : p ++ ((n, i) :: r ++ a) = p ++ (n, j) :: r' := by simpa using h
  have h2 := List.append_cancel_left h1
  simp at h2
  exact hij h2.1

theorem Key.not_indep_self (k : Key) : ¬ Key.Indep k k := by
  simpa using Key.not_indep_append k []

theorem Key.indep_split (k : Key) (n : ℕ) {i j : ℕ} (h : i ≠ j) :
    Key.Indep (split k n i) (split k n j) := ⟨k, n, i, j, [], [], h, rfl, rfl⟩

end Fbs
