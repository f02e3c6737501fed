import Verif.Spec.Paths
import Verif.Lemmas.Search
import Mathlib.Probability.Kernel.Composition.Prod

/-!
# Programs that can run, and a concrete model

Used to show that the hypotheses of the property theorems can be met.
-/

open MeasureTheory ProbabilityTheory
open scoped ENNReal

namespace Fbs

namespace Rand
variable {α β : Type}

/-- Every draw of the program admits some value. -/
def Live : Rand α → Prop
  | ret _ => True
  | draw _ _ S _ c => S.Nonempty ∧ ∀ b, Live (c b)

theorem Live.returns {p : Rand α} (h : p.Live) : ∃ a, p.Returns a := by
  induction p with
  | ret a => exact ⟨a, [], rfl, rfl⟩
  | draw k β' S μ c ih =>
    obtain ⟨⟨b, hb⟩, hc⟩ := h
    obtain ⟨a, ks, ha⟩ := ih b (hc b)
    exact ⟨a, k :: ks, b, hb, ks, rfl, ha⟩

theorem Live.bind {p : Rand α} {g : α → Rand β} (hp : p.Live) (hg : ∀ a, (g a).Live) :
    (p >>= g).Live := by
  induction p with
  | ret a => exact hg a
  | draw k β' S μ c ih => exact ⟨hp.1, fun b => ih b (hp.2 b)⟩

theorem Live.map {p : Rand α} (g : α → β) (hp : p.Live) : (g <$> p).Live := by
  show (p >>= fun a => ret (g a)).Live
  exact hp.bind fun _ => trivial

theorem Live.scan {σ ι ο : Type} {body : σ → ι → Rand (σ × ο)} (h : ∀ s i, (body s i).Live) :
    ∀ (is : List ι) (s : σ), (Rand.scan body s is).Live
  | [], _ => trivial
  | i :: is, s => (h s i).bind fun r => (Live.scan h is r.1).bind fun _ => trivial

theorem live_pure (a : α) : (pure a : Rand α).Live := trivial

theorem live_sample {k : Key} [MeasurableSpace β] {S : Set β} {μ : Measure β} (h : S.Nonempty) :
    (sample k S μ).Live := ⟨h, fun _ => trivial⟩

end Rand

namespace Jax

theorem live_uniform (k : Key) : (uniform k).Live := Rand.live_sample ⟨0, by simp⟩

theorem live_uniforms (k : Key) (n : ℕ) : (uniforms k n).Live := Rand.live_sample ⟨fun _ => 0, by simp⟩

theorem live_choice {n : ℕ} [NeZero n] (k : Key) (p : Fin n → ℝ) : (choice k p).Live :=
  (live_uniform k).map _

theorem live_choices {n : ℕ} [NeZero n] (k : Key) (p : Fin n → ℝ) (m : ℕ) : (choices k p m).Live :=
  (live_uniforms k m).map _

end Jax

namespace Spec
open Jax Csmc

variable {N : ℕ} {U V : Type} [MeasurableSpace U]

/-- Reference implementation of the model functions of a state-space model: draw all particles
from the product of the model laws. -/
noncomputable def modelFuns (S : StateSpace U V) (N : ℕ) : Funs N U V where
  initSampler k _ := Rand.sample k Set.univ (Measure.pi fun _ => S.init)
  initLik v xs v' i := S.logG0 v v' (xs i)
  transSampler xs v t k := Rand.sample k Set.univ (Measure.pi fun i => S.trans v t (xs i))
  transLogpdf _ _ _ _ _ := 0
  lik v xs v' t i := S.logG v v' t (xs i)

theorem implements_modelFuns (S : StateSpace U V) (N : ℕ) : Implements (modelFuns S N) S where
  init _ _ _ _ := rfl
  trans _ _ _ _ _ _ := rfl
  lik _ _ _ _ _ := rfl
  initLik _ _ _ _ := rfl

/-- A concrete model: a random walk with uniform start and uniform increments, observed with a
Gaussian likelihood that depends on the previous state. -/
noncomputable def exampleModel : StateSpace ℝ ℝ where
  init := unifMeasure
  prob := inferInstance
  trans _ _ := (Kernel.id ×ₖ Kernel.const ℝ unifMeasure).map fun p => p.1 + p.2
  markov _ _ := Kernel.IsMarkovKernel.map _ (by fun_prop)
  logG v v' t u := -(v - v' - t * u) ^ 2 / 2
  measG _ _ _ := by fun_prop
  logG0 v _ u := -(v - u) ^ 2 / 2
  measG0 _ _ := by fun_prop

theorem live_scanBody [Nonempty U] (S : StateSpace U V) {res : CondResampling N}
    (hres : ∀ k w i j c, (res k w i j c).Live) (c : (Fin N → ℝ) × (Fin N → U)) (i : StepIn N U V) :
    (scanBody (modelFuns S N) res c i).Live := by
  unfold scanBody
  exact (hres _ _ _ _ _).bind fun _ =>
    (Rand.live_sample Set.univ_nonempty).bind fun _ => Rand.live_pure _

theorem live_forwardPass [Nonempty U] (S : StateSpace U V) {res : CondResampling N}
    (hres : ∀ k w i j c, (res k w i j c).Live) (n : ℕ) (key : Key) (us : Arr1 U) (bs : Arr1 (Fin N))
    (vs : Arr1 V) (ts : Arr1 ℝ) : (forwardPass (modelFuns S N) res n key us bs vs ts).Live :=
  (Rand.live_sample Set.univ_nonempty).bind fun _ =>
    (Rand.Live.scan (live_scanBody S hres) _ _).bind fun _ => trivial

theorem live_killing [NeZero N] (k : Key) (w : Fin N → ℝ) (i j : Fin N) (c : Bool) :
    (CsmcResampling.killing k w i j c).Live :=
  (live_uniforms _ _).bind fun _ => (live_choices _ _ _).bind fun _ => by
    cases c
    · trivial
    · exact (live_choice _ _).bind fun _ => trivial

theorem live_kernel [NeZero N] [Nonempty U] (S : StateSpace U V) {res : CondResampling N}
    (hres : ∀ k w i j c, (res k w i j c).Live) (n : ℕ) (b : Bool) (key : Key) (us : Arr1 U)
    (bs : Arr1 (Fin N)) (vs : Arr1 V) (ts : Arr1 ℝ) :
    (kernel (modelFuns S N) res n b key us bs vs ts).Live := by
  refine (live_forwardPass S hres _ _ _ _ _ _).bind fun _ => ?_
  cases b
  · exact (live_choice _ _).bind fun _ => trivial
  · exact (live_choice _ _).bind fun _ =>
      (Rand.Live.scan (body := samplingBody (modelFuns S N)) (fun _ _ => by
        unfold samplingBody
        exact (live_choice _ _).bind fun _ => Rand.live_pure _) _ _).bind fun _ => trivial

end Spec
end Fbs
