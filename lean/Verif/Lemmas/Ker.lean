import Verif.Base.Rand
import Mathlib.Probability.Kernel.Composition.Lemmas

/-! Random programs whose law is a Markov kernel in their arguments. -/

open MeasureTheory ProbabilityTheory
open scoped ENNReal

namespace Fbs

variable {ι ι' X Y α β : Type} [MeasurableSpace X] [MeasurableSpace Y] [MeasurableSpace α] [MeasurableSpace β]

/-- The law of `p i x` does not depend on `i` and is a Markov kernel in `x`. -/
def HasKer (p : ι → X → Rand α) : Prop :=
  ∃ κ : Kernel X α, IsMarkovKernel κ ∧ ∀ i x f, Measurable f → (p i x).E f = ∫⁻ a, f a ∂(κ x)

theorem hasKer_ret {g : X → α} (hg : Measurable g) : HasKer fun (_ : ι) x => Rand.ret (g x) :=
  ⟨Kernel.deterministic g hg, inferInstance, fun i x f hf => by
    rw [Kernel.deterministic_apply, lintegral_dirac' _ hf]; rfl⟩

theorem HasKer.comap {p : ι → X → Rand α} (h : HasKer p) {g : Y → X} (hg : Measurable g) (e : ι' → ι) :
    HasKer fun i y => p (e i) (g y) := by
  obtain ⟨κ, hκ, h⟩ := h
  exact ⟨κ.comap g hg, inferInstance, fun i y f hf => by rw [h _ _ _ hf, Kernel.comap_apply]⟩

theorem HasKer.bind {p : ι → X → Rand α} {q : ι → X × α → Rand β} (hp : HasKer p) (hq : HasKer q) :
    HasKer fun i x => p i x >>= fun a => q i (x, a) := by
  obtain ⟨κ, hκ, hp⟩ := hp
  obtain ⟨η, hη, hq⟩ := hq
  refine ⟨(κ ⊗ₖ η).snd, inferInstance, fun i x f hf => ?_⟩
  have hm : Measurable fun z : X × α => ∫⁻ b, f b ∂(η z) := hf.lintegral_kernel
  have hs : Measurable fun z : α × β => f z.2 := hf.comp measurable_snd
  rw [Rand.E_bind, Kernel.lintegral_snd _ _ hf, Kernel.lintegral_compProd _ _ _ hs]
  simp only [fun z => hq i z f hf]
  exact hp i x _ (hm.comp measurable_prodMk_left)

theorem HasKer.map {p : ι → X → Rand α} (hp : HasKer p) {g : X × α → β} (hg : Measurable g) :
    HasKer fun i x => (fun a => g (x, a)) <$> p i x :=
  hp.bind (hasKer_ret hg)

theorem HasKer.congr {p q : ι → X → Rand α} (hp : HasKer p)
    (h : ∀ i x f, Measurable f → (q i x).E f = (p i x).E f) : HasKer q := by
  obtain ⟨κ, hκ, hp⟩ := hp
  exact ⟨κ, hκ, fun i x f hf => (h i x f hf).trans (hp i x f hf)⟩

/-- Expectations of measurable functions with parameters are measurable. -/
theorem HasKer.measurable {p : ι → X → Rand α} (hp : HasKer p) (i : ι) {f : X → α → ℝ≥0∞}
    (hf : Measurable (Function.uncurry f)) : Measurable fun x => (p i x).E (f x) := by
  obtain ⟨κ, hκ, hp⟩ := hp
  have : ∀ x, (p i x).E (f x) = ∫⁻ a, f x a ∂(κ x) := fun x => hp i x _ (hf.comp measurable_prodMk_left)
  simp only [this]
  exact Measurable.lintegral_kernel_prod_right hf

/-- A program with finitely many results. -/
theorem hasKer_of_law [Fintype α] [MeasurableSingletonClass α] {p : ι → X → Rand α} (q : X → α → ℝ≥0∞)
    (hq : ∀ a, Measurable fun x => q x a) (h1 : ∀ x, ∑ a, q x a = 1)
    (h : ∀ i x f, (p i x).E f = ∑ a, q x a * f a) : HasKer p := by
  have hk : ∀ x s, MeasurableSet s → (∑ a, q x a • Measure.dirac a : Measure α) s
      = ∑ a, q x a * s.indicator 1 a := by
    intro x s hs
    rw [Measure.finsetSum_apply]
    exact Finset.sum_congr rfl fun a _ => by rw [Measure.smul_apply, Measure.dirac_apply' _ hs, smul_eq_mul]
  let κ : Kernel X α := ⟨fun x => ∑ a, q x a • Measure.dirac a, by
    refine Measure.measurable_of_measurable_coe _ fun s hs => ?_
    simp only [hk _ s hs]
    exact Finset.measurable_fun_sum _ fun a _ => (hq a).mul_const _⟩
  refine ⟨κ, ⟨fun x => ⟨?_⟩⟩, fun i x f hf => ?_⟩
  · show (∑ a, q x a • Measure.dirac a : Measure α) Set.univ = 1
    rw [hk x _ MeasurableSet.univ]
    simpa using h1 x
  · show _ = ∫⁻ a, f a ∂(∑ a, q x a • Measure.dirac a : Measure α)
    rw [h, lintegral_finsetSum_measure]
    exact Finset.sum_congr rfl fun a _ => by rw [lintegral_smul_measure, lintegral_dirac' _ hf, smul_eq_mul]

end Fbs
