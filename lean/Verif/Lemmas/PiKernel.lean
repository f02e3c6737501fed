import Verif.Base.Rand
import Mathlib.MeasureTheory.Integral.Marginal
import Mathlib.Probability.Kernel.MeasurableLIntegral
import Mathlib.Probability.Kernel.Composition.MapComap

/-! Independent moves of an array of particles, as a kernel. -/

open MeasureTheory ProbabilityTheory
open scoped ENNReal

namespace Fbs

variable {N : ℕ} {U X : Type} [MeasurableSpace U] [MeasurableSpace X]

theorem measurable_pi_kernel {ι : Type} [Fintype ι] (M : Kernel X U) [IsMarkovKernel M] :
    Measurable fun x : ι → X => Measure.pi fun i => M (x i) := by
  refine Measurable.measure_of_isPiSystem_of_isProbabilityMeasure generateFrom_pi.symm
    isPiSystem_pi ?_
  rintro s ⟨t, ht, rfl⟩
  simp only [Measure.pi_pi]
  refine Finset.measurable_prod _ fun i _ => ?_
  exact (M.measurable_coe (ht i (Set.mem_univ i))).comp (measurable_pi_apply i)

/-- All particles move independently according to `M`. -/
noncomputable def piKernel (N : ℕ) (M : Kernel U U) [IsMarkovKernel M] :
    Kernel (Fin N → U) (Fin N → U) :=
  ⟨fun x => Measure.pi fun i => M (x i), measurable_pi_kernel M⟩

@[simp] theorem piKernel_apply (M : Kernel U U) [IsMarkovKernel M] (x : Fin N → U) :
    piKernel N M x = Measure.pi fun i => M (x i) := rfl

instance (M : Kernel U U) [IsMarkovKernel M] : IsMarkovKernel (piKernel N M) :=
  ⟨fun x => by rw [piKernel_apply]; infer_instance⟩

/-- Redrawing one coordinate of a product law does not change it. -/
theorem lintegral_redraw {ι : Type} [Fintype ι] [DecidableEq ι] (μ : ι → Measure U)
    [∀ i, IsProbabilityMeasure (μ i)] (b : ι) {f : (ι → U) → ℝ≥0∞} (hf : Measurable f) :
    ∫⁻ u, ∫⁻ y, f (Function.update y b u) ∂(Measure.pi μ) ∂(μ b) = ∫⁻ y, f y ∂(Measure.pi μ) := by
  have hmeas : Measurable fun q : U × (ι → U) => f (Function.update q.2 b q.1) :=
    hf.comp (measurable_pi_iff.2 fun i => by
      by_cases h : i = b
      · subst h; simpa using measurable_fst
      · simp only [Function.update_of_ne h]; exact (measurable_pi_apply i).comp measurable_snd)
  rw [lintegral_lintegral_swap hmeas.aemeasurable]
  refine lintegral_eq_of_lmarginal_eq {b} (f := fun y => ∫⁻ u, f (Function.update y b u) ∂(μ b)) ?_ hf ?_
  · have : Measurable fun q : (ι → U) × U => f (Function.update q.1 b q.2) :=
      hmeas.comp measurable_swap
    exact this.lintegral_prod_right'
  · rw [lmarginal_singleton, lmarginal_singleton]
    funext y
    simp

theorem measurable_lintegral_pi {Z ι : Type} [MeasurableSpace Z] [Fintype ι] (M : Kernel X U)
    [IsMarkovKernel M]
    {x : Z → ι → X} (hx : Measurable x) {f : Z → (ι → U) → ℝ≥0∞}
    (hf : Measurable (Function.uncurry f)) :
    Measurable fun z => ∫⁻ y, f z y ∂(Measure.pi fun i => M (x z i)) := by
  let κ : Kernel Z (ι → U) := ⟨fun z => Measure.pi fun i => M (x z i), (measurable_pi_kernel M).comp hx⟩
  have : IsMarkovKernel κ := ⟨fun z => by
    show IsProbabilityMeasure (Measure.pi fun i => M (x z i)); infer_instance⟩
  exact Measurable.lintegral_kernel_prod_right (κ := κ) hf

theorem measurable_lintegral_kernel {Z : Type} [MeasurableSpace Z] (M : Kernel X U) [IsMarkovKernel M]
    {x : Z → X} (hx : Measurable x) {f : Z → U → ℝ≥0∞} (hf : Measurable (Function.uncurry f)) :
    Measurable fun z => ∫⁻ y, f z y ∂(M (x z)) := by
  let κ : Kernel Z U := M.comap x hx
  exact Measurable.lintegral_kernel_prod_right (κ := κ) hf

end Fbs
