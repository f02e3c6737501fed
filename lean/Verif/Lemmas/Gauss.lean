import Verif.Base.Normal
import Mathlib.Probability.Distributions.Gaussian.Basic
import Mathlib.MeasureTheory.Measure.CharacteristicFunction.Basic

/-! Products of normal laws. -/

open MeasureTheory ProbabilityTheory
open scoped ENNReal NNReal

namespace Fbs

variable {ι : Type} [Fintype ι]

/-- Independent normal entries with means `m` and common variance `v`. -/
noncomputable def gaussProd (m : ι → ℝ) (v : ℝ≥0) : Measure (ι → ℝ) := Measure.pi fun i => gaussianReal (m i) v

instance (m : ι → ℝ) (v : ℝ≥0) : IsProbabilityMeasure (gaussProd m v) := by
  unfold gaussProd; infer_instance

instance : IsProbabilityMeasure (Jax.stdNormal ι) := by
  unfold Jax.stdNormal; infer_instance

theorem stdNormal_eq : Jax.stdNormal ι = gaussProd 0 1 := rfl

theorem gaussProd_conv (m m' : ι → ℝ) (v v' : ℝ≥0) :
    Measure.conv (gaussProd m v) (gaussProd m' v') = gaussProd (m + m') (v + v') := by
  classical
  refine Measure.ext_of_charFunDual (funext fun L => ?_)
  rw [charFunDual_conv, gaussProd, gaussProd, gaussProd, charFunDual_pi, charFunDual_pi, charFunDual_pi,
    ← Finset.prod_mul_distrib]
  refine Finset.prod_congr rfl fun i _ => ?_
  rw [← charFunDual_conv, gaussianReal_conv_gaussianReal]
  rfl

theorem gaussProd_map (m : ι → ℝ) (v : ℝ≥0) (a : ι → ℝ) (c : ℝ) :
    (gaussProd m v).map (fun z i => a i + c * z i) = gaussProd (fun i => a i + c * m i) ((c ^ 2).toNNReal * v) := by
  have h1 : ∀ i, (gaussianReal (m i) v).map (fun z => a i + c * z) =
      gaussianReal (a i + c * m i) ((c ^ 2).toNNReal * v) := by
    intro i
    have : (fun z => a i + c * z) = (a i + ·) ∘ (c * ·) := rfl
    rw [this, ← Measure.map_map (by fun_prop) (by fun_prop), gaussianReal_map_const_mul, gaussianReal_map_const_add,
      add_comm]
    congr 1
    exact NNReal.eq (by simp [sq_nonneg])
  have : ∀ i, IsProbabilityMeasure ((gaussianReal (m i) v).map (fun z => a i + c * z)) := fun i => by
    rw [h1]; infer_instance
  rw [gaussProd, Measure.pi_map_pi (f := fun i z => a i + c * z) (fun i => by fun_prop), gaussProd]
  simp_rw [h1]

/-- The law of `a + sqrt v * z` for standard normal `z`. -/
theorem lintegral_stdNormal {v : ℝ} (hv : 0 ≤ v) (a : ι → ℝ) {f : (ι → ℝ) → ℝ≥0∞} (hf : Measurable f) :
    ∫⁻ z, f (fun i => a i + Real.sqrt v * z i) ∂(Jax.stdNormal ι) = ∫⁻ y, f y ∂(gaussProd a v.toNNReal) := by
  have h := gaussProd_map (0 : ι → ℝ) 1 a (Real.sqrt v)
  have hv' : (Real.sqrt v ^ 2).toNNReal * 1 = v.toNNReal := by rw [Real.sq_sqrt hv, mul_one]
  rw [hv'] at h
  simp only [Pi.zero_apply, mul_zero, add_zero] at h
  rw [show gaussProd a v.toNNReal = (Jax.stdNormal ι).map (fun z i => a i + Real.sqrt v * z i) from h.symm,
    lintegral_map hf (by fun_prop)]

/-- Chapman–Kolmogorov: a normal step after a normal step. -/
theorem lintegral_gaussProd_comp {m a : ι → ℝ} {v w : ℝ≥0} (c : ℝ) {f : (ι → ℝ) → ℝ≥0∞} (hf : Measurable f) :
    ∫⁻ x, ∫⁻ y, f y ∂(gaussProd (fun i => a i + c * x i) w) ∂(gaussProd m v) =
      ∫⁻ y, f y ∂(gaussProd (fun i => a i + c * m i) ((c ^ 2).toNNReal * v + w)) := by
  have h1 : ∀ x : ι → ℝ, ∫⁻ y, f y ∂(gaussProd (fun i => a i + c * x i) w) =
      ∫⁻ y, f ((fun i => a i + c * x i) + y) ∂(gaussProd 0 w) := by
    intro x
    have h := gaussProd_map (0 : ι → ℝ) w (fun i => a i + c * x i) 1
    simp only [one_pow, Real.toNNReal_one, one_mul] at h
    simp only [Pi.zero_apply, add_zero] at h
    rw [← h, lintegral_map hf (by fun_prop)]
    rfl
  have hg : Measurable fun z : ι → ℝ => ∫⁻ y, f (z + y) ∂(gaussProd 0 w) := by
    have : Measurable fun p : (ι → ℝ) × (ι → ℝ) => f (p.1 + p.2) := hf.comp (measurable_fst.add measurable_snd)
    exact this.lintegral_prod_right'
  have h3 : ∫⁻ x, (fun z : ι → ℝ => ∫⁻ y, f (z + y) ∂(gaussProd 0 w)) (fun i => a i + c * x i) ∂(gaussProd m v) =
      ∫⁻ z, ∫⁻ y, f (z + y) ∂(gaussProd 0 w) ∂(gaussProd (fun i => a i + c * m i) ((c ^ 2).toNNReal * v)) := by
    rw [← gaussProd_map, lintegral_map hg (by fun_prop)]
  rw [lintegral_congr h1, h3, ← Measure.lintegral_conv hf, gaussProd_conv]
  simp

/-- Peel the first of `n + 1` independent rows. -/
theorem lintegral_rows {β : Type} [MeasurableSpace β] (ν : Measure β) [SigmaFinite ν] (n : ℕ)
    {f : (Fin (n + 1) → β) → ℝ≥0∞} (hf : Measurable f) :
    ∫⁻ w, f w ∂(Measure.pi fun _ : Fin (n + 1) => ν) =
      ∫⁻ z, ∫⁻ w, f (Fin.cons z w) ∂(Measure.pi fun _ : Fin n => ν) ∂ν := by
  have h := (measurePreserving_piFinSuccAbove (fun _ : Fin (n + 1) => ν) 0).symm
  rw [← h.lintegral_comp hf, lintegral_prod]
  · simp [MeasurableEquiv.piFinSuccAbove, Fin.insertNthEquiv, Fin.insertNth_zero']
  · exact (hf.comp (MeasurableEquiv.measurable _)).aemeasurable

end Fbs
