import Mathlib.Probability.Distributions.Gaussian.Real
import Mathlib.Analysis.Calculus.ParametricIntegral
import Mathlib.MeasureTheory.Integral.Prod
import Verif.Model.Linear
import Verif.Lemmas.GaussKl

/-!
# Mixtures of isotropic Gaussians and their score
-/

open MeasureTheory ProbabilityTheory
open scoped ENNReal NNReal

namespace Fbs
namespace Score

variable {ι : Type} [Fintype ι] [DecidableEq ι] {A : Type} [MeasurableSpace A]

/-- Density of the product Gaussian with mean `m` and variance `q`. -/
noncomputable def dens (q : ℝ≥0) (m x : ι → ℝ) : ℝ := ∏ i, gaussianPDFReal (m i) q (x i)

/-- Score of that density, entry `i`. -/
noncomputable def cs (q : ℝ≥0) (m x : ι → ℝ) (i : ι) : ℝ := -(x i - m i) / q

omit [DecidableEq ι] in
theorem dens_pos {q : ℝ≥0} (hq : q ≠ 0) (m x : ι → ℝ) : 0 < dens q m x :=
  Finset.prod_pos fun _ _ => gaussianPDFReal_pos _ _ _ hq

omit [DecidableEq ι] in
theorem dens_eq (q : ℝ≥0) (m x : ι → ℝ) :
    dens q m x = (Real.sqrt (2 * Real.pi * q))⁻¹ ^ Fintype.card ι * Real.exp (-(∑ i, (x i - m i) ^ 2) / (2 * q)) := by
  simp only [dens, gaussianPDFReal, Finset.prod_mul_distrib, Finset.prod_const, Finset.card_univ]
  rw [← Real.exp_sum]
  congr 2
  rw [neg_div, Finset.sum_div, ← Finset.sum_neg_distrib]
  exact Finset.sum_congr rfl fun i _ => by rw [neg_div]

omit [DecidableEq ι] in
theorem measurable_dens (q : ℝ≥0) : Measurable fun p : (ι → ℝ) × (ι → ℝ) => dens q p.1 p.2 := by
  simp only [dens_eq]
  fun_prop

omit [DecidableEq ι] in
/-- All moments up to the second of the score times the density are bounded by a constant. -/
theorem exists_bound {q : ℝ≥0} (hq : q ≠ 0) : ∃ C : ℝ, 0 ≤ C ∧ ∀ m x : ι → ℝ,
    dens q m x ≤ C ∧ (∀ i, |cs q m x i| * dens q m x ≤ C) ∧ (∀ i, cs q m x i ^ 2 * dens q m x ≤ C) := by
  have hq' : (0 : ℝ) < q := by positivity
  set K : ℝ := (Real.sqrt (2 * Real.pi * q))⁻¹ ^ Fintype.card ι with hK
  have hK0 : 0 ≤ K := by positivity
  have h1 : ∀ m x : ι → ℝ, dens q m x ≤ K := by
    intro m x
    rw [dens_eq]
    refine mul_le_of_le_one_right hK0 (Real.exp_le_one_iff.2 ?_)
    rw [neg_div]
    have : 0 ≤ (∑ i, (x i - m i) ^ 2) / (2 * q) := by positivity
    linarith
  have h2 : ∀ (m x : ι → ℝ) (i : ι), cs q m x i ^ 2 * dens q m x ≤ 2 / q * K := by
    intro m x i
    set z : ℝ := (x i - m i) ^ 2 / (2 * q) with hz
    have hz0 : 0 ≤ z := by positivity
    have e1 : cs q m x i ^ 2 = 2 / q * z := by
      rw [cs, hz]; field_simp
    have e2 : dens q m x ≤ K * Real.exp (-z) := by
      rw [dens_eq]
      refine mul_le_mul_of_nonneg_left (Real.exp_le_exp.2 ?_) hK0
      rw [neg_div, neg_le_neg_iff, hz]
      refine div_le_div_of_nonneg_right ?_ (by positivity)
      exact Finset.single_le_sum (f := fun i => (x i - m i) ^ 2) (fun i _ => sq_nonneg _) (Finset.mem_univ i)
    have e3 : z * Real.exp (-z) ≤ 1 := by
      rw [Real.exp_neg, ← div_eq_mul_inv, div_le_one (Real.exp_pos _)]
      linarith [Real.add_one_le_exp z]
    rw [e1]
    calc 2 / q * z * dens q m x ≤ 2 / q * z * (K * Real.exp (-z)) :=
          mul_le_mul_of_nonneg_left e2 (by positivity)
      _ = 2 / q * K * (z * Real.exp (-z)) := by ring
      _ ≤ 2 / q * K * 1 := mul_le_mul_of_nonneg_left e3 (by positivity)
      _ = _ := mul_one _
  refine ⟨K + 2 / q * K, by positivity, fun m x => ⟨?_, fun i => ?_, fun i => ?_⟩⟩
  · have : 0 ≤ 2 / q * K := by positivity
    linarith [h1 m x]
  · have hd := (dens_pos hq m x).le
    have : |cs q m x i| ≤ 1 + cs q m x i ^ 2 := by
      rcases abs_cases (cs q m x i) with h | h <;> nlinarith [sq_nonneg (cs q m x i - 1), sq_nonneg (cs q m x i + 1)]
    calc |cs q m x i| * dens q m x ≤ (1 + cs q m x i ^ 2) * dens q m x := mul_le_mul_of_nonneg_right this hd
      _ = dens q m x + cs q m x i ^ 2 * dens q m x := by ring
      _ ≤ _ := add_le_add (h1 m x) (h2 m x i)
  · linarith [h2 m x i]

theorem hasDerivAt_dens {q : ℝ≥0} (hq : q ≠ 0) (m x : ι → ℝ) (i : ι) (y : ℝ) :
    HasDerivAt (fun y => dens q m (Function.update x i y))
      (cs q m (Function.update x i y) i * dens q m (Function.update x i y)) y := by
  have hq' : (q : ℝ) ≠ 0 := by exact_mod_cast hq
  have hs : ∀ y, ∑ j, (Function.update x i y j - m j) ^ 2 = (y - m i) ^ 2 + ∑ j ∈ Finset.univ.erase i, (x j - m j) ^ 2 := by
    intro y
    rw [← Finset.add_sum_erase _ _ (Finset.mem_univ i), Function.update_self]
    congr 1
    exact Finset.sum_congr rfl fun j hj => by rw [Function.update_of_ne (Finset.ne_of_mem_erase hj)]
  simp only [dens_eq, hs, cs, Function.update_self]
  set S := ∑ j ∈ Finset.univ.erase i, (x j - m j) ^ 2
  have hg : HasDerivAt (fun y => -((y - m i) ^ 2 + S) / (2 * (q : ℝ))) (-(y - m i) / q) y := by
    have h1 : HasDerivAt (fun y => (y - m i) ^ 2) (2 * (y - m i)) y := by
      have := ((hasDerivAt_id y).sub_const (m i)).fun_pow 2
      exact this.congr_deriv (by simp)
    exact ((h1.add_const S).fun_neg.div_const (2 * (q : ℝ))).congr_deriv (by field_simp)
  exact ((hg.exp).const_mul _).congr_deriv (by ring)

attribute [local irreducible] dens cs

variable (π : Measure A) [IsProbabilityMeasure π] (q : ℝ≥0) (m : A → ι → ℝ)

/-- Density of the mixture of the Gaussians with means `m a`, `a ~ π`. -/
noncomputable def mix (x : ι → ℝ) : ℝ := ∫ a, dens q (m a) x ∂π

variable {π q m}

omit [Fintype ι] [DecidableEq ι] [IsProbabilityMeasure π] in
theorem aesm {f : (ι → ℝ) → ℝ} (hm : Measurable m) (hf : Measurable f) : AEStronglyMeasurable (fun a => f (m a)) π :=
  (hf.comp hm).aestronglyMeasurable

omit [Fintype ι] [DecidableEq ι] in
theorem measurable_cs (q : ℝ≥0) (i : ι) : Measurable fun p : (ι → ℝ) × (ι → ℝ) => cs q p.1 p.2 i := by
  unfold cs; fun_prop

omit [DecidableEq ι] in
theorem integrable_dens (hq : q ≠ 0) (hm : Measurable m) (x : ι → ℝ) : Integrable (fun a => dens q (m a) x) π := by
  obtain ⟨C, -, hC⟩ := exists_bound (ι := ι) hq
  refine Integrable.of_bound (C := C) (aesm (f := fun y => dens q y x) hm ((measurable_dens q).comp (measurable_id.prodMk measurable_const))) ?_
  exact Filter.Eventually.of_forall fun a => by
    rw [Real.norm_of_nonneg (dens_pos hq _ _).le]; exact (hC _ _).1

omit [DecidableEq ι] in
theorem integrable_cs (hq : q ≠ 0) (hm : Measurable m) (x : ι → ℝ) (i : ι) :
    Integrable (fun a => cs q (m a) x i * dens q (m a) x) π := by
  obtain ⟨C, -, hC⟩ := exists_bound (ι := ι) hq
  refine Integrable.of_bound (C := C) (aesm (f := fun y => cs q y x i * dens q y x) hm
    (((measurable_cs q i).mul (measurable_dens q)).comp (measurable_id.prodMk measurable_const))) ?_
  exact Filter.Eventually.of_forall fun a => by
    rw [norm_mul, Real.norm_of_nonneg (dens_pos hq _ _).le]; exact (hC _ _).2.1 i

omit [DecidableEq ι] in
theorem integrable_cs_sq (hq : q ≠ 0) (hm : Measurable m) (x : ι → ℝ) (i : ι) :
    Integrable (fun a => cs q (m a) x i ^ 2 * dens q (m a) x) π := by
  obtain ⟨C, -, hC⟩ := exists_bound (ι := ι) hq
  refine Integrable.of_bound (C := C) (aesm (f := fun y => cs q y x i ^ 2 * dens q y x) hm
    ((((measurable_cs q i).pow_const 2).mul (measurable_dens q)).comp (measurable_id.prodMk measurable_const))) ?_
  exact Filter.Eventually.of_forall fun a => by
    rw [Real.norm_of_nonneg (mul_nonneg (sq_nonneg _) (dens_pos hq _ _).le)]; exact (hC _ _).2.2 i

omit [DecidableEq ι] in
theorem mix_pos (hq : q ≠ 0) (hm : Measurable m) (x : ι → ℝ) : 0 < mix π q m x := by
  rw [mix, integral_pos_iff_support_of_nonneg (fun a => (dens_pos hq _ _).le) (integrable_dens hq hm x)]
  have : Function.support (fun a => dens q (m a) x) = Set.univ :=
    Set.eq_univ_of_forall fun a => (dens_pos hq _ _).ne'
  rw [this]; simp

/-- The derivative may be taken under the integral. -/
theorem hasDerivAt_mix (hq : q ≠ 0) (hm : Measurable m) (x : ι → ℝ) (i : ι) :
    HasDerivAt (fun y => mix π q m (Function.update x i y)) (∫ a, cs q (m a) x i * dens q (m a) x ∂π) (x i) := by
  obtain ⟨C, -, hC⟩ := exists_bound (ι := ι) hq
  have key := (hasDerivAt_integral_of_dominated_loc_of_deriv_le (μ := π) (bound := fun _ => C)
    (F := fun y a => dens q (m a) (Function.update x i y))
    (F' := fun y a => cs q (m a) (Function.update x i y) i * dens q (m a) (Function.update x i y))
    (x₀ := x i) (s := Set.univ) Filter.univ_mem
    (Filter.Eventually.of_forall fun y => (integrable_dens hq hm _).aestronglyMeasurable)
    (integrable_dens hq hm _) (integrable_cs hq hm _ i).aestronglyMeasurable
    (Filter.Eventually.of_forall fun a y _ => by
      rw [norm_mul, Real.norm_of_nonneg (dens_pos hq _ _).le]; exact (hC _ _).2.1 i)
    (integrable_const C)
    (Filter.Eventually.of_forall fun a y _ => hasDerivAt_dens hq (m a) x i y)).2
  exact key.congr_deriv (by simp only [Function.update_eq_self])

variable (π q m) in
/-- The score of the mixture, entry `i`. -/
noncomputable def score (x : ι → ℝ) (i : ι) : ℝ := Linear.grad (fun x => Real.log (mix π q m x)) x i

/-- The score is the conditional expectation of the component scores. -/
theorem score_eq (hq : q ≠ 0) (hm : Measurable m) (x : ι → ℝ) (i : ι) :
    score π q m x i = (∫ a, cs q (m a) x i * dens q (m a) x ∂π) / mix π q m x := by
  have h := (hasDerivAt_mix (π := π) hq hm x i).log
    (by rw [Function.update_eq_self]; exact (mix_pos hq hm x).ne')
  rw [score, Linear.grad, h.deriv, Function.update_eq_self]

omit [DecidableEq ι] in
theorem integral_sq (hq : q ≠ 0) (hm : Measurable m) (x : ι → ℝ) (i : ι) (v : ℝ) :
    Integrable (fun a => (v - cs q (m a) x i) ^ 2 * dens q (m a) x) π ∧
    ∫ a, (v - cs q (m a) x i) ^ 2 * dens q (m a) x ∂π =
      v ^ 2 * mix π q m x - 2 * v * (∫ a, cs q (m a) x i * dens q (m a) x ∂π)
        + ∫ a, cs q (m a) x i ^ 2 * dens q (m a) x ∂π := by
  have e : (fun a => (v - cs q (m a) x i) ^ 2 * dens q (m a) x) = fun a =>
      (v ^ 2 * dens q (m a) x - 2 * v * (cs q (m a) x i * dens q (m a) x)) + cs q (m a) x i ^ 2 * dens q (m a) x := by
    funext a; ring
  have i1 := (integrable_dens (π := π) hq hm x).const_mul (v ^ 2)
  have i2 := (integrable_cs (π := π) hq hm x i).const_mul (2 * v)
  have i3 := integrable_cs_sq (π := π) hq hm x i
  have i12 : Integrable (fun a => v ^ 2 * dens q (m a) x - 2 * v * (cs q (m a) x i * dens q (m a) x)) π := i1.sub i2
  refine ⟨e ▸ i12.add i3, ?_⟩
  rw [e, integral_add i12 i3, integral_sub i1 i2, integral_const_mul, integral_const_mul, mix]

/-- Pointwise optimality, one entry. -/
theorem score_min (hq : q ≠ 0) (hm : Measurable m) (x : ι → ℝ) (i : ι) (v : ℝ) :
    ∫ a, (v - cs q (m a) x i) ^ 2 * dens q (m a) x ∂π =
      ∫ a, (score π q m x i - cs q (m a) x i) ^ 2 * dens q (m a) x ∂π +
        mix π q m x * (v - score π q m x i) ^ 2 := by
  rw [(integral_sq hq hm x i v).2, (integral_sq hq hm x i _).2, score_eq hq hm]
  have := (mix_pos (π := π) hq hm x).ne'
  field_simp
  ring

omit [DecidableEq ι] in
theorem pi_gauss_eq_withDensity (hq : q ≠ 0) (c : ι → ℝ) : (Measure.pi fun i => gaussianReal (c i) q) =
    (volume : Measure (ι → ℝ)).withDensity fun x => ENNReal.ofReal (dens q c x) := by
  refine (Measure.pi_eq fun s hs => ?_)
  rw [withDensity_apply _ (MeasurableSet.univ_pi hs)]
  have hint : ∀ i, IntegrableOn (gaussianPDFReal (c i) q) (s i) := fun i =>
    (integrable_gaussianPDFReal (c i) q).integrableOn
  have hvol : (volume : Measure (ι → ℝ)).restrict (Set.univ.pi s) = Measure.pi fun i => volume.restrict (s i) := by
    rw [volume_pi, Measure.restrict_pi_pi]
  simp only [dens]
  rw [hvol, ← ofReal_integral_eq_lintegral_ofReal]
  · rw [integral_fintype_prod_eq_prod (fun i => gaussianPDFReal (c i) q),
      ENNReal.ofReal_prod_of_nonneg fun i _ => integral_nonneg fun x => gaussianPDFReal_nonneg _ _ _]
    refine Finset.prod_congr rfl fun i _ => ?_
    rw [gaussianReal_apply_eq_integral _ hq]
  · exact Integrable.fintype_prod (f := fun i => gaussianPDFReal (c i) q) hint
  · exact Filter.Eventually.of_forall fun x => Finset.prod_nonneg fun i _ => gaussianPDFReal_nonneg _ _ _

theorem measurable_score (hq : q ≠ 0) (hm : Measurable m) (i : ι) : Measurable fun x => score π q m x i := by
  have h1 : Measurable fun p : (ι → ℝ) × A => cs q (m p.2) p.1 i * dens q (m p.2) p.1 :=
    ((measurable_cs q i).mul (measurable_dens q)).comp ((hm.comp measurable_snd).prodMk measurable_fst)
  have h2 : Measurable fun p : (ι → ℝ) × A => dens q (m p.2) p.1 :=
    (measurable_dens q).comp ((hm.comp measurable_snd).prodMk measurable_fst)
  have h3 : Measurable fun x : ι → ℝ => ∫ a, cs q (m a) x i * dens q (m a) x ∂π :=
    (StronglyMeasurable.integral_prod_right (ν := π) h1.stronglyMeasurable).measurable
  have h4 : Measurable fun x : ι → ℝ => ∫ a, dens q (m a) x ∂π :=
    (StronglyMeasurable.integral_prod_right (ν := π) h2.stronglyMeasurable).measurable
  exact (funext fun x => score_eq (π := π) hq hm x i) ▸ h3.div h4

omit [DecidableEq ι] in
/-- The denoising objective as an integral over the noisy point. -/
theorem denoise_form (hq : q ≠ 0) (hm : Measurable m) {s : (ι → ℝ) → ι → ℝ} (hs : Measurable s) :
    ∫⁻ a, ∫⁻ x, ENNReal.ofReal (∑ i, (s x i - cs q (m a) x i) ^ 2)
      ∂(Measure.pi fun i => gaussianReal (m a i) q) ∂π =
    ∫⁻ x, ENNReal.ofReal (∑ i, ∫ a, (s x i - cs q (m a) x i) ^ 2 * dens q (m a) x ∂π) := by
  have hmd : Measurable fun p : A × (ι → ℝ) => dens q (m p.1) p.2 :=
    (measurable_dens q).comp ((hm.comp measurable_fst).prodMk measurable_snd)
  have hmsum : Measurable fun p : A × (ι → ℝ) => ∑ i, (s p.2 i - cs q (m p.1) p.2 i) ^ 2 := by
    refine Finset.measurable_sum _ fun i _ => Measurable.pow_const ?_ 2
    exact ((measurable_pi_apply i).comp (hs.comp measurable_snd)).sub
      ((measurable_cs q i).comp ((hm.comp measurable_fst).prodMk measurable_snd))
  have h1 : ∀ a, ∫⁻ x, ENNReal.ofReal (∑ i, (s x i - cs q (m a) x i) ^ 2)
      ∂(Measure.pi fun i => gaussianReal (m a i) q) =
      ∫⁻ x, ENNReal.ofReal ((∑ i, (s x i - cs q (m a) x i) ^ 2) * dens q (m a) x) := by
    intro a
    have hma : Measurable fun x => ENNReal.ofReal (dens q (m a) x) :=
      (hmd.comp (measurable_const.prodMk measurable_id)).ennreal_ofReal
    have hmb : Measurable fun x => ENNReal.ofReal (∑ i, (s x i - cs q (m a) x i) ^ 2) :=
      (hmsum.comp (measurable_const.prodMk measurable_id)).ennreal_ofReal
    rw [pi_gauss_eq_withDensity hq, lintegral_withDensity_eq_lintegral_mul _ hma hmb]
    refine lintegral_congr fun x => ?_
    rw [Pi.mul_apply, mul_comm, ENNReal.ofReal_mul (Finset.sum_nonneg fun i _ => sq_nonneg _)]
  simp only [h1]
  rw [lintegral_lintegral_swap]
  · refine lintegral_congr fun x => ?_
    have hi : ∀ i, Integrable (fun a => (s x i - cs q (m a) x i) ^ 2 * dens q (m a) x) π := fun i =>
      (integral_sq hq hm x i _).1
    simp only [Finset.sum_mul]
    rw [← ofReal_integral_eq_lintegral_ofReal (integrable_finsetSum _ fun i _ => hi i)
      (Filter.Eventually.of_forall fun a => Finset.sum_nonneg fun i _ =>
        mul_nonneg (sq_nonneg _) (dens_pos hq _ _).le), integral_finsetSum _ fun i _ => hi i]
  · exact ((hmsum.mul hmd).ennreal_ofReal).aemeasurable

omit [DecidableEq ι] in
theorem measurable_mix (hm : Measurable m) : Measurable (mix π q m) := by
  have h2 : Measurable fun p : (ι → ℝ) × A => dens q (m p.2) p.1 :=
    (measurable_dens q).comp ((hm.comp measurable_snd).prodMk measurable_fst)
  exact (StronglyMeasurable.integral_prod_right (ν := π) h2.stronglyMeasurable).measurable

omit [DecidableEq ι] in
/-- `mix` is the density of the noisy point. -/
theorem lintegral_mix (hq : q ≠ 0) (hm : Measurable m) {f : (ι → ℝ) → ℝ≥0∞} (hf : Measurable f) :
    ∫⁻ a, ∫⁻ x, f x ∂(Measure.pi fun i => gaussianReal (m a i) q) ∂π =
      ∫⁻ x, f x ∂((volume : Measure (ι → ℝ)).withDensity fun x => ENNReal.ofReal (mix π q m x)) := by
  have hmd : Measurable fun p : A × (ι → ℝ) => ENNReal.ofReal (dens q (m p.1) p.2) :=
    ((measurable_dens q).comp ((hm.comp measurable_fst).prodMk measurable_snd)).ennreal_ofReal
  have h1 : ∀ a, ∫⁻ x, f x ∂(Measure.pi fun i => gaussianReal (m a i) q) =
      ∫⁻ x, ENNReal.ofReal (dens q (m a) x) * f x := fun a => by
    have hma : Measurable fun x => ENNReal.ofReal (dens q (m a) x) :=
      hmd.comp (measurable_const.prodMk measurable_id)
    rw [pi_gauss_eq_withDensity hq, lintegral_withDensity_eq_lintegral_mul _ hma hf]
    rfl
  simp only [h1]
  rw [lintegral_lintegral_swap (hmd.mul (hf.comp measurable_snd)).aemeasurable,
    lintegral_withDensity_eq_lintegral_mul _ (measurable_mix hm).ennreal_ofReal hf]
  refine lintegral_congr fun x => ?_
  have hmx : Measurable fun a => ENNReal.ofReal (dens q (m a) x) := hmd.comp (measurable_id.prodMk measurable_const)
  rw [lintegral_mul_const _ hmx, Pi.mul_apply, mix,
    ofReal_integral_eq_lintegral_ofReal (integrable_dens hq hm x) (Filter.Eventually.of_forall fun a => (dens_pos hq _ _).le)]

omit [DecidableEq ι] in
theorem continuous_mix (hq : q ≠ 0) (hm : Measurable m) : Continuous (mix π q m) := by
  obtain ⟨C, -, hC⟩ := exists_bound (ι := ι) hq
  refine continuous_of_dominated (bound := fun _ => C) (fun x => (integrable_dens hq hm x).aestronglyMeasurable)
    (fun x => Filter.Eventually.of_forall fun a => by
      rw [Real.norm_of_nonneg (dens_pos hq _ _).le]; exact (hC _ _).1) (integrable_const C)
    (Filter.Eventually.of_forall fun a => ?_)
  simp only [dens_eq]
  fun_prop

/-- The denoising objective of `s` exceeds that of the mixture score by the mean squared distance to it. -/
theorem population_pythagoras (hq : q ≠ 0) (hm : Measurable m) {s : (ι → ℝ) → ι → ℝ} (hs : Measurable s) :
    ∫⁻ a, ∫⁻ x, ENNReal.ofReal (∑ i, (s x i - cs q (m a) x i) ^ 2)
      ∂(Measure.pi fun i => gaussianReal (m a i) q) ∂π =
    ∫⁻ a, ∫⁻ x, ENNReal.ofReal (∑ i, (score π q m x i - cs q (m a) x i) ^ 2)
      ∂(Measure.pi fun i => gaussianReal (m a i) q) ∂π +
    ∫⁻ a, ∫⁻ x, ENNReal.ofReal (∑ i, (s x i - score π q m x i) ^ 2)
      ∂(Measure.pi fun i => gaussianReal (m a i) q) ∂π := by
  have hsm : Measurable fun x i => score π q m x i := measurable_pi_iff.2 fun i => measurable_score hq hm i
  have hmd : Measurable fun x => ENNReal.ofReal (∑ i, (s x i - score π q m x i) ^ 2) :=
    (Finset.measurable_sum _ fun i _ => (((measurable_pi_apply i).comp hs).sub
      ((measurable_pi_apply i).comp hsm)).pow_const 2).ennreal_ofReal
  rw [lintegral_mix hq hm hmd, lintegral_withDensity_eq_lintegral_mul _ (measurable_mix hm).ennreal_ofReal hmd,
    denoise_form hq hm hsm, denoise_form hq hm hs, ← lintegral_add_right _ ((measurable_mix hm).ennreal_ofReal.mul hmd)]
  refine lintegral_congr fun x => ?_
  have hp := (mix_pos (π := π) hq hm x).le
  rw [Pi.mul_apply, ← ENNReal.ofReal_mul hp, ← ENNReal.ofReal_add (Finset.sum_nonneg fun i _ => integral_nonneg fun a =>
    mul_nonneg (sq_nonneg _) (dens_pos hq _ _).le) (mul_nonneg hp (Finset.sum_nonneg fun i _ => sq_nonneg _)),
    Finset.mul_sum, ← Finset.sum_add_distrib]
  exact congrArg _ (Finset.sum_congr rfl fun i _ => score_min hq hm x i (s x i))

/-- The mixture score minimises the denoising objective among all measurable functions. -/
theorem population_min (hq : q ≠ 0) (hm : Measurable m) {s : (ι → ℝ) → ι → ℝ} (hs : Measurable s) :
    ∫⁻ a, ∫⁻ x, ENNReal.ofReal (∑ i, (score π q m x i - cs q (m a) x i) ^ 2)
      ∂(Measure.pi fun i => gaussianReal (m a i) q) ∂π ≤
    ∫⁻ a, ∫⁻ x, ENNReal.ofReal (∑ i, (s x i - cs q (m a) x i) ^ 2)
      ∂(Measure.pi fun i => gaussianReal (m a i) q) ∂π :=
  (population_pythagoras hq hm hs).ge.trans' le_self_add

end Score
end Fbs
