import Mathlib.Probability.Distributions.Gaussian.Multivariate
import Mathlib.Probability.Distributions.Gaussian.Fernique
import Mathlib.Probability.Distributions.Gaussian.Real
import Mathlib.InformationTheory.KullbackLeibler.Basic
import Mathlib.MeasureTheory.Integral.Pi
import Mathlib.MeasureTheory.Measure.Haar.InnerProductSpace
import Mathlib.MeasureTheory.Measure.Lebesgue.EqHaar

/-!
# Density and relative entropy of multivariate Gaussian measures
-/

open MeasureTheory ProbabilityTheory Matrix WithLp
open scoped ENNReal MatrixOrder

namespace Fbs
namespace GaussKl

variable {n : Type} [Fintype n] [DecidableEq n]

/-- The quadratic form `(x - m)ᵀ S⁻¹ (x - m)`. -/
noncomputable def quad (S : Matrix n n ℝ) (m x : n → ℝ) : ℝ := (x - m) ⬝ᵥ S⁻¹ *ᵥ (x - m)

/-- Log density of the Gaussian measure. -/
noncomputable def logDens (m : n → ℝ) (S : Matrix n n ℝ) (x : n → ℝ) : ℝ :=
  -(1 / 2) * (Fintype.card n * Real.log (2 * Real.pi) + Real.log S.det + quad S m x)

theorem measurable_quad (S : Matrix n n ℝ) (m : n → ℝ) : Measurable (quad S m) := by
  unfold quad dotProduct mulVec dotProduct
  fun_prop

theorem measurable_logDens (m : n → ℝ) (S : Matrix n n ℝ) : Measurable (logDens m S) :=
  ((measurable_quad S m).const_add _).const_mul _

omit [DecidableEq n] in
theorem lintegral_prod_pdf (s : n → Set ℝ) :
    ∫⁻ x in Set.univ.pi s, ∏ i, gaussianPDF 0 1 (x i) = ∏ i, gaussianReal 0 1 (s i) := by
  have h1 : ∀ x : n → ℝ, ∏ i, gaussianPDF 0 1 (x i) = ENNReal.ofReal (∏ i, gaussianPDFReal 0 1 (x i)) := by
    intro x
    rw [ENNReal.ofReal_prod_of_nonneg fun i _ => gaussianPDFReal_nonneg _ _ _]
    rfl
  have hint : ∀ i, IntegrableOn (gaussianPDFReal 0 1) (s i) := fun i => (integrable_gaussianPDFReal 0 1).integrableOn
  have hvol : (volume : Measure (n → ℝ)).restrict (Set.univ.pi s) = Measure.pi fun i => volume.restrict (s i) := by
    rw [volume_pi, Measure.restrict_pi_pi]
  simp only [h1]
  rw [hvol, ← ofReal_integral_eq_lintegral_ofReal]
  · rw [integral_fintype_prod_eq_prod (fun _ => gaussianPDFReal 0 1),
      ENNReal.ofReal_prod_of_nonneg fun i _ => integral_nonneg fun x => gaussianPDFReal_nonneg _ _ _]
    refine Finset.prod_congr rfl fun i _ => ?_
    rw [gaussianReal_apply_eq_integral _ one_ne_zero]
  · exact Integrable.fintype_prod (f := fun _ => gaussianPDFReal 0 1) hint
  · exact Filter.Eventually.of_forall fun x => Finset.prod_nonneg fun i _ => gaussianPDFReal_nonneg _ _ _

omit [DecidableEq n] in
theorem pi_eq_withDensity : (Measure.pi fun _ : n => gaussianReal 0 1) =
    (volume : Measure (n → ℝ)).withDensity fun x => ∏ i, gaussianPDF 0 1 (x i) := by
  refine (Measure.pi_eq fun s hs => ?_)
  rw [withDensity_apply _ (MeasurableSet.univ_pi hs), lintegral_prod_pdf s]

omit [DecidableEq n] in
theorem pdf_prod_eq (x : n → ℝ) :
    ∏ i, gaussianPDF 0 1 (x i) = ENNReal.ofReal (Real.exp (-(1 / 2) * (Fintype.card n * Real.log (2 * Real.pi)
      + ∑ i, x i ^ 2))) := by
  have h1 : ∏ i, gaussianPDF 0 1 (x i) = ENNReal.ofReal (∏ i, gaussianPDFReal 0 1 (x i)) := by
    rw [ENNReal.ofReal_prod_of_nonneg fun i _ => gaussianPDFReal_nonneg _ _ _]
    rfl
  rw [h1]
  congr 1
  have h2 : ∀ i, gaussianPDFReal 0 1 (x i) = Real.exp (-(1 / 2) * (Real.log (2 * Real.pi) + x i ^ 2)) := by
    intro i
    have hp : (0 : ℝ) < 2 * Real.pi := by positivity
    rw [gaussianPDFReal, mul_add, Real.exp_add]
    congr 1
    · rw [NNReal.coe_one, mul_one, ← Real.exp_log (Real.sqrt_pos.2 hp), ← Real.exp_neg, Real.log_sqrt hp.le]
      congr 1; ring
    · congr 1; simp; ring
  rw [Finset.prod_congr rfl fun i _ => h2 i, ← Real.exp_sum, ← Finset.mul_sum, Finset.sum_add_distrib]
  simp

/-- The Gaussian measure as an integral against its density. -/
theorem lintegral_mvg (m : EuclideanSpace ℝ n) {S : Matrix n n ℝ} (hS : S.PosDef)
    {f : EuclideanSpace ℝ n → ℝ≥0∞} (hf : Measurable f) :
    ∫⁻ x, f x ∂(multivariateGaussian m S) =
      ∫⁻ x, f x * ENNReal.ofReal (Real.exp (logDens (ofLp m) S (ofLp x))) := by
  set R := CFC.sqrt S with hR
  have hRR : R * R = S := CFC.sqrt_mul_sqrt_self S hS.posSemidef.nonneg
  have hRsym : Rᵀ = R := by
    have := (CFC.sqrt_nonneg S).isSelfAdjoint
    rw [isSelfAdjoint_iff, star_eq_conjTranspose, conjTranspose_eq_transpose_of_trivial] at this
    exact this
  have hdetS : 0 < S.det := hS.det_pos
  have hdet : R.det * R.det = S.det := by rw [← det_mul, hRR]
  have hdet0 : R.det ≠ 0 := by rintro h; rw [h] at hdet; simp at hdet; exact hdetS.ne hdet
  have hRu : IsUnit R.det := isUnit_iff_ne_zero.2 hdet0
  have hSinv : S⁻¹ = R⁻¹ * R⁻¹ := by rw [← hRR, Matrix.mul_inv_rev]
  have hq : ∀ x : n → ℝ, quad S (ofLp m) (ofLp m + R *ᵥ x) = ∑ i, x i ^ 2 := by
    intro x
    unfold quad
    rw [add_sub_cancel_left, hSinv, ← mulVec_mulVec, mulVec_mulVec _ R⁻¹ R, nonsing_inv_mul _ hRu, one_mulVec,
      ← vecMul_transpose, hRsym, ← dotProduct_mulVec, mulVec_mulVec, mul_nonsing_inv _ hRu, one_mulVec]
    simp [dotProduct, sq]
  have hmap : multivariateGaussian m S =
      (Measure.pi fun _ : n => gaussianReal 0 1).map fun x => toLp 2 (ofLp m + R *ᵥ x) := by
    unfold multivariateGaussian
    rw [← map_pi_eq_stdGaussian, Measure.map_map (by fun_prop) (by fun_prop)]
    rfl
  have hmeas : Measurable fun x : n → ℝ => toLp 2 (ofLp m + R *ᵥ x) := by
    refine (WithLp.measurable_toLp 2 _).comp ?_
    refine measurable_const.add ?_
    unfold mulVec dotProduct
    fun_prop
  have hfm : Measurable fun x : n → ℝ => f (toLp 2 (ofLp m + R *ᵥ x)) := hf.comp hmeas
  rw [hmap, lintegral_map hf hmeas, pi_eq_withDensity, lintegral_withDensity_eq_lintegral_mul _
    (by fun_prop) hfm]
  -- change of variables
  set h : (n → ℝ) → ℝ≥0∞ := fun z => f (toLp 2 z) * ENNReal.ofReal (Real.exp (logDens (ofLp m) S z)) with hh
  have hhm : Measurable h := by
    refine (hf.comp (WithLp.measurable_toLp 2 _)).mul ?_
    exact ((measurable_logDens _ S).exp).ennreal_ofReal
  have e1 : ∀ x : n → ℝ, ((fun x : n → ℝ => ∏ i, gaussianPDF 0 1 (x i)) * fun x => f (toLp 2 (ofLp m + R *ᵥ x))) x =
      ENNReal.ofReal |R.det| * h (ofLp m + R *ᵥ x) := by
    intro x
    simp only [Pi.mul_apply, hh, pdf_prod_eq, logDens, hq]
    have : Real.exp (-(1 / 2) * (Fintype.card n * Real.log (2 * Real.pi) + ∑ i, x i ^ 2)) =
        |R.det| * Real.exp (-(1 / 2) * (Fintype.card n * Real.log (2 * Real.pi) + Real.log S.det + ∑ i, x i ^ 2)) := by
      have h2 : |R.det| = Real.exp (1 / 2 * Real.log S.det) := by
        rw [← hdet, ← abs_mul_abs_self R.det, Real.log_mul (abs_ne_zero.2 hdet0) (abs_ne_zero.2 hdet0)]
        rw [show 1 / 2 * (Real.log |R.det| + Real.log |R.det|) = Real.log |R.det| by ring,
          Real.exp_log (abs_pos.2 hdet0)]
      rw [h2, ← Real.exp_add]
      congr 1; ring
    rw [this, ENNReal.ofReal_mul (abs_nonneg _)]
    ring
  rw [lintegral_congr e1, lintegral_const_mul' _ _ ENNReal.ofReal_ne_top]
  have hlin : ∫⁻ x : n → ℝ, h (ofLp m + R *ᵥ x) = ENNReal.ofReal |R.det⁻¹| * ∫⁻ z, h z := by
    have hd : LinearMap.det (Matrix.toLin' R) ≠ 0 := by rwa [LinearMap.det_toLin']
    have hmp := Measure.map_linearMap_addHaar_pi_eq_smul_addHaar hd (volume : Measure (n → ℝ))
    have hg : Measurable fun z => h (ofLp m + z) := hhm.comp (measurable_const.add measurable_id)
    calc ∫⁻ x : n → ℝ, h (ofLp m + R *ᵥ x)
        = ∫⁻ z, h (ofLp m + z) ∂(volume.map (Matrix.toLin' R)) := by
          rw [lintegral_map hg (Matrix.toLin' R).continuous_of_finiteDimensional.measurable]
          rfl
      _ = ENNReal.ofReal |R.det⁻¹| * ∫⁻ z, h (ofLp m + z) := by
          rw [hmp, lintegral_smul_measure, LinearMap.det_toLin', smul_eq_mul]
      _ = _ := by rw [lintegral_add_left_eq_self h]
  rw [hlin, ← mul_assoc, ← ENNReal.ofReal_mul (abs_nonneg _), ← abs_mul, mul_inv_cancel₀ hdet0, abs_one,
    ENNReal.ofReal_one, one_mul]
  have hfin : Measurable fun x : EuclideanSpace ℝ n => f x * ENNReal.ofReal (Real.exp (logDens (ofLp m) S (ofLp x))) := by
    refine hf.mul ?_
    exact (((measurable_logDens _ S).comp (WithLp.measurable_ofLp 2 _)).exp).ennreal_ofReal
  rw [← (PiLp.volume_preserving_toLp n).lintegral_comp hfin]

theorem mvg_eq_withDensity (m : EuclideanSpace ℝ n) {S : Matrix n n ℝ} (hS : S.PosDef) :
    multivariateGaussian m S = volume.withDensity fun x =>
      ENNReal.ofReal (Real.exp (logDens (ofLp m) S (ofLp x))) := by
  refine Measure.ext fun s hs => ?_
  rw [withDensity_apply _ hs, ← lintegral_indicator hs, ← lintegral_indicator_one hs,
    lintegral_mvg m hS (measurable_one.indicator hs)]
  refine lintegral_congr fun x => ?_
  by_cases hx : x ∈ s <;> simp [hx]

/-- The ratio of the two densities. -/
noncomputable def ratio (m0 : EuclideanSpace ℝ n) (S0 : Matrix n n ℝ) (m1 : EuclideanSpace ℝ n) (S1 : Matrix n n ℝ)
    (x : EuclideanSpace ℝ n) : ℝ := logDens (ofLp m0) S0 (ofLp x) - logDens (ofLp m1) S1 (ofLp x)

theorem mvg_eq_withDensity_mvg (m0 m1 : EuclideanSpace ℝ n) {S0 S1 : Matrix n n ℝ} (h0 : S0.PosDef) (h1 : S1.PosDef) :
    multivariateGaussian m0 S0 = (multivariateGaussian m1 S1).withDensity fun x =>
      ENNReal.ofReal (Real.exp (ratio m0 S0 m1 S1 x)) := by
  have hm : ∀ m : EuclideanSpace ℝ n, ∀ S : Matrix n n ℝ,
      Measurable fun x : EuclideanSpace ℝ n => logDens (ofLp m) S (ofLp x) := fun m S =>
    (measurable_logDens _ S).comp (WithLp.measurable_ofLp 2 _)
  rw [mvg_eq_withDensity m0 h0, mvg_eq_withDensity m1 h1, ← withDensity_mul]
  · congr 1
    funext x
    rw [Pi.mul_apply, ← ENNReal.ofReal_mul (Real.exp_pos _).le, ← Real.exp_add, ratio]
    congr 2; ring
  · exact ((hm m1 S1).exp).ennreal_ofReal
  · exact (((hm m0 S0).sub (hm m1 S1)).exp).ennreal_ofReal

theorem llr_mvg (m0 m1 : EuclideanSpace ℝ n) {S0 S1 : Matrix n n ℝ} (h0 : S0.PosDef) (h1 : S1.PosDef) :
    multivariateGaussian m0 S0 ≪ multivariateGaussian m1 S1 ∧
    llr (multivariateGaussian m0 S0) (multivariateGaussian m1 S1) =ᵐ[multivariateGaussian m0 S0]
      ratio m0 S0 m1 S1 := by
  have hm : ∀ m : EuclideanSpace ℝ n, ∀ S : Matrix n n ℝ,
      Measurable fun x : EuclideanSpace ℝ n => logDens (ofLp m) S (ofLp x) := fun m S =>
    (measurable_logDens _ S).comp (WithLp.measurable_ofLp 2 _)
  have hr : Measurable fun x => ENNReal.ofReal (Real.exp (ratio m0 S0 m1 S1 x)) :=
    (((hm m0 S0).sub (hm m1 S1)).exp).ennreal_ofReal
  have hac : multivariateGaussian m0 S0 ≪ multivariateGaussian m1 S1 := by
    rw [mvg_eq_withDensity_mvg m0 m1 h0 h1]; exact withDensity_absolutelyContinuous _ _
  refine ⟨hac, hac.ae_le ?_⟩
  have := Measure.rnDeriv_withDensity (multivariateGaussian m1 S1) hr
  rw [← mvg_eq_withDensity_mvg m0 m1 h0 h1] at this
  filter_upwards [this] with x hx
  rw [llr, hx, ENNReal.toReal_ofReal (Real.exp_pos _).le, Real.log_exp]

theorem memLp_coord (m : EuclideanSpace ℝ n) (S : Matrix n n ℝ) (i : n) :
    MemLp (fun x : EuclideanSpace ℝ n => x i) 2 (multivariateGaussian m S) := by
  have h := (IsGaussian.memLp_two_id (μ := multivariateGaussian m S))
  exact (EuclideanSpace.proj (𝕜 := ℝ) i).comp_memLp' h

theorem integral_coord (m : EuclideanSpace ℝ n) (S : Matrix n n ℝ) (i : n) :
    ∫ x, x i ∂(multivariateGaussian m S) = m i := by
  have := (EuclideanSpace.proj (𝕜 := ℝ) i).integral_comp_id_comm (μ := multivariateGaussian m S)
    IsGaussian.integrable_id
  have h2 : ∫ x, x ∂(multivariateGaussian m S) = m := integral_id_multivariateGaussian
  rw [h2] at this
  exact this

theorem integrable_quadTerm (m : EuclideanSpace ℝ n) (S : Matrix n n ℝ) (c : n → ℝ) (i j : n) :
    Integrable (fun x : EuclideanSpace ℝ n => (x i - c i) * (x j - c j)) (multivariateGaussian m S) := by
  have h : ∀ i, MemLp (fun x : EuclideanSpace ℝ n => x i - c i) 2 (multivariateGaussian m S) := fun i =>
    (memLp_coord m S i).sub (memLp_const _)
  exact (h i).integrable_mul (h j)

theorem integral_quadTerm (m : EuclideanSpace ℝ n) {S : Matrix n n ℝ} (hS : S.PosSemidef) (c : n → ℝ) (i j : n) :
    ∫ x, (x i - c i) * (x j - c j) ∂(multivariateGaussian m S) = S i j + (m i - c i) * (m j - c j) := by
  have hi : ∀ i, Integrable (fun x : EuclideanSpace ℝ n => x i) (multivariateGaussian m S) := fun i =>
    (memLp_coord m S i).integrable (by norm_num)
  have hcov := covariance_eval_multivariateGaussian (μ := m) hS i j
  rw [covariance] at hcov
  simp only [integral_coord] at hcov
  have e : ∀ x : EuclideanSpace ℝ n, (x i - c i) * (x j - c j) =
      (x i - m i) * (x j - m j) + ((m j - c j) * (x i - m i) + (m i - c i) * (x j - m j) + (m i - c i) * (m j - c j)) := by
    intro x; ring
  have hlin : ∀ i, Integrable (fun x : EuclideanSpace ℝ n => x i - m i) (multivariateGaussian m S) := fun i =>
    (hi i).sub (integrable_const _)
  have hz : ∀ i, ∫ x : EuclideanSpace ℝ n, (x i - m i) ∂(multivariateGaussian m S) = 0 := fun i => by
    rw [integral_sub (hi i) (integrable_const _), integral_coord]; simp
  rw [integral_congr_ae (Filter.Eventually.of_forall e), integral_add (integrable_quadTerm m S _ i j), hcov,
    integral_add, integral_add, integral_const_mul, integral_const_mul, hz, hz, integral_const]
  · simp
  · exact (hlin i).const_mul _
  · exact (hlin j).const_mul _
  · exact ((hlin i).const_mul _).add ((hlin j).const_mul _)
  · exact integrable_const _
  · exact (((hlin i).const_mul _).add ((hlin j).const_mul _)).add (integrable_const _)

theorem quad_eq_sum (S : Matrix n n ℝ) (c x : n → ℝ) :
    quad S c x = ∑ i, ∑ j, S⁻¹ i j * ((x i - c i) * (x j - c j)) := by
  simp only [quad, dotProduct, mulVec, Finset.mul_sum, Pi.sub_apply]
  exact Finset.sum_congr rfl fun i _ => Finset.sum_congr rfl fun j _ => by ring

theorem integrable_quad (m : EuclideanSpace ℝ n) (S T : Matrix n n ℝ) (c : n → ℝ) :
    Integrable (fun x : EuclideanSpace ℝ n => quad T c (ofLp x)) (multivariateGaussian m S) := by
  simp only [quad_eq_sum]
  exact integrable_finsetSum _ fun i _ => integrable_finsetSum _ fun j _ =>
    (integrable_quadTerm m S c i j).const_mul _

theorem integral_quad (m : EuclideanSpace ℝ n) {S : Matrix n n ℝ} (hS : S.PosSemidef) (T : Matrix n n ℝ) (c : n → ℝ) :
    ∫ x : EuclideanSpace ℝ n, quad T c (ofLp x) ∂(multivariateGaussian m S) =
      (T⁻¹ * S).trace + quad T c (ofLp m) := by
  simp only [quad_eq_sum]
  generalize hU : T⁻¹ = U
  have hi : ∀ i j, Integrable (fun x : EuclideanSpace ℝ n => U i j * ((x i - c i) * (x j - c j)))
      (multivariateGaussian m S) := fun i j => (integrable_quadTerm m S c i j).const_mul _
  have hs : ∀ i j, S j i = S i j := fun i j => by
    have := congrFun (congrFun hS.isHermitian i) j
    rw [← this]; simp
  calc ∫ x : EuclideanSpace ℝ n, ∑ i, ∑ j, U i j * ((x i - c i) * (x j - c j)) ∂(multivariateGaussian m S)
      = ∑ i, ∫ x : EuclideanSpace ℝ n, ∑ j, U i j * ((x i - c i) * (x j - c j)) ∂(multivariateGaussian m S) :=
        integral_finsetSum _ fun i _ => integrable_finsetSum _ fun j _ => hi i j
    _ = ∑ i, ∑ j, (U i j * S i j + U i j * ((m i - c i) * (m j - c j))) := by
        refine Finset.sum_congr rfl fun i _ => ?_
        rw [integral_finsetSum _ fun j _ => hi i j]
        refine Finset.sum_congr rfl fun j _ => ?_
        rw [integral_const_mul, integral_quadTerm m hS, mul_add]
    _ = _ := by
        simp only [Finset.sum_add_distrib, trace, diag, mul_apply, hs]

/-- The relative entropy between two non-degenerate Gaussian measures. -/
theorem klDiv_mvg (m0 m1 : EuclideanSpace ℝ n) {S0 S1 : Matrix n n ℝ} (h0 : S0.PosDef) (h1 : S1.PosDef) :
    InformationTheory.klDiv (multivariateGaussian m0 S0) (multivariateGaussian m1 S1) ≠ ∞ ∧
    (InformationTheory.klDiv (multivariateGaussian m0 S0) (multivariateGaussian m1 S1)).toReal =
      1 / 2 * ((S1⁻¹ * S0).trace - Fintype.card n + quad S1 (ofLp m1) (ofLp m0)
        + Real.log S1.det - Real.log S0.det) := by
  obtain ⟨hac, hllr⟩ := llr_mvg m0 m1 h0 h1
  have e : ∀ x, ratio m0 S0 m1 S1 x = 1 / 2 * (Real.log S1.det - Real.log S0.det) +
      (1 / 2 * quad S1 (ofLp m1) (ofLp x) - 1 / 2 * quad S0 (ofLp m0) (ofLp x)) := by
    intro x; simp only [ratio, logDens]; ring
  have i1 := (integrable_quad m0 S0 S1 (ofLp m1)).const_mul (1 / 2)
  have i0 := (integrable_quad m0 S0 S0 (ofLp m0)).const_mul (1 / 2)
  have hint : Integrable (ratio m0 S0 m1 S1) (multivariateGaussian m0 S0) := by
    rw [funext e]
    exact (integrable_const _).add (i1.sub i0)
  have hsub : Integrable (fun x : EuclideanSpace ℝ n => 1 / 2 * quad S1 (ofLp m1) (ofLp x)
      - 1 / 2 * quad S0 (ofLp m0) (ofLp x)) (multivariateGaussian m0 S0) := i1.sub i0
  refine ⟨InformationTheory.klDiv_ne_top hac ((integrable_congr hllr).2 hint), ?_⟩
  rw [InformationTheory.toReal_klDiv_of_measure_eq hac (by simp), integral_congr_ae hllr,
    integral_congr_ae (Filter.Eventually.of_forall e), integral_add (integrable_const _) hsub,
    integral_const, integral_sub i1 i0, integral_const_mul, integral_const_mul, integral_quad _ h0.posSemidef,
    integral_quad _ h0.posSemidef]
  have hinv : S0⁻¹ * S0 = 1 := nonsing_inv_mul _ (isUnit_iff_ne_zero.2 h0.det_pos.ne')
  have hq : quad S0 (ofLp m0) (ofLp m0) = 0 := by simp [quad]
  rw [hinv, hq, trace_one]
  simp only [probReal_univ, smul_eq_mul, one_mul]
  ring

end GaussKl
end Fbs
