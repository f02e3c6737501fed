import Verif.Lemmas.Gauss
import Verif.Lemmas.GaussKl
import Mathlib.MeasureTheory.Measure.CharacteristicFunction.Basic

/-!
# Multivariate normal laws on function spaces
-/

open MeasureTheory ProbabilityTheory Matrix WithLp
open scoped ENNReal NNReal MatrixOrder RealInnerProductSpace

namespace Fbs
namespace Mvn

variable {n k : Type} [Fintype n] [DecidableEq n] [Fintype k] [DecidableEq k]

/-- Mathlib's Gaussian measure with mean `m` and covariance `S`, carried from Euclidean space to plain functions. -/
noncomputable def mvn (m : n → ℝ) (S : Matrix n n ℝ) : Measure (n → ℝ) :=
  (multivariateGaussian (toLp 2 m) S).map ofLp

instance (m : n → ℝ) (S : Matrix n n ℝ) : IsProbabilityMeasure (mvn m S) :=
  Measure.isProbabilityMeasure_map (WithLp.measurable_ofLp 2 _).aemeasurable

omit [DecidableEq n] [DecidableEq k] [Fintype k] in
theorem measurable_affine (a : k → ℝ) (R : Matrix k n ℝ) : Measurable fun x : n → ℝ => a + R *ᵥ x := by
  refine measurable_const.add ?_
  unfold mulVec dotProduct
  fun_prop

theorem mvg_affine {S : Matrix n n ℝ} (hS : S.PosSemidef) (m : n → ℝ) (a : k → ℝ) (R : Matrix k n ℝ) :
    (multivariateGaussian (toLp 2 m) S).map (fun x => toLp 2 (a + R *ᵥ ofLp x)) =
      multivariateGaussian (toLp 2 (a + R *ᵥ m)) (R * S * Rᵀ) := by
  have hm : Measurable fun x : EuclideanSpace ℝ n => toLp 2 (a + R *ᵥ ofLp x) :=
    (WithLp.measurable_toLp 2 _).comp ((measurable_affine a R).comp (WithLp.measurable_ofLp 2 _))
  have hR : (R * S * Rᵀ).PosSemidef := by simpa using hS.mul_mul_conjTranspose_same R
  have : IsProbabilityMeasure ((multivariateGaussian (toLp 2 m) S).map (fun x => toLp 2 (a + R *ᵥ ofLp x))) :=
    Measure.isProbabilityMeasure_map hm.aemeasurable
  apply Measure.ext_of_charFun (E := EuclideanSpace ℝ k)
  ext t
  rw [charFun_multivariateGaussian hR, charFun_apply, integral_map hm.aemeasurable (by fun_prop)]
  have e1 : ∀ x : EuclideanSpace ℝ n, ⟪toLp 2 (a + R *ᵥ ofLp x), t⟫ =
      ⟪toLp 2 a, t⟫ + ⟪x, toLp 2 (Rᵀ *ᵥ ofLp t)⟫ := by
    intro x
    simp only [EuclideanSpace.inner_eq_star_dotProduct, star_trivial]
    rw [dotProduct_add, mulVec_transpose, dotProduct_mulVec]
  have e2 : ∀ x : EuclideanSpace ℝ n, Complex.exp (⟪toLp 2 (a + R *ᵥ ofLp x), t⟫ * Complex.I) =
      Complex.exp (⟪toLp 2 a, t⟫ * Complex.I) * Complex.exp (⟪x, toLp 2 (Rᵀ *ᵥ ofLp t)⟫ * Complex.I) := by
    intro x
    rw [e1, ← Complex.exp_add]
    congr 1
    push_cast
    ring
  simp only [e2]
  rw [integral_const_mul, ← charFun_apply, charFun_multivariateGaussian hS, ← Complex.exp_add]
  congr 1
  have h3 : ⟪t, toLp 2 (a + R *ᵥ m)⟫ = ⟪toLp 2 a, t⟫ + ⟪toLp 2 (Rᵀ *ᵥ ofLp t), toLp 2 m⟫ := by
    rw [real_inner_comm, real_inner_comm (toLp 2 m)]
    exact e1 (toLp 2 m)
  have h4 : ofLp t ⬝ᵥ (R * S * Rᵀ) *ᵥ ofLp t = (Rᵀ *ᵥ ofLp t) ⬝ᵥ S *ᵥ (Rᵀ *ᵥ ofLp t) := by
    rw [← mulVec_mulVec, ← mulVec_mulVec, dotProduct_mulVec, ← mulVec_transpose]
  rw [h3]
  simp only [h4]
  push_cast
  ring

/-- An affine image of a normal law. -/
theorem mvn_affine {S : Matrix n n ℝ} (hS : S.PosSemidef) (m : n → ℝ) (a : k → ℝ) (R : Matrix k n ℝ) :
    (mvn m S).map (fun x => a + R *ᵥ x) = mvn (a + R *ᵥ m) (R * S * Rᵀ) := by
  have hm : Measurable fun x : EuclideanSpace ℝ n => toLp 2 (a + R *ᵥ ofLp x) :=
    (WithLp.measurable_toLp 2 _).comp ((measurable_affine a R).comp (WithLp.measurable_ofLp 2 _))
  unfold mvn
  rw [← mvg_affine hS, Measure.map_map (measurable_affine a R) (WithLp.measurable_ofLp 2 _),
    Measure.map_map (WithLp.measurable_ofLp 2 _) hm]
  rfl

theorem stdNormal_eq_mvn : Jax.stdNormal n = mvn 0 1 := by
  unfold mvn
  rw [show (toLp 2 (0 : n → ℝ)) = 0 from rfl, multivariateGaussian_zero_one, ← map_pi_eq_stdGaussian,
    Measure.map_map (WithLp.measurable_ofLp 2 _) (WithLp.measurable_toLp 2 _)]
  exact (Measure.map_id).symm

/-- An affine image of independent standard normal entries. -/
theorem stdNormal_affine (a : k → ℝ) (R : Matrix k n ℝ) :
    (Jax.stdNormal n).map (fun z => a + R *ᵥ z) = mvn a (R * Rᵀ) := by
  rw [stdNormal_eq_mvn, mvn_affine PosSemidef.one]
  simp

theorem gaussProd_eq_mvn (m : n → ℝ) (v : ℝ≥0) : gaussProd m v = mvn m ((v : ℝ) • 1) := by
  have h := stdNormal_affine m ((Real.sqrt v) • (1 : Matrix n n ℝ))
  have h2 : (Real.sqrt v) • (1 : Matrix n n ℝ) * ((Real.sqrt v) • (1 : Matrix n n ℝ))ᵀ = (v : ℝ) • 1 := by
    rw [transpose_smul, transpose_one, smul_mul_smul, one_mul, Real.mul_self_sqrt v.coe_nonneg]
  rw [h2] at h
  rw [← h]
  refine Measure.ext_of_lintegral _ fun f hf => ?_
  have h3 := lintegral_stdNormal v.coe_nonneg m hf
  rw [lintegral_map hf (measurable_affine _ _)]
  rw [Real.toNNReal_coe] at h3
  rw [← h3]
  refine lintegral_congr fun z => ?_
  congr 1
  funext i
  simp [smul_mulVec]

theorem lintegral_mvn_eq (m : n → ℝ) (S : Matrix n n ℝ) {f : (n → ℝ) → ℝ≥0∞} (hf : Measurable f) :
    ∫⁻ x, f x ∂(mvn m S) = ∫⁻ x, f (ofLp x) ∂(multivariateGaussian (toLp 2 m) S) :=
  lintegral_map hf (WithLp.measurable_ofLp 2 _)

/-- The density of a nondegenerate normal law. -/
theorem lintegral_mvn_dens (m : n → ℝ) {S : Matrix n n ℝ} (hS : S.PosDef) {f : (n → ℝ) → ℝ≥0∞} (hf : Measurable f) :
    ∫⁻ x, f x ∂(mvn m S) = ∫⁻ x, f x * ENNReal.ofReal (Real.exp (GaussKl.logDens m S x)) := by
  have hf' : Measurable fun x : EuclideanSpace ℝ n => f (ofLp x) := hf.comp (WithLp.measurable_ofLp 2 _)
  rw [lintegral_mvn_eq m S hf, GaussKl.lintegral_mvg _ hS hf']
  have hfin : Measurable fun x : n → ℝ => f x * ENNReal.ofReal (Real.exp (GaussKl.logDens m S x)) :=
    hf.mul ((GaussKl.measurable_logDens m S).exp).ennreal_ofReal
  exact (PiLp.volume_preserving_ofLp n).lintegral_comp hfin

/-- The sum of independent normal vectors. -/
theorem mvn_conv {S S' : Matrix n n ℝ} (hS : S.PosSemidef) (hS' : S'.PosSemidef) (m m' : n → ℝ)
    {f : (n → ℝ) → ℝ≥0∞} (hf : Measurable f) :
    ∫⁻ x, ∫⁻ y, f (x + y) ∂(mvn m' S') ∂(mvn m S) = ∫⁻ x, f x ∂(mvn (m + m') (S + S')) := by
  have key : multivariateGaussian (toLp 2 m) S ∗ multivariateGaussian (toLp 2 m') S' =
      multivariateGaussian (toLp 2 (m + m')) (S + S') := by
    apply Measure.ext_of_charFun (E := EuclideanSpace ℝ n)
    ext t
    rw [charFun_conv, charFun_multivariateGaussian hS, charFun_multivariateGaussian hS',
      charFun_multivariateGaussian (hS.add hS'), ← Complex.exp_add]
    congr 1
    rw [add_mulVec, dotProduct_add, toLp_add, inner_add_right]
    push_cast
    ring
  have hf' : Measurable fun x : EuclideanSpace ℝ n => f (ofLp x) := hf.comp (WithLp.measurable_ofLp 2 _)
  rw [lintegral_mvn_eq _ _ hf, ← key, Measure.lintegral_conv hf']
  have h1 : Measurable fun x => ∫⁻ y, f (x + y) ∂(mvn m' S') := by
    refine Measurable.lintegral_prod_right' (f := fun p : (n → ℝ) × (n → ℝ) => f (p.1 + p.2)) ?_
    exact hf.comp (measurable_fst.add measurable_snd)
  rw [lintegral_mvn_eq _ _ h1]
  refine lintegral_congr fun x => ?_
  have h2 : Measurable fun y => f (ofLp x + y) := hf.comp (measurable_const.add measurable_id)
  rw [lintegral_mvn_eq _ _ h2]
  rfl

/-- A normal vector, scaled and perturbed by independent noise. -/
theorem lintegral_mvn_noise {S : Matrix n n ℝ} (hS : S.PosSemidef) (m : n → ℝ) (F : ℝ) (v : ℝ≥0)
    {f : (n → ℝ) → ℝ≥0∞} (hf : Measurable f) :
    ∫⁻ x, ∫⁻ y, f y ∂(gaussProd (fun i => F * x i) v) ∂(mvn m S) =
      ∫⁻ x, f x ∂(mvn (F • m) (F ^ 2 • S + (v : ℝ) • 1)) := by
  have h1 : ∀ x : n → ℝ, ∫⁻ y, f y ∂(gaussProd (fun i => F * x i) v) =
      ∫⁻ y, f (F • x + y) ∂(mvn 0 ((v : ℝ) • 1)) := by
    intro x
    have h := mvn_affine (S := (v : ℝ) • (1 : Matrix n n ℝ)) (PosSemidef.one.smul v.coe_nonneg) 0 (F • x) 1
    simp only [one_mulVec, mul_one, one_mul, transpose_one, add_zero] at h
    rw [gaussProd_eq_mvn, show (fun i => F * x i) = F • x from rfl, ← h, lintegral_map hf (by fun_prop)]
  have h2 : (mvn m S).map (fun x => (0 : n → ℝ) + (F • (1 : Matrix n n ℝ)) *ᵥ x) = mvn (F • m) (F ^ 2 • S) := by
    rw [mvn_affine hS]
    congr 1
    · simp [smul_mulVec]
    · rw [transpose_smul, transpose_one, smul_mul_assoc, one_mul, mul_smul_comm, mul_one, smul_smul, sq]
  have hm : Measurable fun x : n → ℝ => ∫⁻ y, f (x + y) ∂(mvn 0 ((v : ℝ) • (1 : Matrix n n ℝ))) := by
    refine Measurable.lintegral_prod_right' (f := fun p : (n → ℝ) × (n → ℝ) => f (p.1 + p.2)) ?_
    exact hf.comp (measurable_fst.add measurable_snd)
  have hF : (F ^ 2 • S).PosSemidef := hS.smul (sq_nonneg F)
  have h3 := mvn_conv hF (PosSemidef.one.smul v.coe_nonneg) (F • m) 0 hf
  rw [add_zero, ← h2, lintegral_map hm (measurable_affine _ _)] at h3
  rw [← h3]
  refine lintegral_congr fun x => ?_
  rw [h1]
  simp [smul_mulVec]

theorem mvn_injective {m m' : n → ℝ} {S S' : Matrix n n ℝ} (hS : S.PosSemidef) (hS' : S'.PosSemidef)
    (h : mvn m S = mvn m' S') : m = m' ∧ S = S' := by
  have hg : multivariateGaussian (toLp 2 m) S = multivariateGaussian (toLp 2 m') S' := by
    have := congrArg (fun μ => Measure.map (toLp 2) μ) h
    simp only [mvn] at this
    rw [Measure.map_map (WithLp.measurable_toLp 2 _) (WithLp.measurable_ofLp 2 _),
      Measure.map_map (WithLp.measurable_toLp 2 _) (WithLp.measurable_ofLp 2 _)] at this
    have hid : (toLp 2 ∘ ofLp : EuclideanSpace ℝ n → EuclideanSpace ℝ n) = id := rfl
    rwa [hid, Measure.map_id, Measure.map_id] at this
  constructor
  · have h1 := integral_id_multivariateGaussian (μ := toLp 2 m) (S := S)
    rw [hg, integral_id_multivariateGaussian] at h1
    exact (congrArg ofLp h1).symm
  · ext i j
    have h1 := covariance_eval_multivariateGaussian (μ := toLp 2 m) hS i j
    rw [hg, covariance_eval_multivariateGaussian hS'] at h1
    exact h1.symm

end Mvn
end Fbs
