import Verif.Lemmas.Mvn
import Verif.Lemmas.Toy
import Verif.Model.Gp
import Mathlib.LinearAlgebra.Matrix.SchurComplement
import Mathlib.Analysis.Matrix.PosDef

/-!
# Conditioning of multivariate normal laws
-/

open MeasureTheory ProbabilityTheory Matrix
open scoped ENNReal NNReal MatrixOrder

namespace Fbs
namespace GaussCond

open Mvn GaussKl Gp Toy

variable {ι κ ζ : Type} [Fintype ι] [DecidableEq ι] [Fintype κ] [DecidableEq κ] [Fintype ζ] [DecidableEq ζ]

omit [DecidableEq ι] [DecidableEq κ] in
theorem mulVec_blocks (A : Matrix ι ι ℝ) (B : Matrix ι κ ℝ) (C : Matrix κ ι ℝ) (D : Matrix κ κ ℝ) (a : ι → ℝ) (b : κ → ℝ) :
    fromBlocks A B C D *ᵥ Sum.elim a b = Sum.elim (A *ᵥ a + B *ᵥ b) (C *ᵥ a + D *ᵥ b) := by
  rw [fromBlocks_mulVec]
  rfl

omit [Fintype ζ] [DecidableEq ζ] [Fintype κ] [Fintype ι] [DecidableEq κ] [DecidableEq ι] in
theorem blocks_eq (e : ι ⊕ κ ≃ ζ) (C : Matrix ζ ζ ℝ) :
    C.submatrix e e = fromBlocks (blockUU e C) (blockUV e C) (blockVU e C) (blockVV e C) := by
  ext (i | i) (j | j) <;> rfl

/-- The quadratic form of a block matrix. -/
theorem quad_blocks {A : Matrix ι ι ℝ} {B : Matrix ι κ ℝ} {D : Matrix κ κ ℝ} (hD : D.det ≠ 0) (hDs : Dᵀ = D)
    (hS : (A - B * D⁻¹ * Bᵀ).det ≠ 0) (x : ι → ℝ) (y : κ → ℝ) :
    Sum.elim x y ⬝ᵥ (fromBlocks A B Bᵀ D)⁻¹ *ᵥ Sum.elim x y =
      (x - B *ᵥ (D⁻¹ *ᵥ y)) ⬝ᵥ (A - B * D⁻¹ * Bᵀ)⁻¹ *ᵥ (x - B *ᵥ (D⁻¹ *ᵥ y)) + y ⬝ᵥ D⁻¹ *ᵥ y := by
  have hDu : IsUnit D.det := isUnit_iff_ne_zero.2 hD
  have hSu : IsUnit (A - B * D⁻¹ * Bᵀ).det := isUnit_iff_ne_zero.2 hS
  set S := A - B * D⁻¹ * Bᵀ with hSdef
  set r := x - B *ᵥ (D⁻¹ *ᵥ y) with hr
  set a := S⁻¹ *ᵥ r with ha
  set b := D⁻¹ *ᵥ (y - Bᵀ *ᵥ a) with hb
  have hSa : S *ᵥ a = r := by rw [ha, mulVec_mulVec, mul_nonsing_inv _ hSu, one_mulVec]
  have hDb : D *ᵥ b = y - Bᵀ *ᵥ a := by rw [hb, mulVec_mulVec, mul_nonsing_inv _ hDu, one_mulVec]
  have hdet : (fromBlocks A B Bᵀ D).det ≠ 0 := by
    have : Invertible D := invertibleOfIsUnitDet D hDu
    rw [det_fromBlocks₂₂, invOf_eq_nonsing_inv]
    exact mul_ne_zero hD hS
  have hsol : fromBlocks A B Bᵀ D *ᵥ Sum.elim a b = Sum.elim x y := by
    rw [mulVec_blocks, hDb]
    congr 1
    · have h1 : A *ᵥ a = r + B *ᵥ (D⁻¹ *ᵥ (Bᵀ *ᵥ a)) := by
        have : A *ᵥ a = S *ᵥ a + (B * D⁻¹ * Bᵀ) *ᵥ a := by rw [hSdef, sub_mulVec]; abel
        rw [this, hSa, ← mulVec_mulVec, ← mulVec_mulVec]
      rw [h1, hb, mulVec_sub, mulVec_sub, hr]
      abel
    · abel
  have hinv : (fromBlocks A B Bᵀ D)⁻¹ *ᵥ Sum.elim x y = Sum.elim a b := by
    rw [← hsol, mulVec_mulVec, nonsing_inv_mul _ (isUnit_iff_ne_zero.2 hdet), one_mulVec]
  rw [hinv]
  have hsum : Sum.elim x y ⬝ᵥ Sum.elim a b = x ⬝ᵥ a + y ⬝ᵥ b := by
    simp [dotProduct, Fintype.sum_sum_type]
  have hDi : (D⁻¹)ᵀ = D⁻¹ := by rw [transpose_nonsing_inv, hDs]
  have hyb : y ⬝ᵥ b = y ⬝ᵥ D⁻¹ *ᵥ y - (B *ᵥ (D⁻¹ *ᵥ y)) ⬝ᵥ a := by
    rw [hb, mulVec_sub, dotProduct_sub]
    congr 1
    rw [dotProduct_mulVec, ← mulVec_transpose, hDi, dotProduct_mulVec, vecMul_transpose]
  rw [hsum, hyb, hr, sub_dotProduct]
  ring

variable (e : ι ⊕ κ ≃ ζ)

omit [Fintype ζ] [DecidableEq ζ] [Fintype κ] [Fintype ι] [DecidableEq κ] [DecidableEq ι] in
theorem blockVU_eq {C : Matrix ζ ζ ℝ} (hC : C.IsHermitian) : blockVU e C = (blockUV e C)ᵀ := by
  ext i j
  have := hC.apply (e (Sum.inl j)) (e (Sum.inr i))
  simpa [blockVU, blockUV] using this

omit [Fintype ι] [Fintype κ] [Fintype ζ] [DecidableEq ι] [DecidableEq κ] [DecidableEq ζ] in
theorem posDef_blockVV {C : Matrix ζ ζ ℝ} (hC : C.PosDef) : (blockVV e C).PosDef :=
  hC.submatrix (e.injective.comp Sum.inr_injective)

omit [DecidableEq ι] [Fintype ζ] [DecidableEq ζ] in
theorem posDef_schur {C : Matrix ζ ζ ℝ} (hC : C.PosDef) :
    (blockUU e C - blockUV e C * (blockVV e C)⁻¹ * (blockUV e C)ᵀ).PosDef := by
  classical
  have hD := posDef_blockVV e hC
  have hb : (fromBlocks (blockUU e C) (blockUV e C) (blockUV e C)ᴴ (blockVV e C)).PosDef := by
    have := hC.submatrix e.injective
    rw [blocks_eq, blockVU_eq e hC.1] at this
    simpa using this
  have : Invertible (blockVV e C) := invertibleOfIsUnitDet _ hD.det_pos.ne'.isUnit
  have h1 := (PosDef.fromBlocks₂₂ (blockUU e C) (blockUV e C) hD).1 hb.posSemidef
  rw [conjTranspose_eq_transpose_of_trivial] at h1
  refine h1.posDef_iff_isUnit.2 ?_
  rw [isUnit_iff_isUnit_det, isUnit_iff_ne_zero]
  intro h0
  have h2 := hb.det_pos
  rw [det_fromBlocks₂₂, invOf_eq_nonsing_inv, conjTranspose_eq_transpose_of_trivial, h0, mul_zero] at h2
  exact lt_irrefl _ h2

theorem quad_reindex (C : Matrix ζ ζ ℝ) (m x : ζ → ℝ) : quad C m x = quad (C.submatrix e e) (m ∘ e) (x ∘ e) := by
  unfold quad
  rw [inv_submatrix_equiv]
  have : (x ∘ e - m ∘ e) = (x - m) ∘ e := rfl
  rw [this, submatrix_mulVec_equiv, dotProduct, dotProduct]
  simp only [Function.comp_apply, Equiv.self_comp_symm, Function.comp_assoc, Function.comp_id]
  exact (Equiv.sum_comp e fun k => (x - m) k * (C⁻¹ *ᵥ (x - m)) k).symm

/-- The log density of the pair is the log density of `u` given `v` plus the log density of `v`. -/
theorem logDens_cond {C : Matrix ζ ζ ℝ} (hC : C.PosDef) (m x : ζ → ℝ) :
    logDens m C x =
      logDens (unpackU e m + blockUV e C *ᵥ ((blockVV e C)⁻¹ *ᵥ (unpackV e x - unpackV e m)))
        (blockUU e C - blockUV e C * (blockVV e C)⁻¹ * (blockUV e C)ᵀ) (unpackU e x) +
      logDens (unpackV e m) (blockVV e C) (unpackV e x) := by
  have hD := posDef_blockVV e hC
  have hS := posDef_schur e hC
  have hDs : (blockVV e C)ᵀ = blockVV e C := by simpa using hD.1.eq
  have hq : quad C m x = quad (blockUU e C - blockUV e C * (blockVV e C)⁻¹ * (blockUV e C)ᵀ)
      (unpackU e m + blockUV e C *ᵥ ((blockVV e C)⁻¹ *ᵥ (unpackV e x - unpackV e m))) (unpackU e x) +
      quad (blockVV e C) (unpackV e m) (unpackV e x) := by
    have h1 := quad_blocks (A := blockUU e C) (B := blockUV e C) hD.det_pos.ne' hDs hS.det_pos.ne'
      (unpackU e x - unpackU e m) (unpackV e x - unpackV e m)
    rw [quad_reindex e, blocks_eq, blockVU_eq e hC.1]
    have h2 : x ∘ e - m ∘ e = Sum.elim (unpackU e x - unpackU e m) (unpackV e x - unpackV e m) := by
      funext s
      rcases s with i | i <;> rfl
    unfold quad
    rw [h2, h1, sub_add_eq_sub_sub]
  have hdet : C.det = (blockVV e C).det * (blockUU e C - blockUV e C * (blockVV e C)⁻¹ * (blockUV e C)ᵀ).det := by
    have : Invertible (blockVV e C) := invertibleOfIsUnitDet _ hD.det_pos.ne'.isUnit
    rw [← det_submatrix_equiv_self e, blocks_eq, blockVU_eq e hC.1, det_fromBlocks₂₂, invOf_eq_nonsing_inv]
  have hcard : (Fintype.card ζ : ℝ) = Fintype.card ι + Fintype.card κ := by
    rw [← Fintype.card_congr e, Fintype.card_sum]; push_cast; rfl
  unfold logDens
  rw [hq, hdet, Real.log_mul hD.det_pos.ne' hS.det_pos.ne', hcard]
  ring

/-- A normal pair is drawn by first drawing `v` and then `u` from the conditional law. -/
theorem lintegral_mvn_cond {C : Matrix ζ ζ ℝ} (hC : C.PosDef) (m : ζ → ℝ) {f : (ζ → ℝ) → ℝ≥0∞} (hf : Measurable f) :
    ∫⁻ x, f x ∂(mvn m C) = ∫⁻ v, ∫⁻ u, f (concat e u v)
      ∂(mvn (unpackU e m + blockUV e C *ᵥ ((blockVV e C)⁻¹ *ᵥ (v - unpackV e m)))
        (blockUU e C - blockUV e C * (blockVV e C)⁻¹ * (blockUV e C)ᵀ)) ∂(mvn (unpackV e m) (blockVV e C)) := by
  set K := blockUV e C * (blockVV e C)⁻¹ with hK
  set S := blockUU e C - K * (blockUV e C)ᵀ with hSdef
  have hD := posDef_blockVV e hC
  have hS : S.PosDef := posDef_schur e hC
  have hcm : Measurable fun v : κ → ℝ => unpackU e m + blockUV e C *ᵥ ((blockVV e C)⁻¹ *ᵥ (v - unpackV e m)) := by
    simp only [mulVec_mulVec]
    exact (measurable_affine (unpackU e m) K).comp (measurable_id.sub_const _)
  have hld : Measurable fun p : (κ → ℝ) × (ι → ℝ) => logDens (unpackU e m + blockUV e C *ᵥ
      ((blockVV e C)⁻¹ *ᵥ (p.1 - unpackV e m))) S p.2 := by
    have h1 : Measurable fun q : (ι → ℝ) × (ι → ℝ) => logDens q.1 S q.2 := by
      unfold logDens quad mulVec dotProduct
      fun_prop
    exact h1.comp ((hcm.comp measurable_fst).prodMk measurable_snd)
  have hld2 : Measurable fun v : κ → ℝ => logDens (unpackV e m) (blockVV e C) v := measurable_logDens _ _
  have hfc : Measurable fun p : (κ → ℝ) × (ι → ℝ) => f (concat e p.2 p.1) :=
    hf.comp ((measurable_concat e).comp (measurable_snd.prodMk measurable_fst))
  have hin : ∀ v : κ → ℝ, ∫⁻ u, f (concat e u v) ∂(mvn (unpackU e m + blockUV e C *ᵥ ((blockVV e C)⁻¹ *ᵥ
      (v - unpackV e m))) S) = ∫⁻ u, f (concat e u v) * ENNReal.ofReal (Real.exp (logDens (unpackU e m + blockUV e C *ᵥ
      ((blockVV e C)⁻¹ *ᵥ (v - unpackV e m))) S u)) := fun v =>
    lintegral_mvn_dens _ hS (hfc.comp (measurable_const.prodMk measurable_id))
  have hinm : Measurable fun v : κ → ℝ => ∫⁻ u, f (concat e u v) * ENNReal.ofReal (Real.exp (logDens (unpackU e m +
      blockUV e C *ᵥ ((blockVV e C)⁻¹ *ᵥ (v - unpackV e m))) S u)) :=
    Measurable.lintegral_prod_right' (f := fun p : (κ → ℝ) × (ι → ℝ) => f (concat e p.2 p.1) * ENNReal.ofReal
      (Real.exp (logDens (unpackU e m + blockUV e C *ᵥ ((blockVV e C)⁻¹ *ᵥ (p.1 - unpackV e m))) S p.2)))
      (hfc.mul (hld.exp.ennreal_ofReal))
  simp only [hin]
  rw [lintegral_mvn_dens _ hD hinm, lintegral_mvn_dens _ hC hf]
  have hall : Measurable fun x : ζ → ℝ => f x * ENNReal.ofReal (Real.exp (logDens m C x)) :=
    hf.mul (measurable_logDens m C).exp.ennreal_ofReal
  have hv : (volume : Measure (ζ → ℝ)) = Measure.pi fun _ => volume := rfl
  rw [hv, lintegral_concat e _ hall, lintegral_lintegral_swap]
  · refine lintegral_congr fun v => ?_
    rw [← lintegral_mul_const' _ _ ENNReal.ofReal_ne_top]
    refine lintegral_congr fun u => ?_
    rw [mul_assoc, ← ENNReal.ofReal_mul (Real.exp_pos _).le, ← Real.exp_add, logDens_cond e hC, unpackU_concat,
      unpackV_concat]
  · exact (hall.comp (measurable_concat e)).aemeasurable

end GaussCond
end Fbs
