import Verif.Lemmas.GaussCond

/-!
# Linear Gaussian models: joint law, marginal law and Bayes' formula
-/

open MeasureTheory ProbabilityTheory Matrix
open scoped ENNReal NNReal MatrixOrder

namespace Fbs
namespace GaussLin

open Mvn GaussKl GaussCond Toy Gp

variable {ι κ : Type} [Fintype ι] [DecidableEq ι] [Fintype κ] [DecidableEq κ]

/-- Covariance of `(x, R x + w)`. -/
def jointMat (P : Matrix ι ι ℝ) (Q : Matrix κ κ ℝ) (R : Matrix κ ι ℝ) : Matrix (ι ⊕ κ) (ι ⊕ κ) ℝ :=
  fromBlocks P (P * Rᵀ) (R * P) (R * P * Rᵀ + Q)

omit [DecidableEq ι] [DecidableEq κ] in
theorem posDef_joint {P : Matrix ι ι ℝ} {Q : Matrix κ κ ℝ} (hP : P.PosDef) (hQ : Q.PosDef) (R : Matrix κ ι ℝ) :
    (jointMat P Q R).PosDef := by
  have hPt : Pᵀ = P := by simpa using hP.1.eq
  have hQt : Qᵀ = Q := by simpa using hQ.1.eq
  refine PosDef.of_dotProduct_mulVec_pos ?_ fun x hx => ?_
  · rw [IsHermitian, conjTranspose_eq_transpose_of_trivial, jointMat, fromBlocks_transpose]
    simp [transpose_mul, hPt, hQt, Matrix.mul_assoc]
  · obtain ⟨a, b, rfl⟩ : ∃ a b, x = Sum.elim a b := ⟨x ∘ Sum.inl, x ∘ Sum.inr, by simp⟩
    rw [jointMat, mulVec_blocks, star_trivial]
    have h1 : Sum.elim a b ⬝ᵥ Sum.elim (P *ᵥ a + (P * Rᵀ) *ᵥ b) ((R * P) *ᵥ a + (R * P * Rᵀ + Q) *ᵥ b) =
        (a + Rᵀ *ᵥ b) ⬝ᵥ P *ᵥ (a + Rᵀ *ᵥ b) + b ⬝ᵥ Q *ᵥ b := by
      rw [sumElim_dotProduct_sumElim]
      have e1 : ∀ c : ι → ℝ, b ⬝ᵥ R *ᵥ c = (Rᵀ *ᵥ b) ⬝ᵥ c := fun c => by rw [dotProduct_mulVec, mulVec_transpose]
      simp only [← mulVec_mulVec, add_mulVec, mulVec_add, dotProduct_add, add_dotProduct, e1]
      ring
    rw [h1]
    by_cases hb : b = 0
    · subst hb
      have ha : a ≠ 0 := fun h => hx (by subst h; ext (i | i) <;> rfl)
      have := hP.dotProduct_mulVec_pos ha
      simpa using this
    · have h2 := hQ.dotProduct_mulVec_pos hb
      have h3 := hP.posSemidef.dotProduct_mulVec_nonneg (a + Rᵀ *ᵥ b)
      simp only [star_trivial] at h2 h3
      linarith

/-- Joint law of a Gaussian vector and a linear observation of it. -/
theorem lintegral_joint {P : Matrix ι ι ℝ} {Q : Matrix κ κ ℝ} (hP : P.PosSemidef) (hQ : Q.PosSemidef) (m : ι → ℝ)
    (c : κ → ℝ) (R : Matrix κ ι ℝ) {f : (ι ⊕ κ → ℝ) → ℝ≥0∞} (hf : Measurable f) :
    ∫⁻ x, ∫⁻ y, f (Sum.elim x y) ∂(mvn (c + R *ᵥ x) Q) ∂(mvn m P) =
      ∫⁻ z, f z ∂(mvn (Sum.elim m (c + R *ᵥ m)) (jointMat P Q R)) := by
  set M : Matrix (ι ⊕ κ) ι ℝ := fromRows 1 R with hM
  set N : Matrix (ι ⊕ κ) κ ℝ := fromRows 0 1 with hN
  have hMM : M * P * Mᵀ + N * Q * Nᵀ = jointMat P Q R := by
    rw [hM, hN, transpose_fromRows, transpose_fromRows, fromRows_mul 1 R P, fromRows_mul 0 1 Q,
      fromRows_mul_fromCols, fromRows_mul_fromCols, jointMat, fromBlocks_add]
    simp
  have hPs : (M * P * Mᵀ).PosSemidef := by simpa using hP.mul_mul_conjTranspose_same M
  have hQs : (N * Q * Nᵀ).PosSemidef := by simpa using hQ.mul_mul_conjTranspose_same N
  have h1 := mvn_conv hPs hQs (Sum.elim (0 : ι → ℝ) c + M *ᵥ m) (0 + N *ᵥ 0) hf
  rw [← mvn_affine hP, ← mvn_affine hQ, lintegral_map _ (measurable_affine _ _), hMM] at h1
  · have hmean : (Sum.elim (0 : ι → ℝ) c + M *ᵥ m + (0 + N *ᵥ 0) : ι ⊕ κ → ℝ) = Sum.elim m (c + R *ᵥ m) := by
      rw [hM, fromRows_mulVec]
      ext (i | i) <;> simp
    rw [hmean] at h1
    rw [← h1]
    refine lintegral_congr fun x => ?_
    have h2 := mvn_affine hQ 0 (c + R *ᵥ x) 1
    rw [one_mulVec, add_zero, Matrix.one_mul, transpose_one, Matrix.mul_one] at h2
    have hfx : Measurable fun y => f (Sum.elim x y) := by
      refine hf.comp (measurable_pi_iff.2 ?_)
      rintro (i | i)
      · exact measurable_const
      · exact measurable_pi_apply i
    have hfa : ∀ a : ι ⊕ κ → ℝ, Measurable fun y => f (a + y) := fun a => hf.comp (measurable_const.add measurable_id)
    rw [← h2, lintegral_map hfx (measurable_affine _ _), lintegral_map (hfa _) (measurable_affine _ _)]
    refine lintegral_congr fun y => ?_
    congr 1
    rw [hM, hN, fromRows_mulVec, fromRows_mulVec]
    ext (i | i) <;> simp
  · have : ∀ x, ∫⁻ y, f (x + y) ∂(mvn 0 Q).map (fun y => (0 : ι ⊕ κ → ℝ) + N *ᵥ y) =
        ∫⁻ y, f (x + (0 + N *ᵥ y)) ∂(mvn 0 Q) := fun x =>
      lintegral_map (hf.comp (measurable_const.add measurable_id)) (measurable_affine _ _)
    simp only [this]
    exact Measurable.lintegral_prod_right' (f := fun p : (ι ⊕ κ → ℝ) × (κ → ℝ) => f (p.1 + (0 + N *ᵥ p.2)))
      (hf.comp (measurable_fst.add ((measurable_affine 0 N).comp measurable_snd)))

theorem measurable_lintegral_mvn {Q : Matrix κ κ ℝ} (hQ : Q.PosSemidef) {α : Type} [MeasurableSpace α] {μ : α → κ → ℝ}
    (hμ : Measurable μ) {f : α × (κ → ℝ) → ℝ≥0∞} (hf : Measurable f) :
    Measurable fun x => ∫⁻ y, f (x, y) ∂(mvn (μ x) Q) := by
  have : ∀ x, ∫⁻ y, f (x, y) ∂(mvn (μ x) Q) = ∫⁻ y, f (x, μ x + y) ∂(mvn 0 Q) := by
    intro x
    have h2 := mvn_affine hQ 0 (μ x) 1
    rw [one_mulVec, add_zero, Matrix.one_mul, transpose_one, Matrix.mul_one] at h2
    have hfx : Measurable fun y => f (x, y) := hf.comp (measurable_const.prodMk measurable_id)
    rw [← h2, lintegral_map hfx (measurable_affine _ _)]
    simp
  simp only [this]
  exact Measurable.lintegral_prod_right' (f := fun p : α × (κ → ℝ) => f (p.1, μ p.1 + p.2))
    (hf.comp (measurable_fst.prodMk ((hμ.comp measurable_fst).add measurable_snd)))

/-- Marginal law of a linear observation. -/
theorem lintegral_pred {P : Matrix ι ι ℝ} {Q : Matrix κ κ ℝ} (hP : P.PosSemidef) (hQ : Q.PosSemidef) (m : ι → ℝ)
    (c : κ → ℝ) (R : Matrix κ ι ℝ) {f : (κ → ℝ) → ℝ≥0∞} (hf : Measurable f) :
    ∫⁻ x, ∫⁻ y, f y ∂(mvn (c + R *ᵥ x) Q) ∂(mvn m P) = ∫⁻ y, f y ∂(mvn (c + R *ᵥ m) (R * P * Rᵀ + Q)) := by
  have hRs : (R * P * Rᵀ).PosSemidef := by simpa using hP.mul_mul_conjTranspose_same R
  have h1 := mvn_conv hRs hQ (c + R *ᵥ m) 0 hf
  rw [add_zero] at h1
  rw [← h1, ← mvn_affine hP, lintegral_map _ (measurable_affine _ _)]
  · refine lintegral_congr fun x => ?_
    have h2 := mvn_affine hQ 0 (c + R *ᵥ x) 1
    rw [one_mulVec, add_zero, Matrix.one_mul, transpose_one, Matrix.mul_one] at h2
    rw [← h2, lintegral_map hf (measurable_affine _ _)]
    simp
  · exact Measurable.lintegral_prod_right' (f := fun p : (κ → ℝ) × (κ → ℝ) => f (p.1 + p.2))
      (hf.comp (measurable_fst.add measurable_snd))

/-- Bayes' formula for a linear observation of a Gaussian vector. -/
theorem lintegral_bayes {P : Matrix ι ι ℝ} {Q : Matrix κ κ ℝ} (hP : P.PosDef) (hQ : Q.PosDef) (m : ι → ℝ)
    (c : κ → ℝ) (R : Matrix κ ι ℝ) {f : (ι → ℝ) → (κ → ℝ) → ℝ≥0∞} (hf : Measurable fun q : (ι → ℝ) × (κ → ℝ) => f q.1 q.2) :
    (P - P * Rᵀ * (R * P * Rᵀ + Q)⁻¹ * (P * Rᵀ)ᵀ).PosDef ∧
    ∫⁻ x, ∫⁻ y, f x y ∂(mvn (c + R *ᵥ x) Q) ∂(mvn m P) =
      ∫⁻ y, ∫⁻ x, f x y ∂(mvn (m + (P * Rᵀ) *ᵥ ((R * P * Rᵀ + Q)⁻¹ *ᵥ (y - (c + R *ᵥ m))))
        (P - P * Rᵀ * (R * P * Rᵀ + Q)⁻¹ * (P * Rᵀ)ᵀ)) ∂(mvn (c + R *ᵥ m) (R * P * Rᵀ + Q)) := by
  have hJ := posDef_joint hP hQ R
  refine ⟨posDef_schur (Equiv.refl _) hJ, ?_⟩
  have hm : Measurable fun z : ι ⊕ κ → ℝ => f (z ∘ Sum.inl) (z ∘ Sum.inr) := by
    have h0 : Measurable fun z : ι ⊕ κ → ℝ => (z ∘ Sum.inl, z ∘ Sum.inr) :=
      (measurable_pi_iff.2 fun i => measurable_pi_apply (Sum.inl i)).prodMk
      (measurable_pi_iff.2 fun i => measurable_pi_apply (Sum.inr i))
    exact hf.comp h0
  have h1 := lintegral_joint hP.posSemidef hQ.posSemidef m c R hm
  rw [lintegral_mvn_cond (Equiv.refl _) hJ _ hm] at h1
  exact h1

end GaussLin
end Fbs
