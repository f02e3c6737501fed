import Verif.Props.GaussSB
import Verif.Props.Gp
import Verif.Props.Kl
import Verif.Lemmas.GaussLin
import Verif.Lemmas.Schroedinger

/-!
# C73: the Gaussian Schrödinger bridge minimises the divergence from Brownian motion
-/

open MeasureTheory ProbabilityTheory InformationTheory Matrix WithLp
open scoped ENNReal NNReal MatrixOrder

namespace Fbs
namespace Spec

open Mvn

variable {n : Type} [Fintype n] [DecidableEq n]

/-- Law of the end points `(X₀, X₀ + sig Z)` of a Brownian motion of dispersion `sig` run for one unit of time from
`X₀ ∼ N(mean0, cov0)`. -/
noncomputable def brownianEnds (mean0 : n → ℝ) (cov0 : Matrix n n ℝ) (sig : ℝ) : Measure ((n → ℝ) × (n → ℝ)) :=
  ((mvn mean0 cov0).prod (Jax.stdNormal n)).map fun p => (p.1, p.1 + sig • p.2)

/-- The normal law of a pair with the given means, covariances and cross covariance. -/
noncomputable def gaussianCoupling (mean0 : n → ℝ) (cov0 : Matrix n n ℝ) (mean1 : n → ℝ) (cov1 C : Matrix n n ℝ) :
    Measure ((n → ℝ) × (n → ℝ)) :=
  (mvn (Sum.elim mean0 mean1) (fromBlocks cov0 C Cᵀ cov1)).map fun z => (fun i => z (.inl i), fun i => z (.inr i))

end Spec

namespace Props
open Utils Spec Mvn GaussKl Schroedinger GaussLin GaussCond

section Gaussian
variable {n : Type} [Fintype n] [DecidableEq n] {mean0 mean1 : n → ℝ} {cov0 cov1 C B : Matrix n n ℝ} {sig : ℝ}

omit [Fintype n] [DecidableEq n] in
theorem measurable_splitPair : Measurable fun z : n ⊕ n → ℝ => ((fun i => z (.inl i), fun i => z (.inr i)) :
    (n → ℝ) × (n → ℝ)) :=
  (measurable_pi_iff.2 fun _ => measurable_pi_apply _).prodMk (measurable_pi_iff.2 fun _ => measurable_pi_apply _)

omit [Fintype n] [DecidableEq n] in
theorem measurable_brownPair : Measurable fun p : (n → ℝ) × (n → ℝ) => (p.1, p.1 + sig • p.2) :=
  measurable_fst.prodMk (measurable_fst.add (measurable_snd.const_smul sig))

instance : IsProbabilityMeasure (brownianEnds mean0 cov0 sig) :=
  Measure.isProbabilityMeasure_map measurable_brownPair.aemeasurable

instance : IsProbabilityMeasure (gaussianCoupling mean0 cov0 mean1 cov1 C) :=
  Measure.isProbabilityMeasure_map measurable_splitPair.aemeasurable

theorem lintegral_brownianEnds {F : (n → ℝ) × (n → ℝ) → ℝ≥0∞} (hF : Measurable F) :
    ∫⁻ p, F p ∂(brownianEnds mean0 cov0 sig) =
      ∫⁻ x, ∫⁻ y, F (x, y) ∂(mvn x (sig ^ 2 • 1)) ∂(mvn mean0 cov0) := by
  rw [brownianEnds, lintegral_map hF measurable_brownPair]
  refine (lintegral_prod _ (hF.comp measurable_brownPair).aemeasurable).trans ?_
  refine lintegral_congr fun x => ?_
  have h := stdNormal_affine x (sig • (1 : Matrix n n ℝ))
  have e : sig • (1 : Matrix n n ℝ) * (sig • (1 : Matrix n n ℝ))ᵀ = sig ^ 2 • 1 := by
    rw [transpose_smul, transpose_one, smul_mul_smul, one_mul, sq]
  rw [e] at h
  have hFx : Measurable fun y => F (x, y) := hF.comp (measurable_const.prodMk measurable_id)
  rw [← h, lintegral_map hFx (measurable_affine _ _)]
  simp [smul_mulVec]

/-- Facts about the cross covariance that make the coupling optimal: `C = cov0 B` with `B` positive definite and
`cov1 = B cov0 B + sig² B`. -/
theorem lintegral_coupling (h0 : cov0.PosDef) (hB : B.PosDef) (hC : C = cov0 * B)
    (h1 : cov1 = B * cov0 * B + sig ^ 2 • B) {F : (n → ℝ) × (n → ℝ) → ℝ≥0∞} (hF : Measurable F) :
    ∫⁻ p, F p ∂(gaussianCoupling mean0 cov0 mean1 cov1 C) =
      ∫⁻ x, ∫⁻ y, F (x, y) ∂(mvn (mean1 + B *ᵥ (x - mean0)) (sig ^ 2 • B)) ∂(mvn mean0 cov0) := by
  have hBt : Bᵀ = B := by simpa using hB.1.eq
  have h0t : cov0ᵀ = cov0 := by simpa using h0.1.eq
  rw [gaussianCoupling, lintegral_map hF measurable_splitPair]
  have h := lintegral_joint h0.posSemidef (hB.posSemidef.smul (sq_nonneg sig)) mean0 (mean1 - B *ᵥ mean0) B
    (hF.comp measurable_splitPair)
  have e1 : jointMat cov0 (sig ^ 2 • B) B = fromBlocks cov0 C Cᵀ cov1 := by
    rw [jointMat, hBt, hC, transpose_mul, hBt, h0t, h1]
  rw [e1, sub_add_cancel] at h
  refine h.symm.trans (lintegral_congr fun x => ?_)
  have e2 : mean1 + B *ᵥ (x - mean0) = mean1 - B *ᵥ mean0 + B *ᵥ x := by rw [mulVec_sub]; abel
  rw [e2]
  rfl

/-- The potential of the first end point. -/
noncomputable def potF (mean0 mean1 : n → ℝ) (B : Matrix n n ℝ) (sig : ℝ) (x : n → ℝ) : ℝ :=
  -(1 / 2) * (sig ^ 2)⁻¹ * (quad B⁻¹ mean0 x - quad 1 mean1 x + (mean1 - mean0) ⬝ᵥ (mean1 - mean0))

/-- The potential of the second end point. -/
noncomputable def potG (mean0 mean1 : n → ℝ) (B : Matrix n n ℝ) (sig : ℝ) (y : n → ℝ) : ℝ :=
  -(1 / 2) * (Real.log (sig ^ 2 • B).det - Real.log (sig ^ 2 • (1 : Matrix n n ℝ)).det)
    - (1 / 2) * (sig ^ 2)⁻¹ * (quad B mean1 y - quad 1 mean0 y)

theorem measurable_potF : Measurable (potF mean0 mean1 B sig) :=
  (((measurable_quad _ _).sub (measurable_quad _ _)).add_const _).const_mul _

theorem measurable_potG : Measurable (potG mean0 mean1 B sig) :=
  (((measurable_quad _ _).sub (measurable_quad _ _)).const_mul _).const_sub _

theorem integrable_quad_mvn (m : n → ℝ) (S T : Matrix n n ℝ) (c : n → ℝ) : Integrable (quad T c) (mvn m S) := by
  rw [mvn, integrable_map_measure (measurable_quad T c).aestronglyMeasurable (WithLp.measurable_ofLp 2 _).aemeasurable]
  exact integrable_quad _ S T c

theorem integrable_potF (m : n → ℝ) (S : Matrix n n ℝ) : Integrable (potF mean0 mean1 B sig) (mvn m S) :=
  (((integrable_quad_mvn _ _ _ _).sub (integrable_quad_mvn _ _ _ _)).add (integrable_const _)).const_mul _

theorem integrable_potG (m : n → ℝ) (S : Matrix n n ℝ) : Integrable (potG mean0 mean1 B sig) (mvn m S) :=
  (integrable_const _).sub (((integrable_quad_mvn _ _ _ _).sub (integrable_quad_mvn _ _ _ _)).const_mul _)

/-- The conditional log densities differ by the two potentials. -/
theorem logDens_potentials (hB : B.PosDef) (hs : sig ≠ 0) (x y : n → ℝ) :
    logDens (mean1 + B *ᵥ (x - mean0)) (sig ^ 2 • B) y =
      logDens x (sig ^ 2 • 1) y + (potF mean0 mean1 B sig x + potG mean0 mean1 B sig y) := by
  have hBt : Bᵀ = B := by simpa using hB.1.eq
  have hdet : IsUnit B.det := (Matrix.isUnit_iff_isUnit_det _).1 hB.isUnit
  have hs2 : sig ^ 2 ≠ 0 := pow_ne_zero 2 hs
  have hinv : (sig ^ 2 • B)⁻¹ = (sig ^ 2)⁻¹ • B⁻¹ := by
    refine inv_eq_right_inv ?_
    rw [smul_mul_smul, mul_nonsing_inv _ hdet, mul_inv_cancel₀ hs2, one_smul]
  have hinv1 : (sig ^ 2 • (1 : Matrix n n ℝ))⁻¹ = (sig ^ 2)⁻¹ • 1 := by
    refine inv_eq_right_inv ?_
    rw [smul_mul_smul, one_mul, mul_inv_cancel₀ hs2, one_smul]
  have hBB : B⁻¹⁻¹ = B := nonsing_inv_nonsing_inv _ hdet
  have hBit : B⁻¹ᵀ = B⁻¹ := by rw [transpose_nonsing_inv, hBt]
  obtain ⟨d, rfl⟩ : ∃ d, mean1 = mean0 + d := ⟨mean1 - mean0, by abel⟩
  obtain ⟨u, rfl⟩ : ∃ u, x = mean0 + u := ⟨x - mean0, by abel⟩
  obtain ⟨v, rfl⟩ : ∃ v, y = mean0 + d + v := ⟨y - (mean0 + d), by abel⟩
  have q1 : (v - B *ᵥ u) ⬝ᵥ B⁻¹ *ᵥ (v - B *ᵥ u) = v ⬝ᵥ B⁻¹ *ᵥ v - 2 * (v ⬝ᵥ u) + u ⬝ᵥ B *ᵥ u := by
    have a1 : B⁻¹ *ᵥ (B *ᵥ u) = u := by rw [mulVec_mulVec, nonsing_inv_mul _ hdet, one_mulVec]
    have a2 : (B *ᵥ u) ⬝ᵥ B⁻¹ *ᵥ v = u ⬝ᵥ v := by
      rw [dotProduct_mulVec, ← mulVec_transpose, hBit, a1]
    rw [mulVec_sub, a1, dotProduct_sub, sub_dotProduct, sub_dotProduct, a2, dotProduct_comm (B *ᵥ u) u,
      dotProduct_comm u v]
    ring
  have e0 : mean0 + u - mean0 = u := by abel
  have e1 : mean0 + d + v - (mean0 + d + B *ᵥ u) = v - B *ᵥ u := by abel
  have e2 : mean0 + d + v - (mean0 + u) = v + d - u := by abel
  have e3 : mean0 + u - (mean0 + d) = u - d := by abel
  have e4 : mean0 + d + v - mean0 = v + d := by abel
  have e5 : mean0 + d + v - (mean0 + d) = v := by abel
  have e6 : mean0 + d - mean0 = d := by abel
  simp only [logDens, potF, potG, quad, hinv, hinv1, hBB, inv_one, one_mulVec, smul_mulVec, dotProduct_smul,
    smul_eq_mul, e0, e1, e2, e3, e4, e5, e6, q1]
  simp only [dotProduct_add, add_dotProduct, dotProduct_sub, sub_dotProduct, dotProduct_comm u v,
    dotProduct_comm d v, dotProduct_comm d u]
  ring

omit [Fintype n] [DecidableEq n] in
theorem lintegral_tilt {W : Measure ((n → ℝ) × (n → ℝ))} {f g : (n → ℝ) → ℝ} (hf : Measurable f) (hg : Measurable g)
    {F : (n → ℝ) × (n → ℝ) → ℝ≥0∞} (hF : Measurable F) :
    ∫⁻ p, F p ∂(tilt W Prod.fst Prod.snd f g) = ∫⁻ p, ENNReal.ofReal (Real.exp (f p.1 + g p.2)) * F p ∂W :=
  lintegral_withDensity_eq_lintegral_mul _ (measurable_tilt measurable_fst measurable_snd hf hg) hF

/-- The coupling is the Brownian law reweighted by the two potentials. -/
theorem coupling_eq_tilt (h0 : cov0.PosDef) (hB : B.PosDef) (hC : C = cov0 * B)
    (h1 : cov1 = B * cov0 * B + sig ^ 2 • B) (hs : sig ≠ 0) {f g : (n → ℝ) → ℝ} (hf : Measurable f) (hg : Measurable g)
    (hfg : ∀ x y, logDens (mean1 + B *ᵥ (x - mean0)) (sig ^ 2 • B) y = logDens x (sig ^ 2 • 1) y + (f x + g y)) :
    tilt (brownianEnds mean0 cov0 sig) Prod.fst Prod.snd f g = gaussianCoupling mean0 cov0 mean1 cov1 C := by
  refine Measure.ext_of_lintegral _ fun F hF => ?_
  have hpos : (0 : ℝ) < sig ^ 2 := by positivity
  have hd : Measurable fun p : (n → ℝ) × (n → ℝ) => ENNReal.ofReal (Real.exp (f p.1 + g p.2)) * F p :=
    (measurable_tilt measurable_fst measurable_snd hf hg).mul hF
  rw [lintegral_tilt hf hg hF, lintegral_brownianEnds hd, lintegral_coupling h0 hB hC h1 hF]
  refine lintegral_congr fun x => ?_
  have hFx : Measurable fun y => F (x, y) := hF.comp (measurable_const.prodMk measurable_id)
  have hdx : Measurable fun y : n → ℝ => ENNReal.ofReal (Real.exp (f x + g y)) * F (x, y) :=
    hd.comp (measurable_const.prodMk measurable_id)
  rw [lintegral_mvn_dens _ (hB.smul hpos) hFx]
  refine (lintegral_mvn_dens _ (PosDef.one.smul hpos) hdx).trans ?_
  refine lintegral_congr fun y => ?_
  rw [hfg, Real.exp_add (logDens _ _ _), ENNReal.ofReal_mul (Real.exp_pos _).le]
  ring

theorem posSemidef_coupling (h0 : cov0.PosDef) (hB : B.PosDef) (hC : C = cov0 * B)
    (h1 : cov1 = B * cov0 * B + sig ^ 2 • B) : (fromBlocks cov0 C Cᵀ cov1).PosSemidef := by
  have hBt : Bᵀ = B := by simpa using hB.1.eq
  have h0t : cov0ᵀ = cov0 := by simpa using h0.1.eq
  have hinv := (Matrix.isUnit_iff_isUnit_det _).1 h0.isUnit
  let _ : Invertible cov0 := h0.isUnit.invertible
  rw [← conjTranspose_eq_transpose_of_trivial, PosDef.fromBlocks₁₁ _ _ h0, conjTranspose_eq_transpose_of_trivial]
  have : cov1 - Cᵀ * cov0⁻¹ * C = sig ^ 2 • B := by
    rw [hC, h1, transpose_mul, hBt, h0t, Matrix.mul_assoc B cov0 cov0⁻¹, mul_nonsing_inv _ hinv, Matrix.mul_one,
      ← Matrix.mul_assoc, add_sub_cancel_left]
  rw [this]
  exact hB.posSemidef.smul (sq_nonneg sig)

theorem coupling_fst (h0 : cov0.PosDef) (hB : B.PosDef) (hC : C = cov0 * B)
    (h1 : cov1 = B * cov0 * B + sig ^ 2 • B) :
    (gaussianCoupling mean0 cov0 mean1 cov1 C).map Prod.fst = mvn mean0 cov0 := by
  refine Measure.ext_of_lintegral _ fun F hF => ?_
  rw [lintegral_map hF measurable_fst]
  refine (lintegral_coupling h0 hB hC h1 (hF.comp measurable_fst)).trans ?_
  simp

theorem coupling_snd (h0 : cov0.PosDef) (hB : B.PosDef) (hC : C = cov0 * B)
    (h1 : cov1 = B * cov0 * B + sig ^ 2 • B) :
    (gaussianCoupling mean0 cov0 mean1 cov1 C).map Prod.snd = mvn mean1 cov1 := by
  have hJ := posSemidef_coupling h0 hB hC h1
  have h := mvn_affine hJ (Sum.elim mean0 mean1) 0 (fromCols (0 : Matrix n n ℝ) (1 : Matrix n n ℝ))
  rw [gaussianCoupling, Measure.map_map measurable_snd measurable_splitPair]
  have e1 : (Prod.snd ∘ fun z : n ⊕ n → ℝ => ((fun i => z (.inl i), fun i => z (.inr i)) : (n → ℝ) × (n → ℝ))) =
      fun z => 0 + fromCols (0 : Matrix n n ℝ) (1 : Matrix n n ℝ) *ᵥ z := by
    funext z
    rw [fromCols_mulVec]
    simp
    rfl
  rw [e1, h]
  congr 1
  · rw [fromCols_mulVec]; simp
  · rw [transpose_fromCols, fromCols_mul_fromBlocks, fromCols_mul_fromRows]
    simp

end Gaussian

section SB
variable {n : Type} [Fintype n] [LinearOrder n]
  {eigh : Matrix n n ℝ → (n → ℝ) × Matrix n n ℝ} {cho : Matrix n n ℝ → Matrix n n ℝ}
  {mean0 mean1 : n → ℝ} {cov0 cov1 : Matrix n n ℝ} {sig : ℝ}

theorem sb_gain (he : IsEigh eigh) (h0 : cov0.PosDef) (h1 : cov1.PosDef) :
    ∃ B : Matrix n n ℝ, B.PosDef ∧ (makeGaussianBwSb eigh cho mean0 cov0 mean1 cov1 sig).C = cov0 * B ∧
      cov1 = B * cov0 * B + sig ^ 2 • B := by
  obtain ⟨S, M, s1, s3, hS, m1, m2, hC, hM⟩ := sb_structure (cho := cho) (mean0 := mean0) (mean1 := mean1) (sig := sig)
    he h0 h1
  have hi1 := mul_nonsing_inv _ hS
  have hi2 := nonsing_inv_mul _ hS
  have hSi : S⁻¹ᵀ = S⁻¹ := by rw [transpose_nonsing_inv, s1]
  have hcov1 : cov1 = S⁻¹ * (M * M + sig ^ 2 • M) * S⁻¹ := by
    rw [← hM]
    calc cov1 = (S⁻¹ * S) * cov1 * (S * S⁻¹) := by rw [hi1, hi2, Matrix.one_mul, Matrix.mul_one]
      _ = S⁻¹ * (S * cov1 * S) * S⁻¹ := by simp only [Matrix.mul_assoc]
  have hMu : IsUnit M.det := by
    have hu : IsUnit (S * cov1 * S).det := by
      rw [det_mul, det_mul]
      exact (hS.mul ((Matrix.isUnit_iff_isUnit_det _).1 h1.isUnit)).mul hS
    have e : S * cov1 * S = M * (M + sig ^ 2 • 1) := by
      rw [hM, Matrix.mul_add, Matrix.mul_smul, Matrix.mul_one]
    rw [e, det_mul] at hu
    exact isUnit_of_mul_isUnit_left hu
  have hMpd : M.PosDef := m2.posDef_iff_isUnit.2 ((Matrix.isUnit_iff_isUnit_det _).2 hMu)
  refine ⟨S⁻¹ * M * S⁻¹, ?_, ?_, ?_⟩
  · have hinj : Function.Injective (S⁻¹ᵀ).vecMul := by
      rw [hSi]
      exact vecMul_injective_of_isUnit ((Matrix.isUnit_iff_isUnit_det _).2 (isUnit_nonsing_inv_det _ hS))
    have := hMpd.conjTranspose_mul_mul_same (B := S⁻¹) (by
      exact mulVec_injective_of_isUnit ((Matrix.isUnit_iff_isUnit_det _).2 (isUnit_nonsing_inv_det _ hS)))
    rwa [conjTranspose_eq_transpose_of_trivial, hSi] at this
  · rw [hC, ← s3]
    calc S * M * S⁻¹ = S * (S * S⁻¹) * M * S⁻¹ := by rw [hi1, Matrix.mul_one]
      _ = _ := by simp only [Matrix.mul_assoc]
  · rw [hcov1, ← s3]
    have : S⁻¹ * M * S⁻¹ * (S * S) * (S⁻¹ * M * S⁻¹) = S⁻¹ * M * (S⁻¹ * S) * (S * S⁻¹) * M * S⁻¹ := by
      simp only [Matrix.mul_assoc]
    rw [this, hi1, hi2]
    simp only [Matrix.mul_one, Matrix.mul_add, Matrix.add_mul, Matrix.mul_smul, Matrix.smul_mul, Matrix.mul_assoc]

/-- **C73, the bridge.**  Let `W` be the law of any process whose end points are distributed as those of a Brownian
motion of dispersion `sig` from `N(mean0, cov0)`.  Among all laws with end-point marginals `N(mean0, cov0)` and
`N(mean1, cov1)` exactly one minimises the divergence from `W`; it reweights `W` by a function of the end points
(so it leaves the conditional law of the process given its end points alone), and its end points have the cross
covariance computed by `make_gaussian_bw_sb`. -/
theorem C73_bridge (he : IsEigh eigh) (h0 : cov0.PosDef) (h1 : cov1.PosDef) (hs : sig ≠ 0) {Ω : Type*}
    [MeasurableSpace Ω] {W : Measure Ω} [IsProbabilityMeasure W] {X0 X1 : Ω → n → ℝ} (hX0 : Measurable X0)
    (hX1 : Measurable X1) (hW : W.map (fun ω => (X0 ω, X1 ω)) = brownianEnds mean0 cov0 sig) :
    ∃ Q : Measure Ω, IsProbabilityMeasure Q ∧ Q.map X0 = mvn mean0 cov0 ∧ Q.map X1 = mvn mean1 cov1 ∧
      Q.map (fun ω => (X0 ω, X1 ω)) =
        gaussianCoupling mean0 cov0 mean1 cov1 (makeGaussianBwSb eigh cho mean0 cov0 mean1 cov1 sig).C ∧
      (∃ f g : (n → ℝ) → ℝ, Measurable f ∧ Measurable g ∧
        Q = W.withDensity fun ω => ENNReal.ofReal (Real.exp (f (X0 ω) + g (X1 ω)))) ∧
      klDiv Q W ≠ ∞ ∧
      ∀ P : Measure Ω, IsProbabilityMeasure P → P.map X0 = mvn mean0 cov0 → P.map X1 = mvn mean1 cov1 →
        klDiv Q W ≤ klDiv P W ∧ (klDiv P W ≤ klDiv Q W → P = Q) := by
  obtain ⟨B, hB, hC, hcov⟩ := sb_gain (cho := cho) (mean0 := mean0) (mean1 := mean1) (sig := sig) he h0 h1
  generalize (makeGaussianBwSb eigh cho mean0 cov0 mean1 cov1 sig).C = C at hC ⊢
  have hf := measurable_potF (mean0 := mean0) (mean1 := mean1) (B := B) (sig := sig)
  have hg := measurable_potG (mean0 := mean0) (mean1 := mean1) (B := B) (sig := sig)
  have hfi := integrable_potF (mean0 := mean0) (mean1 := mean1) (B := B) (sig := sig) mean0 cov0
  have hgi := integrable_potG (mean0 := mean0) (mean1 := mean1) (B := B) (sig := sig) mean1 cov1
  have hcpl := coupling_eq_tilt h0 hB hC hcov hs hf hg (logDens_potentials (mean0 := mean0) (mean1 := mean1) hB hs)
  generalize potF mean0 mean1 B sig = f at *
  generalize potG mean0 mean1 B sig = g at *
  have hX := hX0.prodMk hX1
  have hmap : (tilt W X0 X1 f g).map (fun ω => (X0 ω, X1 ω)) = gaussianCoupling mean0 cov0 mean1 cov1 C := by
    rw [← hcpl, ← hW]
    refine Measure.ext_of_lintegral _ fun F hF => ?_
    have hd : Measurable fun p : (n → ℝ) × (n → ℝ) => ENNReal.ofReal (Real.exp (f p.1 + g p.2)) * F p :=
      (measurable_tilt measurable_fst measurable_snd hf hg).mul hF
    rw [lintegral_tilt hf hg hF, lintegral_map hF hX, lintegral_map hd hX]
    exact lintegral_withDensity_eq_lintegral_mul _ (measurable_tilt hX0 hX1 hf hg) (hF.comp hX)
  have hprob : IsProbabilityMeasure (tilt W X0 X1 f g) := by
    refine ⟨?_⟩
    have := congrArg (fun μ => μ Set.univ) hmap
    simpa [Measure.map_apply hX MeasurableSet.univ] using this
  have hT0 : (tilt W X0 X1 f g).map X0 = mvn mean0 cov0 := by
    rw [← coupling_fst (mean1 := mean1) h0 hB hC hcov, ← hmap, Measure.map_map measurable_fst hX]
    rfl
  have hT1 : (tilt W X0 X1 f g).map X1 = mvn mean1 cov1 := by
    rw [← coupling_snd (mean0 := mean0) h0 hB hC hcov, ← hmap, Measure.map_map measurable_snd hX]
    rfl
  have hfin : klDiv (tilt W X0 X1 f g) W ≠ ∞ := by
    rw [(klDiv_tilt hX0 hX1 hf hg hT0 hT1 hfi hgi).1]
    exact ENNReal.ofReal_ne_top
  refine ⟨tilt W X0 X1 f g, hprob, hT0, hT1, hmap, ⟨f, g, hf, hg, rfl⟩, hfin, fun P hP hP0 hP1 => ?_⟩
  have hpy := klDiv_pythagoras (W := W) (P := P) hX0 hX1 hf hg hT0 hT1 hP0 hP1 hfi hgi
  refine ⟨hpy ▸ le_add_self, fun hle => ?_⟩
  have h3 : klDiv P (tilt W X0 X1 f g) = 0 := by
    rw [hpy] at hle
    by_contra h
    exact absurd hle (not_le.2 (add_comm (klDiv P _) _ ▸ ENNReal.lt_add_right hfin h))
  exact klDiv_eq_zero_iff.1 h3

/-- **C73, the coupling.**  The normal law with the cross covariance computed by `make_gaussian_bw_sb` is the unique
coupling of the two marginals closest to the Brownian end points. -/
theorem C73_coupling (he : IsEigh eigh) (h0 : cov0.PosDef) (h1 : cov1.PosDef) (hs : sig ≠ 0) :
    (gaussianCoupling mean0 cov0 mean1 cov1 (makeGaussianBwSb eigh cho mean0 cov0 mean1 cov1 sig).C).map Prod.fst =
      mvn mean0 cov0 ∧
    (gaussianCoupling mean0 cov0 mean1 cov1 (makeGaussianBwSb eigh cho mean0 cov0 mean1 cov1 sig).C).map Prod.snd =
      mvn mean1 cov1 ∧
    ∀ P : Measure ((n → ℝ) × (n → ℝ)), IsProbabilityMeasure P → P.map Prod.fst = mvn mean0 cov0 →
      P.map Prod.snd = mvn mean1 cov1 →
      P ≠ gaussianCoupling mean0 cov0 mean1 cov1 (makeGaussianBwSb eigh cho mean0 cov0 mean1 cov1 sig).C →
      klDiv (gaussianCoupling mean0 cov0 mean1 cov1 (makeGaussianBwSb eigh cho mean0 cov0 mean1 cov1 sig).C)
        (brownianEnds mean0 cov0 sig) < klDiv P (brownianEnds mean0 cov0 sig) := by
  obtain ⟨Q, -, q0, q1, q2, -, -, q3⟩ := C73_bridge (eigh := eigh) (cho := cho) (mean1 := mean1) he h0 h1 hs
    (W := brownianEnds mean0 cov0 sig) measurable_fst measurable_snd Measure.map_id
  obtain rfl : Q = gaussianCoupling mean0 cov0 mean1 cov1 (makeGaussianBwSb eigh cho mean0 cov0 mean1 cov1 sig).C := by
    rw [← q2]; exact Measure.map_id.symm
  refine ⟨q0, q1, fun P hP p0 p1 hne => not_le.1 fun hle => hne ((q3 P hP p0 p1).2 hle)⟩

/-- **C73, the drift.**  Let `(X₀, X₁)` have the coupling of the bridge and let
`X_t = (1 - t) X₀ + t X₁ + sig √(t (1 - t)) Z` be the Brownian bridge between them.  Then `X_t ∼ N(mean t, cov t)` and,
given `X_t = x`, the end point `X₁` is normal with mean `x + (1 - t) drift(x, t)`: the drift returned by the code is the
conditional mean of the bridge velocity `(X₁ - X_t) / (1 - t)`. -/
theorem C73_drift (he : IsEigh eigh) (hc : IsChol cho) (h0 : cov0.PosDef) (h1 : cov1.PosDef) {t : ℝ} (ht0 : 0 ≤ t)
    (ht1 : t ≤ 1) :
    ∃ V : Matrix n n ℝ, V.PosSemidef ∧ ∀ F : (n → ℝ) × (n → ℝ) → ℝ≥0∞, Measurable F →
      ∫⁻ p, ∫⁻ z, F ((1 - t) • p.1 + t • p.2 + (sig * Real.sqrt (t * (1 - t))) • z, p.2) ∂(Jax.stdNormal n)
        ∂(gaussianCoupling mean0 cov0 mean1 cov1 (makeGaussianBwSb eigh cho mean0 cov0 mean1 cov1 sig).C) =
      ∫⁻ x, ∫⁻ y, F (x, y) ∂(mvn (x + (1 - t) • (makeGaussianBwSb eigh cho mean0 cov0 mean1 cov1 sig).drift x t) V)
        ∂(mvn ((makeGaussianBwSb eigh cho mean0 cov0 mean1 cov1 sig).mean t)
          ((makeGaussianBwSb eigh cho mean0 cov0 mean1 cov1 sig).cov t)) := by
  obtain ⟨B, hB, hC, hcov⟩ := sb_gain (cho := cho) (mean0 := mean0) (mean1 := mean1) (sig := sig) he h0 h1
  have hpd := C36_cov_posDef (cho := cho) (mean0 := mean0) (mean1 := mean1) (sig := sig) he h0 h1 ht0 ht1
  have hJ := posSemidef_coupling h0 hB hC hcov
  have hdrift : ∀ x, (makeGaussianBwSb eigh cho mean0 cov0 mean1 cov1 sig).drift x t =
      ((makeGaussianBwSb eigh cho mean0 cov0 mean1 cov1 sig).s t)ᵀ *ᵥ
        (((makeGaussianBwSb eigh cho mean0 cov0 mean1 cov1 sig).cov t)⁻¹ *ᵥ
          (x - (makeGaussianBwSb eigh cho mean0 cov0 mean1 cov1 sig).mean t)) - mean0 + mean1 := fun x => by
    rw [← choSolveVec_eq hc hpd]; rfl
  have hs : (makeGaussianBwSb eigh cho mean0 cov0 mean1 cov1 sig).s t =
      t • cov1 + (1 - t) • (makeGaussianBwSb eigh cho mean0 cov0 mean1 cov1 sig).C
      - ((1 - t) • cov0 + t • (makeGaussianBwSb eigh cho mean0 cov0 mean1 cov1 sig).C)ᵀ - (sig ^ 2 * t) • 1 := rfl
  have hct := sb_cov_eq (eigh := eigh) (cho := cho) (mean0 := mean0) (mean1 := mean1) (cov0 := cov0)
    (cov1 := cov1) (sig := sig) t
  have hmt : (makeGaussianBwSb eigh cho mean0 cov0 mean1 cov1 sig).mean t = (1 - t) • mean0 + t • mean1 := rfl
  have hinv := (Matrix.isUnit_iff_isUnit_det _).1 hpd.isUnit
  have hsym : ((makeGaussianBwSb eigh cho mean0 cov0 mean1 cov1 sig).cov t)ᵀ =
      (makeGaussianBwSb eigh cho mean0 cov0 mean1 cov1 sig).cov t := isSymm_of_posSemidef hpd.posSemidef
  have h0t : cov0ᵀ = cov0 := isSymm_of_posSemidef h0.posSemidef
  have h1t : cov1ᵀ = cov1 := isSymm_of_posSemidef h1.posSemidef
  clear hC
  generalize makeGaussianBwSb eigh cho mean0 cov0 mean1 cov1 sig = sb at *
  set K : Matrix n n ℝ := (1 - t) • sb.Cᵀ + t • cov1 with hK
  have hKs : K = sb.cov t + (1 - t) • (sb.s t)ᵀ := by
    rw [hK, hct, hs]
    simp only [transpose_add, transpose_sub, transpose_smul, transpose_transpose, transpose_one, h1t]
    ext i j
    simp only [Matrix.add_apply, Matrix.sub_apply, Matrix.smul_apply, smul_eq_mul, transpose_apply]
    ring
  have htt : 0 ≤ t * (1 - t) := mul_nonneg ht0 (sub_nonneg.2 ht1)
  -- the pair `(X_t, X₁)` as an affine image plus noise
  set A : Matrix (n ⊕ n) (n ⊕ n) ℝ := fromBlocks ((1 - t) • 1) (t • 1) 0 1 with hA
  set c : ℝ := sig * Real.sqrt (t * (1 - t)) with hcdef
  have hcc : c * c = t * sig ^ 2 * (1 - t) := by
    rw [hcdef]
    calc _ = sig ^ 2 * (Real.sqrt (t * (1 - t)) * Real.sqrt (t * (1 - t))) := by ring
      _ = _ := by rw [Real.mul_self_sqrt htt]; ring
  set N : Matrix (n ⊕ n) n ℝ := fromRows (c • 1) 0 with hN
  have hJt : A * fromBlocks cov0 sb.C sb.Cᵀ cov1 * Aᵀ + N * (1 : Matrix n n ℝ) * Nᵀ = fromBlocks (sb.cov t) Kᵀ K cov1 := by
    rw [hA, hN, fromBlocks_transpose, fromBlocks_multiply, fromBlocks_multiply, Matrix.mul_one, transpose_fromRows,
      fromRows_mul_fromCols, fromBlocks_add]
    congr 1
    · rw [hct]
      simp only [transpose_smul, transpose_one, Matrix.smul_mul, Matrix.mul_smul, Matrix.one_mul, Matrix.mul_one,
        smul_add, smul_smul, hcc]
      ext i j
      simp only [Matrix.add_apply, Matrix.smul_apply, smul_eq_mul]
      ring
    · rw [hK]
      simp [h1t]
    · rw [hK]
      simp
    · simp
  have hAJ : (A * fromBlocks cov0 sb.C sb.Cᵀ cov1 * Aᵀ).PosSemidef := by
    simpa using hJ.mul_mul_conjTranspose_same A
  have hNN : (N * (1 : Matrix n n ℝ) * Nᵀ).PosSemidef := by
    simpa using (PosSemidef.one (n := n) (R := ℝ)).mul_mul_conjTranspose_same N
  have hV : (cov1 - K * (sb.cov t)⁻¹ * Kᵀ).PosSemidef := by
    let _ : Invertible (sb.cov t) := hpd.isUnit.invertible
    have h2 : (fromBlocks (sb.cov t) Kᵀ (Kᵀ)ᴴ cov1).PosSemidef := by
      rw [conjTranspose_eq_transpose_of_trivial, transpose_transpose, ← hJt]
      exact hAJ.add hNN
    have h3 := (PosDef.fromBlocks₁₁ _ _ hpd).1 h2
    rwa [conjTranspose_eq_transpose_of_trivial, transpose_transpose] at h3
  refine ⟨cov1 - K * (sb.cov t)⁻¹ * Kᵀ, hV, fun F hF => ?_⟩
  have hGm : Measurable fun z : n ⊕ n → ℝ => F (fun i => z (.inl i), fun i => z (.inr i)) :=
    hF.comp measurable_splitPair
  -- right hand side
  have hR := lintegral_joint hpd.posSemidef hV (sb.mean t) (mean1 - (K * (sb.cov t)⁻¹) *ᵥ sb.mean t) (K * (sb.cov t)⁻¹)
    hGm
  have ej : jointMat (sb.cov t) (cov1 - K * (sb.cov t)⁻¹ * Kᵀ) (K * (sb.cov t)⁻¹) =
      fromBlocks (sb.cov t) Kᵀ K cov1 := by
    have b1 : K * (sb.cov t)⁻¹ * sb.cov t = K := by rw [Matrix.mul_assoc, nonsing_inv_mul _ hinv, Matrix.mul_one]
    have b2 : sb.cov t * (K * (sb.cov t)⁻¹)ᵀ = Kᵀ := by
      rw [transpose_mul, transpose_nonsing_inv, hsym, ← Matrix.mul_assoc, mul_nonsing_inv _ hinv, Matrix.one_mul]
    rw [jointMat, b1, b2, transpose_mul, transpose_nonsing_inv, hsym, ← Matrix.mul_assoc, add_sub_cancel]
  rw [ej, sub_add_cancel] at hR
  have hR' : ∫⁻ x, ∫⁻ y, F (x, y) ∂(mvn (x + (1 - t) • sb.drift x t) (cov1 - K * (sb.cov t)⁻¹ * Kᵀ))
      ∂(mvn (sb.mean t) (sb.cov t)) = ∫⁻ z, F (fun i => z (.inl i), fun i => z (.inr i))
        ∂(mvn (Sum.elim (sb.mean t) mean1) (fromBlocks (sb.cov t) Kᵀ K cov1)) := by
    rw [← hR]
    refine lintegral_congr fun x => ?_
    have e2 : x + (1 - t) • sb.drift x t =
        mean1 - (K * (sb.cov t)⁻¹) *ᵥ sb.mean t + (K * (sb.cov t)⁻¹) *ᵥ x := by
      have e3 : mean1 - (K * (sb.cov t)⁻¹) *ᵥ sb.mean t + (K * (sb.cov t)⁻¹) *ᵥ x =
          mean1 + (K * (sb.cov t)⁻¹) *ᵥ (x - sb.mean t) := by rw [mulVec_sub]; abel
      rw [e3, hdrift, hKs, Matrix.add_mul, mul_nonsing_inv _ hinv, add_mulVec, one_mulVec, Matrix.smul_mul,
        smul_mulVec, ← mulVec_mulVec, hmt]
      ext i
      simp only [Pi.add_apply, Pi.sub_apply, Pi.smul_apply, smul_eq_mul]
      ring
    rw [e2]
    rfl
  rw [hR']
  -- left hand side
  have hL := mvn_conv hAJ hNN (0 + A *ᵥ Sum.elim mean0 mean1) (0 + N *ᵥ 0) hGm
  rw [hJt] at hL
  have em : (0 + A *ᵥ Sum.elim mean0 mean1 + (0 + N *ᵥ 0) : n ⊕ n → ℝ) = Sum.elim (sb.mean t) mean1 := by
    rw [hA, mulVec_blocks, hmt]
    ext (i | i) <;> simp [smul_mulVec]
  rw [em] at hL
  rw [← hL, ← mvn_affine hJ, ← mvn_affine PosSemidef.one, ← stdNormal_eq_mvn]
  have hin : ∀ x : n ⊕ n → ℝ, ∫⁻ y, F (fun i => (x + y) (.inl i), fun i => (x + y) (.inr i))
      ∂((Jax.stdNormal n).map fun z => 0 + N *ᵥ z) =
      ∫⁻ z, F ((fun i => x (.inl i)) + c • z, fun i => x (.inr i)) ∂(Jax.stdNormal n) := fun x => by
    refine (lintegral_map (hGm.comp (measurable_const.add measurable_id)) (measurable_affine _ _)).trans ?_
    refine lintegral_congr fun z => ?_
    simp only [Function.comp]
    congr 1
    rw [hN, fromRows_mulVec]
    ext i <;> simp [smul_mulVec]
  simp only [hin]
  have hmeas : Measurable fun x : n ⊕ n → ℝ =>
      ∫⁻ z, F ((fun i => x (.inl i)) + c • z, fun i => x (.inr i)) ∂(Jax.stdNormal n) :=
    Measurable.lintegral_prod_right' (f := fun p : (n ⊕ n → ℝ) × (n → ℝ) =>
      F ((fun i => p.1 (.inl i)) + c • p.2, fun i => p.1 (.inr i)))
      (hF.comp (((measurable_fst.comp (measurable_splitPair.comp measurable_fst)).add
        (measurable_snd.const_smul c)).prodMk (measurable_snd.comp (measurable_splitPair.comp measurable_fst))))
  rw [lintegral_map hmeas (measurable_affine _ _), gaussianCoupling, lintegral_map _ measurable_splitPair]
  · refine lintegral_congr fun x => lintegral_congr fun z => ?_
    congr 1
    rw [hA]
    obtain ⟨a, b, rfl⟩ : ∃ a b, x = Sum.elim a b := ⟨x ∘ Sum.inl, x ∘ Sum.inr, by simp⟩
    rw [mulVec_blocks]
    ext i <;> simp [smul_mulVec]
  · exact Measurable.lintegral_prod_right' (f := fun q : ((n → ℝ) × (n → ℝ)) × (n → ℝ) =>
      F ((1 - t) • q.1.1 + t • q.1.2 + c • q.2, q.1.2))
      (hF.comp ((((measurable_fst.fst.const_smul (1 - t)).add (measurable_fst.snd.const_smul t)).add
        (measurable_snd.const_smul c)).prodMk measurable_fst.snd))

/-- The hypotheses of C73 are met by different marginals in dimension three, with a Brownian reference that exists. -/
example : ∃ (eigh : Matrix (Fin 3) (Fin 3) ℝ → (Fin 3 → ℝ) × Matrix (Fin 3) (Fin 3) ℝ)
    (cho : Matrix (Fin 3) (Fin 3) ℝ → Matrix (Fin 3) (Fin 3) ℝ) (cov0 cov1 : Matrix (Fin 3) (Fin 3) ℝ),
    IsEigh eigh ∧ IsChol cho ∧ cov0.PosDef ∧ cov1.PosDef ∧ cov0 ≠ cov1 ∧
      (brownianEnds (0 : Fin 3 → ℝ) cov0 1).map (fun p => (p.1, p.2)) = brownianEnds 0 cov0 1 := by
  obtain ⟨eigh, he⟩ := exists_isEigh (n := Fin 3)
  obtain ⟨cho, hc⟩ := exists_isChol 3
  refine ⟨eigh, cho, 1, (2 : ℝ) • 1, he, hc, PosDef.one, PosDef.one.smul two_pos, ?_, Measure.map_id⟩
  intro h
  have := congrFun (congrFun h 0) 0
  simp at this

end SB
end Props
end Fbs
