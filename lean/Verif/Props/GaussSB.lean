import Verif.Props.Utils

/-!
# C36: the Gaussian Schrödinger bridge with a Brownian reference
-/

open Matrix

namespace Fbs
namespace Spec

/-- The documented contract of `jax.scipy.linalg.cho_factor` on positive definite matrices (upper factor). -/
def IsChol {n : Type} [Fintype n] [LinearOrder n] (cho : Matrix n n ℝ → Matrix n n ℝ) : Prop :=
  ∀ M : Matrix n n ℝ, M.PosDef → (∀ i j, j < i → cho M i j = 0) ∧ (cho M)ᵀ * cho M = M

end Spec

namespace Props

open Utils Spec

section SB
variable {n : Type} [Fintype n] [LinearOrder n]
  {eigh : Matrix n n ℝ → (n → ℝ) × Matrix n n ℝ} {cho : Matrix n n ℝ → Matrix n n ℝ}
  {mean0 mean1 : n → ℝ} {cov0 cov1 : Matrix n n ℝ} {sig : ℝ}

/-- Shape of the construction: with `S = sqrt cov0` and some positive semidefinite `M`,
`C = S M S⁻¹` and `cov1 = S⁻¹ (M² + sig² M) S⁻¹`. -/
theorem sb_structure (he : IsEigh eigh) (h0 : cov0.PosDef) (h1 : cov1.PosDef) :
    ∃ S M : Matrix n n ℝ, Sᵀ = S ∧ S * S = cov0 ∧ IsUnit S.det ∧ Mᵀ = M ∧ M.PosSemidef ∧
      (makeGaussianBwSb eigh cho mean0 cov0 mean1 cov1 sig).C = S * M * S⁻¹ ∧
      S * cov1 * S = M * M + sig ^ 2 • M := by
  obtain ⟨s1, s2, s3⟩ := C41_sqrtm he h0.posSemidef
  have hS : IsUnit (sqrtm eigh cov0).det := by
    have := (Matrix.isUnit_iff_isUnit_det _).1 h0.isUnit
    rw [← s3, det_mul] at this
    exact isUnit_of_mul_isUnit_left this
  have hP : (sqrtm eigh cov0 * cov1 * sqrtm eigh cov0).PosSemidef := conj_posSemidef s2 h1.posSemidef
  set S := sqrtm eigh cov0 with hSd
  have hK : ((4 : ℝ) • S * cov1 * S + sig ^ 4 • (1 : Matrix n n ℝ)).PosSemidef := by
    refine PosSemidef.add ?_ (PosSemidef.one.smul (by positivity))
    have := hP.smul (a := (4 : ℝ)) (by norm_num)
    simpa [smul_mul_assoc] using this
  obtain ⟨d1, d2, d3⟩ := C41_sqrtm he hK
  obtain ⟨v1, v2, v3⟩ := eigh_spec he (isSymm_of_posSemidef hK)
  have hD : sqrtm eigh ((4 : ℝ) • S * cov1 * S + sig ^ 4 • (1 : Matrix n n ℝ)) =
      (eigh ((4 : ℝ) • S * cov1 * S + sig ^ 4 • (1 : Matrix n n ℝ))).2 *
        diagonal (fun i => Real.sqrt ((eigh ((4 : ℝ) • S * cov1 * S + sig ^ 4 • (1 : Matrix n n ℝ))).1 i)) *
        (eigh ((4 : ℝ) • S * cov1 * S + sig ^ 4 • (1 : Matrix n n ℝ))).2ᵀ := rfl
  have hl : ∀ i, sig ^ 4 ≤ (eigh ((4 : ℝ) • S * cov1 * S + sig ^ 4 • (1 : Matrix n n ℝ))).1 i := by
    intro i
    generalize (eigh ((4 : ℝ) • S * cov1 * S + sig ^ 4 • (1 : Matrix n n ℝ))).2 = V at *
    generalize (eigh ((4 : ℝ) • S * cov1 * S + sig ^ 4 • (1 : Matrix n n ℝ))).1 = lam at *
    have h4 : ((4 : ℝ) • S * cov1 * S).PosSemidef := by
      have := hP.smul (a := (4 : ℝ)) (by norm_num)
      simpa [smul_mul_assoc] using this
    have h5 := (posSemidef_mul_transpose Vᵀ h4).diag_nonneg (i := i)
    rw [Matrix.mul_add, Matrix.add_mul, Matrix.mul_smul Vᵀ (sig ^ 4), Matrix.mul_one, Matrix.smul_mul _ Vᵀ V, v1] at v3
    have h6 := congrFun (congrFun v3 i) i
    simp only [Matrix.add_apply, Matrix.smul_apply, one_apply_eq, smul_eq_mul, mul_one, diagonal_apply_eq] at h6
    rw [transpose_transpose] at h5
    linarith
  set D := sqrtm eigh ((4 : ℝ) • S * cov1 * S + sig ^ 4 • (1 : Matrix n n ℝ)) with hDd
  refine ⟨S, (0.5 : ℝ) • (D - sig ^ 2 • (1 : Matrix n n ℝ)), s1, s3, hS, ?_, ?_, ?_, ?_⟩
  · rw [transpose_smul, transpose_sub, d1, transpose_smul, transpose_one]
  · refine PosSemidef.smul ?_ (by norm_num)
    generalize (eigh ((4 : ℝ) • S * cov1 * S + sig ^ 4 • (1 : Matrix n n ℝ))).2 = V at *
    generalize (eigh ((4 : ℝ) • S * cov1 * S + sig ^ 4 • (1 : Matrix n n ℝ))).1 = lam at *
    have e : D - sig ^ 2 • (1 : Matrix n n ℝ) = V * diagonal (fun i => Real.sqrt (lam i) - sig ^ 2) * Vᵀ := by
      have : diagonal (fun i => Real.sqrt (lam i) - sig ^ 2) =
          diagonal (fun i => Real.sqrt (lam i)) - sig ^ 2 • (1 : Matrix n n ℝ) := by
        rw [smul_one_eq_diagonal, diagonal_sub]
      rw [this, Matrix.mul_sub, Matrix.sub_mul, ← hD, Matrix.mul_smul, Matrix.mul_one, Matrix.smul_mul, v2]
    rw [e]
    refine posSemidef_mul_transpose V (PosSemidef.diagonal fun i => ?_)
    have : sig ^ 2 ≤ Real.sqrt (lam i) := Real.le_sqrt_of_sq_le (by
      have := hl i
      calc (sig ^ 2) ^ 2 = sig ^ 4 := by ring
        _ ≤ lam i := this)
    simpa using this
  · simp only [makeGaussianBwSb]
    rw [← hSd, ← hDd, s1, d1, transpose_mul, d1, transpose_nonsing_inv, s1, Matrix.mul_smul, Matrix.smul_mul,
      Matrix.mul_sub, Matrix.sub_mul, Matrix.mul_smul, Matrix.mul_one, Matrix.smul_mul, mul_nonsing_inv _ hS,
      Matrix.mul_assoc]
  · have h7 : (4 : ℝ) • (S * cov1 * S) = D * D - sig ^ 4 • (1 : Matrix n n ℝ) := by
      rw [d3]; simp
    have h8 : S * cov1 * S = (0.25 : ℝ) • (D * D - sig ^ 4 • (1 : Matrix n n ℝ)) := by
      rw [← h7, smul_smul]; norm_num
    rw [h8]
    simp only [Matrix.smul_mul, Matrix.mul_smul, Matrix.mul_sub, Matrix.sub_mul, Matrix.mul_one, Matrix.one_mul,
      smul_sub, smul_smul]
    ext i j
    simp only [Matrix.sub_apply, Matrix.add_apply, Matrix.smul_apply, smul_eq_mul]
    ring

/-- **C36, optimality.**  The cross covariance satisfies `C² + sig² C = cov0 cov1`. -/
theorem C36_coupling (he : IsEigh eigh) (h0 : cov0.PosDef) (h1 : cov1.PosDef) :
    (makeGaussianBwSb eigh cho mean0 cov0 mean1 cov1 sig).C * (makeGaussianBwSb eigh cho mean0 cov0 mean1 cov1 sig).C
      + sig ^ 2 • (makeGaussianBwSb eigh cho mean0 cov0 mean1 cov1 sig).C = cov0 * cov1 := by
  obtain ⟨S, M, s1, s3, hS, -, -, hC, hM⟩ := sb_structure (cho := cho) (mean0 := mean0) (mean1 := mean1) (sig := sig)
    he h0 h1
  rw [hC]
  have e1 : S * M * S⁻¹ * (S * M * S⁻¹) = S * (M * (S⁻¹ * S) * M) * S⁻¹ := by simp only [Matrix.mul_assoc]
  rw [e1, nonsing_inv_mul _ hS, Matrix.mul_one]
  have e2 : S * (M * M) * S⁻¹ + sig ^ 2 • (S * M * S⁻¹) = S * (M * M + sig ^ 2 • M) * S⁻¹ := by
    simp only [Matrix.mul_add, Matrix.add_mul, Matrix.mul_smul, Matrix.smul_mul]
  rw [e2, ← hM, ← s3]
  have e3 : S * (S * cov1 * S) * S⁻¹ = S * S * cov1 * (S * S⁻¹) := by simp only [Matrix.mul_assoc]
  rw [e3, mul_nonsing_inv _ hS, Matrix.mul_one]

/-- **C36, end points.** -/
theorem C36_marginals :
    (makeGaussianBwSb eigh cho mean0 cov0 mean1 cov1 sig).mean 0 = mean0 ∧
    (makeGaussianBwSb eigh cho mean0 cov0 mean1 cov1 sig).mean 1 = mean1 ∧
    (makeGaussianBwSb eigh cho mean0 cov0 mean1 cov1 sig).cov 0 = cov0 ∧
    (makeGaussianBwSb eigh cho mean0 cov0 mean1 cov1 sig).cov 1 = cov1 := by
  simp [makeGaussianBwSb]

/-- The closed form of the marginal covariance. -/
theorem sb_cov_eq (t : ℝ) : (makeGaussianBwSb eigh cho mean0 cov0 mean1 cov1 sig).cov t =
    (1 - t) ^ 2 • cov0 + t ^ 2 • cov1 + (t * (1 - t)) • ((makeGaussianBwSb eigh cho mean0 cov0 mean1 cov1 sig).C +
      (makeGaussianBwSb eigh cho mean0 cov0 mean1 cov1 sig).Cᵀ) + (t * sig ^ 2 * (1 - t)) • 1 := rfl

/-- **C36.**  The marginal covariance is positive definite on `[0, 1]` (so its Cholesky factor exists). -/
theorem C36_cov_posDef (he : IsEigh eigh) (h0 : cov0.PosDef) (h1 : cov1.PosDef) {t : ℝ} (ht0 : 0 ≤ t) (ht1 : t ≤ 1) :
    ((makeGaussianBwSb eigh cho mean0 cov0 mean1 cov1 sig).cov t).PosDef := by
  rcases ht1.eq_or_lt with rfl | ht1
  · rw [(C36_marginals (eigh := eigh) (cho := cho)).2.2.2]; exact h1
  obtain ⟨S, M, s1, s3, hS, m1, m2, hC, hM⟩ := sb_structure (cho := cho) (mean0 := mean0) (mean1 := mean1) (sig := sig)
    he h0 h1
  have hSi : S⁻¹ᵀ = S⁻¹ := by rw [transpose_nonsing_inv, s1]
  have hi1 := mul_nonsing_inv _ hS
  have hi2 := nonsing_inv_mul _ hS
  have hcov1 : cov1 = S⁻¹ * (M * M + sig ^ 2 • M) * S⁻¹ := by
    rw [← hM]
    have : S⁻¹ * (S * cov1 * S) * S⁻¹ = (S⁻¹ * S) * cov1 * (S * S⁻¹) := by simp only [Matrix.mul_assoc]
    rw [this, hi1, hi2, Matrix.one_mul, Matrix.mul_one]
  set N := (1 - t) • S + t • (M * S⁻¹) with hN
  have hcov : (makeGaussianBwSb eigh cho mean0 cov0 mean1 cov1 sig).cov t =
      Nᵀ * N + (t ^ 2 * sig ^ 2) • (S⁻¹ * M * S⁻¹ᵀ) + (t * sig ^ 2 * (1 - t)) • 1 := by
    rw [sb_cov_eq, hC, ← s3, hN, hSi]
    conv_lhs => rw [hcov1]
    simp only [transpose_add, transpose_smul, transpose_mul, m1, s1, hSi, Matrix.mul_add, Matrix.add_mul,
      Matrix.smul_mul, Matrix.mul_smul, smul_add, smul_smul, Matrix.mul_assoc]
    ext i j
    simp only [Matrix.add_apply, Matrix.smul_apply, smul_eq_mul]
    ring
  have hNS : IsUnit N.det := by
    have hp : (N * S).PosDef := by
      have e : N * S = (1 - t) • cov0 + t • M := by
        rw [hN, Matrix.add_mul, Matrix.smul_mul, Matrix.smul_mul, Matrix.mul_assoc, hi2, Matrix.mul_one, s3]
      rw [e]
      exact (h0.smul (by linarith : 0 < 1 - t)).add_posSemidef (m2.smul ht0)
    have := (Matrix.isUnit_iff_isUnit_det _).1 hp.isUnit
    rw [det_mul] at this
    exact isUnit_of_mul_isUnit_left this
  rw [hcov]
  refine (PosDef.add_posSemidef ?_ ?_).add_posSemidef (PosSemidef.one.smul ?_)
  · have := PosDef.conjTranspose_mul_self N (Matrix.mulVec_injective_iff_isUnit.2
      ((Matrix.isUnit_iff_isUnit_det _).2 hNS))
    simpa [conjTranspose_eq_transpose_of_trivial] using this
  · exact (posSemidef_mul_transpose _ m2).smul (by positivity)
  · have : 0 ≤ 1 - t := by linarith
    positivity

/-- **C36, the mean equation.** -/
theorem C36_mean_ode (t : ℝ) (i : n) :
    HasDerivAt (fun t => (makeGaussianBwSb eigh cho mean0 cov0 mean1 cov1 sig).mean t i)
      ((makeGaussianBwSb eigh cho mean0 cov0 mean1 cov1 sig).drift
        ((makeGaussianBwSb eigh cho mean0 cov0 mean1 cov1 sig).mean t) t i) t := by
  simp only [makeGaussianBwSb, sub_self, choSolveVec, mulVec_zero, zero_sub, Pi.add_apply, Pi.neg_apply, Pi.smul_apply,
    smul_eq_mul]
  have h1 : HasDerivAt (fun t : ℝ => 1 - t) (-1) t := by simpa using (hasDerivAt_id t).const_sub 1
  refine ((h1.mul_const (mean0 i)).add ((hasDerivAt_id t).mul_const (mean1 i))).congr_deriv ?_
  simp

/-- **C36, the covariance equation.**  The drift is affine, `x ↦ A x + c`, and with that `A` and the constant
dispersion `sig` the marginal covariance solves `dP/dt = A P + P Aᵀ + sig² I`. -/
theorem C36_cov_ode (he : IsEigh eigh) (hc : IsChol cho) (h0 : cov0.PosDef) (h1 : cov1.PosDef) {t : ℝ} (ht0 : 0 ≤ t)
    (ht1 : t ≤ 1) :
    ∃ (A : Matrix n n ℝ) (c : n → ℝ),
      (∀ x, (makeGaussianBwSb eigh cho mean0 cov0 mean1 cov1 sig).drift x t = A *ᵥ x + c) ∧
      MDeriv (fun t => (makeGaussianBwSb eigh cho mean0 cov0 mean1 cov1 sig).cov t)
        (A * (makeGaussianBwSb eigh cho mean0 cov0 mean1 cov1 sig).cov t
          + (makeGaussianBwSb eigh cho mean0 cov0 mean1 cov1 sig).cov t * Aᵀ + sig ^ 2 • 1) t := by
  have hpd := C36_cov_posDef (cho := cho) (mean0 := mean0) (mean1 := mean1) (sig := sig) he h0 h1 ht0 ht1
  have hch := (hc _ hpd).2
  have hdrift : ∀ x, (makeGaussianBwSb eigh cho mean0 cov0 mean1 cov1 sig).drift x t =
      ((makeGaussianBwSb eigh cho mean0 cov0 mean1 cov1 sig).s t)ᵀ *ᵥ
        (((cho ((makeGaussianBwSb eigh cho mean0 cov0 mean1 cov1 sig).cov t))ᵀ *
          cho ((makeGaussianBwSb eigh cho mean0 cov0 mean1 cov1 sig).cov t))⁻¹ *ᵥ
          (x - (makeGaussianBwSb eigh cho mean0 cov0 mean1 cov1 sig).mean t)) - mean0 + mean1 := fun x => rfl
  have hs : (makeGaussianBwSb eigh cho mean0 cov0 mean1 cov1 sig).s t =
      t • cov1 + (1 - t) • (makeGaussianBwSb eigh cho mean0 cov0 mean1 cov1 sig).C
      - ((1 - t) • cov0 + t • (makeGaussianBwSb eigh cho mean0 cov0 mean1 cov1 sig).C)ᵀ - (sig ^ 2 * t) • 1 := rfl
  have hcov := fun t => sb_cov_eq (eigh := eigh) (cho := cho) (mean0 := mean0) (mean1 := mean1) (cov0 := cov0)
    (cov1 := cov1) (sig := sig) t
  have hinv := (Matrix.isUnit_iff_isUnit_det _).1 hpd.isUnit
  have hsym : ((makeGaussianBwSb eigh cho mean0 cov0 mean1 cov1 sig).cov t)ᵀ =
      (makeGaussianBwSb eigh cho mean0 cov0 mean1 cov1 sig).cov t := isSymm_of_posSemidef hpd.posSemidef
  have h0t : cov0ᵀ = cov0 := isSymm_of_posSemidef h0.posSemidef
  have h1t : cov1ᵀ = cov1 := isSymm_of_posSemidef h1.posSemidef
  generalize makeGaussianBwSb eigh cho mean0 cov0 mean1 cov1 sig = sb at *
  refine ⟨(sb.s t)ᵀ * (sb.cov t)⁻¹, -((sb.s t)ᵀ *ᵥ ((sb.cov t)⁻¹ *ᵥ sb.mean t)) - mean0 + mean1, fun x => ?_, ?_⟩
  · rw [hdrift, hch, mulVec_sub, mulVec_sub, mulVec_mulVec]
    abel
  · have e1 : (sb.s t)ᵀ * (sb.cov t)⁻¹ * sb.cov t = (sb.s t)ᵀ := by
      rw [Matrix.mul_assoc, nonsing_inv_mul _ hinv, Matrix.mul_one]
    have e2 : sb.cov t * ((sb.s t)ᵀ * (sb.cov t)⁻¹)ᵀ = sb.s t := by
      rw [transpose_mul, transpose_transpose, transpose_nonsing_inv, hsym, ← Matrix.mul_assoc,
        mul_nonsing_inv _ hinv, Matrix.one_mul]
    rw [e1, e2, funext hcov]
    have d1 : HasDerivAt (fun t : ℝ => 1 - t) (-1) t := by simpa using (hasDerivAt_id t).const_sub 1
    have d0 := hasDerivAt_id t
    have p1 : HasDerivAt (fun t : ℝ => (1 - t) ^ 2) (-2 * (1 - t)) t :=
      (d1.pow 2).congr_deriv (by ring)
    have p2 : HasDerivAt (fun t : ℝ => t ^ 2) (2 * t) t := (d0.pow 2).congr_deriv (by simp)
    have p3 : HasDerivAt (fun t : ℝ => t * (1 - t)) (1 - 2 * t) t :=
      (d0.mul d1).congr_deriv (by simp; ring)
    have p4 : HasDerivAt (fun t : ℝ => t * sig ^ 2 * (1 - t)) (sig ^ 2 * (1 - 2 * t)) t :=
      ((d0.mul_const (sig ^ 2)).mul d1).congr_deriv (by simp; ring)
    refine MatDeriv.congr (MatDeriv.add (MatDeriv.add (MatDeriv.add (MatDeriv.smul p1 cov0) (MatDeriv.smul p2 cov1))
      (MatDeriv.smul p3 _)) (MatDeriv.smul p4 1)) ?_
    rw [hs]
    simp only [transpose_add, transpose_sub, transpose_smul, transpose_transpose, transpose_one, h0t, h1t]
    ext i j
    simp only [Matrix.add_apply, Matrix.sub_apply, Matrix.smul_apply, smul_eq_mul]
    ring

end SB

end Props
end Fbs
