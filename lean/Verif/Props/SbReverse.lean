import Verif.Model.SbGp
import Verif.Props.SbOptimal
import Verif.Props.ExpKeys
import Verif.Lemmas.PolyZero

/-!
# C74: the reverse process of the Gaussian Schrödinger bridge experiments
-/

open MeasureTheory ProbabilityTheory Matrix
open scoped ENNReal NNReal MatrixOrder

namespace Fbs
namespace Props
open Utils Spec Mvn GaussKl Jax

section Algebra
variable {n : Type} [Fintype n] [LinearOrder n] {eigh : Matrix n n ℝ → (n → ℝ) × Matrix n n ℝ}

/-- At most one positive semidefinite matrix solves `B cov0 B + sig² B = cov1`. -/
theorem gain_unique (he : IsEigh eigh) {cov0 cov1 B B' : Matrix n n ℝ} {sig : ℝ} (h0 : cov0.PosDef)
    (hB : B.PosSemidef) (hB' : B'.PosSemidef) (h : cov1 = B * cov0 * B + sig ^ 2 • B)
    (h' : cov1 = B' * cov0 * B' + sig ^ 2 • B') : B = B' := by
  obtain ⟨s1, s2, s3⟩ := C41_sqrtm he h0.posSemidef
  have hS : IsUnit (sqrtm eigh cov0).det := by
    have := (Matrix.isUnit_iff_isUnit_det _).1 h0.isUnit
    rw [← s3, det_mul] at this
    exact isUnit_of_mul_isUnit_left this
  generalize sqrtm eigh cov0 = S at *
  have key : ∀ {X : Matrix n n ℝ}, X.PosSemidef → cov1 = X * cov0 * X + sig ^ 2 • X →
      (S * X * S + (sig ^ 2 / 2) • 1).PosSemidef ∧
      (S * X * S + (sig ^ 2 / 2) • 1) * (S * X * S + (sig ^ 2 / 2) • 1) = S * cov1 * S + (sig ^ 4 / 4) • 1 := by
    intro X hX hX1
    refine ⟨(conj_posSemidef s2 hX).add (PosSemidef.one.smul (by positivity)), ?_⟩
    have e : S * cov1 * S = S * X * S * (S * X * S) + sig ^ 2 • (S * X * S) := by
      rw [hX1, ← s3]
      simp only [Matrix.mul_add, Matrix.add_mul, Matrix.mul_smul, Matrix.smul_mul, Matrix.mul_assoc]
    rw [e]
    generalize S * X * S = M
    simp only [Matrix.mul_add, Matrix.add_mul, Matrix.mul_smul, Matrix.smul_mul, Matrix.mul_one, Matrix.one_mul]
    ext i j
    simp only [Matrix.add_apply, Matrix.smul_apply, smul_eq_mul]
    ring
  obtain ⟨k1, k2⟩ := key hB h
  obtain ⟨k1', k2'⟩ := key hB' h'
  have h3 := add_right_cancel (sqrt_unique he k1 k1' (k2.trans k2'.symm))
  have h4 : ∀ X : Matrix n n ℝ, X = S⁻¹ * (S * X * S) * S⁻¹ := fun X => by
    calc X = (S⁻¹ * S) * X * (S * S⁻¹) := by
          rw [mul_nonsing_inv _ hS, nonsing_inv_mul _ hS, Matrix.one_mul, Matrix.mul_one]
      _ = _ := by simp only [Matrix.mul_assoc]
  rw [h4 B, h4 B', h3]

variable {cho cho' : Matrix n n ℝ → Matrix n n ℝ} {mean0 mean1 : n → ℝ} {cov0 cov1 : Matrix n n ℝ} {sig : ℝ}

/-- The bridge with the two ends exchanged has the transposed cross covariance. -/
theorem sb_swap (he : IsEigh eigh) (h0 : cov0.PosDef) (h1 : cov1.PosDef) :
    (makeGaussianBwSb eigh cho' mean1 cov1 mean0 cov0 sig).C =
      (makeGaussianBwSb eigh cho mean0 cov0 mean1 cov1 sig).Cᵀ := by
  obtain ⟨B, hB, hC, hcov⟩ := sb_gain (cho := cho) (mean0 := mean0) (mean1 := mean1) (sig := sig) he h0 h1
  obtain ⟨B', hB', hC', hcov'⟩ := sb_gain (cho := cho') (mean0 := mean1) (mean1 := mean0) (sig := sig) he h1 h0
  have hBt : Bᵀ = B := by simpa using hB.1.eq
  have h0t : cov0ᵀ = cov0 := by simpa using h0.1.eq
  have u0 : IsUnit cov0.det := (Matrix.isUnit_iff_isUnit_det _).1 h0.isUnit
  have u1 : IsUnit cov1.det := (Matrix.isUnit_iff_isUnit_det _).1 h1.isUnit
  -- the candidate gain of the exchanged problem
  have hP : (B + sig ^ 2 • cov0⁻¹).PosDef := hB.add_posSemidef (h0.inv.posSemidef.smul (sq_nonneg sig))
  have uP : IsUnit (B + sig ^ 2 • cov0⁻¹).det := (Matrix.isUnit_iff_isUnit_det _).1 hP.isUnit
  have e1 : B * cov0 * (B + sig ^ 2 • cov0⁻¹) = cov1 := by
    rw [Matrix.mul_add, Matrix.mul_smul, Matrix.mul_assoc B cov0 cov0⁻¹, mul_nonsing_inv _ u0, Matrix.mul_one]
    exact hcov.symm
  have e2 : cov1 * (B + sig ^ 2 • cov0⁻¹)⁻¹ = B * cov0 := by
    rw [← e1, Matrix.mul_assoc, mul_nonsing_inv _ uP, Matrix.mul_one]
  have e3 : cov0 = (B + sig ^ 2 • cov0⁻¹)⁻¹ * cov1 * (B + sig ^ 2 • cov0⁻¹)⁻¹ + sig ^ 2 • (B + sig ^ 2 • cov0⁻¹)⁻¹ := by
    have : (B + sig ^ 2 • cov0⁻¹) * cov0 = B * cov0 + sig ^ 2 • 1 := by
      rw [Matrix.add_mul, Matrix.smul_mul, nonsing_inv_mul _ u0]
    rw [Matrix.mul_assoc, e2]
    calc cov0 = (B + sig ^ 2 • cov0⁻¹)⁻¹ * ((B + sig ^ 2 • cov0⁻¹) * cov0) := by
          rw [← Matrix.mul_assoc, nonsing_inv_mul _ uP, Matrix.one_mul]
      _ = _ := by rw [this, Matrix.mul_add, Matrix.mul_smul, Matrix.mul_one]
  have hu := gain_unique he h1 hB'.posSemidef hP.inv.posSemidef hcov' e3
  rw [hC', hC, hu, e2, transpose_mul, hBt, h0t]

theorem sb_swap_mean (t : ℝ) : (makeGaussianBwSb eigh cho' mean1 cov1 mean0 cov0 sig).mean t =
    (makeGaussianBwSb eigh cho mean0 cov0 mean1 cov1 sig).mean (1 - t) := by
  show (1 - t) • mean1 + t • mean0 = (1 - (1 - t)) • mean0 + (1 - t) • mean1
  rw [sub_sub_cancel, add_comm]

theorem sb_swap_cov (he : IsEigh eigh) (h0 : cov0.PosDef) (h1 : cov1.PosDef) (t : ℝ) :
    (makeGaussianBwSb eigh cho' mean1 cov1 mean0 cov0 sig).cov t =
      (makeGaussianBwSb eigh cho mean0 cov0 mean1 cov1 sig).cov (1 - t) := by
  rw [sb_cov_eq, sb_cov_eq, sb_swap (cho := cho) he h0 h1]
  ext i j
  simp only [Matrix.add_apply, Matrix.smul_apply, smul_eq_mul, transpose_apply, transpose_transpose]
  ring

end Algebra

section Reverse
variable {n : Type} [Fintype n] [LinearOrder n] {eigh : Matrix n n ℝ → (n → ℝ) × Matrix n n ℝ}
  {cho : Matrix n n ℝ → Matrix n n ℝ} {mean0 mean1 : n → ℝ} {cov0 cov1 : Matrix n n ℝ}

/-- **C74, time reversal.**  The reverse drift of the experiments, `-drift(x, 1 - t) + score(x, 1 - t)`, is the drift that
`make_gaussian_bw_sb` returns for the bridge in the other direction, from `N(mean1, cov1)` to `N(mean0, cov0)`; the
marginal laws of the two bridges agree at mirrored times. -/
theorem C74_reversal (he : IsEigh eigh) (hc : IsChol cho) (h0 : cov0.PosDef) (h1 : cov1.PosDef) {t : ℝ} (ht0 : 0 ≤ t)
    (ht1 : t ≤ 1) (x : n → ℝ) :
    SbGp.reverseDrift cho (makeGaussianBwSb eigh cho mean0 cov0 mean1 cov1 1) x t =
      (makeGaussianBwSb eigh cho mean1 cov1 mean0 cov0 1).drift x t ∧
    (makeGaussianBwSb eigh cho mean1 cov1 mean0 cov0 1).mean t =
      (makeGaussianBwSb eigh cho mean0 cov0 mean1 cov1 1).mean (1 - t) ∧
    (makeGaussianBwSb eigh cho mean1 cov1 mean0 cov0 1).cov t =
      (makeGaussianBwSb eigh cho mean0 cov0 mean1 cov1 1).cov (1 - t) := by
  refine ⟨?_, sb_swap_mean t, sb_swap_cov he h0 h1 t⟩
  have h0t : cov0ᵀ = cov0 := isSymm_of_posSemidef h0.posSemidef
  have h1t : cov1ᵀ = cov1 := isSymm_of_posSemidef h1.posSemidef
  have hpd := C36_cov_posDef (cho := cho) (mean0 := mean0) (mean1 := mean1) (sig := 1) he h0 h1 (sub_nonneg.2 ht1)
    (by linarith : 1 - t ≤ 1)
  have d1 : (makeGaussianBwSb eigh cho mean1 cov1 mean0 cov0 1).drift x t =
      ((makeGaussianBwSb eigh cho mean1 cov1 mean0 cov0 1).s t)ᵀ *ᵥ
        (((makeGaussianBwSb eigh cho mean0 cov0 mean1 cov1 1).cov (1 - t))⁻¹ *ᵥ
          (x - (makeGaussianBwSb eigh cho mean0 cov0 mean1 cov1 1).mean (1 - t))) - mean1 + mean0 := by
    rw [← choSolveVec_eq hc hpd, ← sb_swap_cov (cho' := cho) he h0 h1, ← sb_swap_mean (cho' := cho)]
    rfl
  have d0 : (makeGaussianBwSb eigh cho mean0 cov0 mean1 cov1 1).drift x (1 - t) =
      ((makeGaussianBwSb eigh cho mean0 cov0 mean1 cov1 1).s (1 - t))ᵀ *ᵥ
        (((makeGaussianBwSb eigh cho mean0 cov0 mean1 cov1 1).cov (1 - t))⁻¹ *ᵥ
          (x - (makeGaussianBwSb eigh cho mean0 cov0 mean1 cov1 1).mean (1 - t))) - mean0 + mean1 := by
    rw [← choSolveVec_eq hc hpd]
    rfl
  have s1 : (makeGaussianBwSb eigh cho mean1 cov1 mean0 cov0 1).s t =
      t • cov0 + (1 - t) • (makeGaussianBwSb eigh cho mean1 cov1 mean0 cov0 1).C
      - ((1 - t) • cov1 + t • (makeGaussianBwSb eigh cho mean1 cov1 mean0 cov0 1).C)ᵀ - ((1 : ℝ) ^ 2 * t) • 1 := rfl
  have s0 : (makeGaussianBwSb eigh cho mean0 cov0 mean1 cov1 1).s (1 - t) =
      (1 - t) • cov1 + (1 - (1 - t)) • (makeGaussianBwSb eigh cho mean0 cov0 mean1 cov1 1).C
      - ((1 - (1 - t)) • cov0 + (1 - t) • (makeGaussianBwSb eigh cho mean0 cov0 mean1 cov1 1).C)ᵀ
      - ((1 : ℝ) ^ 2 * (1 - t)) • 1 := rfl
  rw [sb_swap (cho := cho) he h0 h1] at s1
  have hs : ((makeGaussianBwSb eigh cho mean1 cov1 mean0 cov0 1).s t)ᵀ =
      -((makeGaussianBwSb eigh cho mean0 cov0 mean1 cov1 1).s (1 - t))ᵀ - 1 := by
    rw [s1, s0]
    simp only [transpose_add, transpose_sub, transpose_smul, transpose_transpose, transpose_one, h0t, h1t]
    ext i j
    simp only [Matrix.add_apply, Matrix.sub_apply, Matrix.smul_apply, Matrix.neg_apply, smul_eq_mul, transpose_apply]
    ring
  funext k
  simp only [SbGp.reverseDrift, SbGp.score, SbGp.dispersion]
  rw [d1, hs, d0, choSolveVec_eq hc hpd, sub_mulVec, neg_mulVec, one_mulVec]
  simp only [Pi.add_apply, Pi.sub_apply, Pi.neg_apply]
  ring

/-- **C74, the score.**  `score(x, t)` is the gradient of the logarithm of the density of the marginal law of the bridge at
time `t`. -/
theorem C74_score {q : ℕ} {eigh : Matrix (Fin q) (Fin q) ℝ → (Fin q → ℝ) × Matrix (Fin q) (Fin q) ℝ}
    {cho : Matrix (Fin q) (Fin q) ℝ → Matrix (Fin q) (Fin q) ℝ} {mean0 mean1 : Fin q → ℝ}
    {cov0 cov1 : Matrix (Fin q) (Fin q) ℝ} {sig : ℝ} (he : IsEigh eigh) (hc : IsChol cho) (h0 : cov0.PosDef) (h1 : cov1.PosDef)
    {t : ℝ} (ht0 : 0 ≤ t) (ht1 : t ≤ 1) :
    ∃ l : (Fin q → ℝ) → ℝ,
      (∀ f : (Fin q → ℝ) → ℝ≥0∞, Measurable f →
        ∫⁻ p, ∫⁻ z, f ((1 - t) • p.1 + t • p.2 + (sig * Real.sqrt (t * (1 - t))) • z) ∂(Jax.stdNormal (Fin q))
          ∂(gaussianCoupling mean0 cov0 mean1 cov1 (makeGaussianBwSb eigh cho mean0 cov0 mean1 cov1 sig).C) =
        ∫⁻ x, f x * ENNReal.ofReal (Real.exp (l x))) ∧
      ∀ (x : Fin q → ℝ) (i : Fin q), HasDerivAt (fun y => l (Function.update x i y))
        (SbGp.score cho (makeGaussianBwSb eigh cho mean0 cov0 mean1 cov1 sig) x t i) (x i) := by
  have hpd := C36_cov_posDef (cho := cho) (mean0 := mean0) (mean1 := mean1) (sig := sig) he h0 h1 ht0 ht1
  obtain ⟨V, -, hV⟩ := C73_drift (mean0 := mean0) (mean1 := mean1) (sig := sig) he hc h0 h1 ht0 ht1
  refine ⟨logDens ((makeGaussianBwSb eigh cho mean0 cov0 mean1 cov1 sig).mean t)
    ((makeGaussianBwSb eigh cho mean0 cov0 mean1 cov1 sig).cov t), fun f hf => ?_, fun x i => ?_⟩
  · have h := hV (fun p => f p.1) (hf.comp measurable_fst)
    rw [h]
    simp only [lintegral_const, measure_univ, mul_one]
    exact lintegral_mvn_dens _ hpd hf
  · generalize makeGaussianBwSb eigh cho mean0 cov0 mean1 cov1 sig = sb at *
    have hS : (sb.cov t)ᵀ = sb.cov t := isSymm_of_posSemidef hpd.posSemidef
    have h := ((hasDerivAt_quad hS (sb.mean t) x i).const_add
      (Fintype.card (Fin q) * Real.log (2 * Real.pi) + Real.log (sb.cov t).det)).const_mul (-(1 / 2))
    have e1 : SbGp.score cho sb x t i = -(1 / 2) * (2 * ((sb.cov t)⁻¹ *ᵥ (x - sb.mean t)) i) := by
      simp only [SbGp.score, choSolveVec_eq hc hpd, Pi.neg_apply]
      ring
    rw [e1]
    exact h

theorem gaussianCoupling_swap {C : Matrix n n ℝ} (hJ : (fromBlocks cov0 C Cᵀ cov1).PosSemidef) :
    (gaussianCoupling mean0 cov0 mean1 cov1 C).map Prod.swap = gaussianCoupling mean1 cov1 mean0 cov0 Cᵀ := by
  have h := mvn_affine hJ (Sum.elim mean0 mean1) 0 (fromBlocks 0 1 1 0 : Matrix (n ⊕ n) (n ⊕ n) ℝ)
  have e : (fromBlocks 0 1 1 0 : Matrix (n ⊕ n) (n ⊕ n) ℝ) * fromBlocks cov0 C Cᵀ cov1 *
      (fromBlocks 0 1 1 0 : Matrix (n ⊕ n) (n ⊕ n) ℝ)ᵀ = fromBlocks cov1 Cᵀ C cov0 := by
    rw [fromBlocks_transpose, fromBlocks_multiply, fromBlocks_multiply]
    simp
  rw [e, GaussCond.mulVec_blocks] at h
  have em : (0 + Sum.elim ((0 : Matrix n n ℝ) *ᵥ mean0 + (1 : Matrix n n ℝ) *ᵥ mean1)
      ((1 : Matrix n n ℝ) *ᵥ mean0 + (0 : Matrix n n ℝ) *ᵥ mean1)) = Sum.elim mean1 mean0 := by
    simp
  rw [em] at h
  rw [gaussianCoupling, gaussianCoupling, transpose_transpose, ← h,
    Measure.map_map measurable_swap measurable_splitPair, Measure.map_map measurable_splitPair (measurable_affine _ _)]
  congr 1
  funext z
  obtain ⟨a, b, rfl⟩ : ∃ a b, z = Sum.elim a b := ⟨z ∘ Sum.inl, z ∘ Sum.inr, by simp⟩
  simp [GaussCond.mulVec_blocks]

/-- **C74, the reverse drift points back.**  For the bridge `X` between the two laws, `X_{1 - t} ∼ N(mean(1 - t), cov(1 - t))`,
and given `X_{1 - t} = x` the starting point `X_0` is normal with mean `x + (1 - t) reverse_drift(x, t)`. -/
theorem C74_reverse_velocity (he : IsEigh eigh) (hc : IsChol cho) (h0 : cov0.PosDef) (h1 : cov1.PosDef) {t : ℝ}
    (ht0 : 0 ≤ t) (ht1 : t ≤ 1) :
    ∃ V : Matrix n n ℝ, V.PosSemidef ∧ ∀ F : (n → ℝ) × (n → ℝ) → ℝ≥0∞, Measurable F →
      ∫⁻ p, ∫⁻ z, F (t • p.1 + (1 - t) • p.2 + Real.sqrt (t * (1 - t)) • z, p.1) ∂(Jax.stdNormal n)
        ∂(gaussianCoupling mean0 cov0 mean1 cov1 (makeGaussianBwSb eigh cho mean0 cov0 mean1 cov1 1).C) =
      ∫⁻ x, ∫⁻ y, F (x, y)
        ∂(mvn (x + (1 - t) • SbGp.reverseDrift cho (makeGaussianBwSb eigh cho mean0 cov0 mean1 cov1 1) x t) V)
        ∂(mvn ((makeGaussianBwSb eigh cho mean0 cov0 mean1 cov1 1).mean (1 - t))
          ((makeGaussianBwSb eigh cho mean0 cov0 mean1 cov1 1).cov (1 - t))) := by
  obtain ⟨V, hV, hF⟩ := C73_drift (mean0 := mean1) (mean1 := mean0) (sig := 1) he hc h1 h0 ht0 ht1
  refine ⟨V, hV, fun F hFm => ?_⟩
  have h := hF F hFm
  obtain ⟨B, hB, hC, hcov⟩ := sb_gain (cho := cho) (mean0 := mean0) (mean1 := mean1) (sig := 1) he h0 h1
  have hJ := posSemidef_coupling h0 hB hC hcov
  rw [sb_swap_mean (cho := cho), sb_swap_cov (cho := cho) he h0 h1, sb_swap (cho := cho) he h0 h1,
    ← gaussianCoupling_swap hJ] at h
  have hm : Measurable fun p : (n → ℝ) × (n → ℝ) =>
      ∫⁻ z, F ((1 - t) • p.1 + t • p.2 + (1 * Real.sqrt (t * (1 - t))) • z, p.2) ∂(Jax.stdNormal n) :=
    Measurable.lintegral_prod_right' (f := fun q : ((n → ℝ) × (n → ℝ)) × (n → ℝ) =>
      F ((1 - t) • q.1.1 + t • q.1.2 + (1 * Real.sqrt (t * (1 - t))) • q.2, q.1.2))
      (hFm.comp ((((measurable_fst.fst.const_smul (1 - t)).add (measurable_fst.snd.const_smul t)).add
        (measurable_snd.const_smul (1 * Real.sqrt (t * (1 - t))))).prodMk measurable_fst.snd))
  rw [lintegral_map hm measurable_swap] at h
  simp only [Prod.fst_swap, Prod.snd_swap, one_mul, ← (C74_reversal he hc h0 h1 ht0 ht1 _).1] at h
  rw [← h]
  refine lintegral_congr fun p => lintegral_congr fun z => ?_
  rw [add_comm (t • p.1)]

end Reverse

/-! ### The experiment -/

section Experiment
variable {d N : ℕ} {ζ : Type} [Fintype ζ] [LinearOrder ζ]

/-- **C74, the reference law.**  The random reference covariance `a aᵀ` of the experiments is positive definite with
probability one. -/
theorem C74_reference_posDef (subkey : Key) :
    (SbGp.refCov (ζ := ζ) subkey).E (Set.indicator {R | ¬ R.PosDef} 1) = 0 := by
  rw [SbGp.refCov, Rand.E_bind]
  simp only [normal, Rand.E_sample, Rand.pure_eq, Rand.E_ret]
  rw [← lintegral_zero (μ := Jax.stdNormal (ζ × ζ))]
  refine lintegral_congr_ae ?_
  have : NullSingletonClass (gaussianReal 0 1) := nullSingletonClass_gaussianReal one_ne_zero
  filter_upwards [PolyZero.ae_det_ne_zero (m := ζ) (gaussianReal 0 1)] with z hz
  refine Set.indicator_of_notMem (fun h : ¬ PosDef _ => h ?_) _
  have := PosDef.conjTranspose_mul_self (R := ℝ) ((Matrix.of fun i j => z (i, j)) : Matrix ζ ζ ℝ)ᵀ
    (mulVec_injective_of_isUnit ((Matrix.isUnit_iff_isUnit_det _).2 (by rw [det_transpose]; exact hz.isUnit)))
  simpa using this

theorem measurable_sbDrift (cho : Matrix ζ ζ ℝ → Matrix ζ ζ ℝ)
    (eigh : Matrix ζ ζ ℝ → (ζ → ℝ) × Matrix ζ ζ ℝ) (mean0 mean1 : ζ → ℝ) (cov0 cov1 : Matrix ζ ζ ℝ) (sig t : ℝ) :
    Measurable fun x => (makeGaussianBwSb eigh cho mean0 cov0 mean1 cov1 sig).drift x t := by
  have h : ∀ (M P : Matrix ζ ζ ℝ) (m a b : ζ → ℝ), Measurable fun x : ζ → ℝ => M *ᵥ (P *ᵥ (x - m)) - a + b := by
    intro M P m a b
    unfold mulVec dotProduct
    fun_prop
  exact h _ _ _ _ _

theorem measurable_sbReverseDrift (cho : Matrix ζ ζ ℝ → Matrix ζ ζ ℝ) (eigh : Matrix ζ ζ ℝ → (ζ → ℝ) × Matrix ζ ζ ℝ)
    (mean0 mean1 : ζ → ℝ) (cov0 cov1 : Matrix ζ ζ ℝ) (sig t : ℝ) :
    Measurable fun x => SbGp.reverseDrift cho (makeGaussianBwSb eigh cho mean0 cov0 mean1 cov1 sig) x t := by
  have h := measurable_sbDrift cho eigh mean0 mean1 cov0 cov1 sig (1 - t)
  generalize makeGaussianBwSb eigh cho mean0 cov0 mean1 cov1 sig = sb at *
  refine measurable_pi_iff.2 fun k => ((measurable_pi_apply k).comp h).neg.add (Measurable.const_mul ?_ _)
  simp only [SbGp.score, choSolveVec, mulVec, dotProduct, Pi.neg_apply, Pi.sub_apply]
  fun_prop

omit [Fintype ζ] [LinearOrder ζ] in
theorem emStep_congr {drift drift' : (ζ → ℝ) → ℝ → (ζ → ℝ)} {disp disp' : ℝ → ℝ} {t : ℝ}
    (h : ∀ x, drift x t = drift' x t ∧ disp t = disp' t) (x : ζ → ℝ) (t' : ℝ) (rnds : List (ζ → ℝ)) :
    Simulators.emStep drift disp 1 x t t' rnds = Simulators.emStep drift' disp' 1 x t t' rnds := by
  have hst : Simulators.substepTimes 1 t t' = [t] := by simp [Simulators.substepTimes, Simulators.linspace]
  cases rnds with
  | nil => simp [Simulators.emStep, Jax.scan]
  | cons r rs => simp [Simulators.emStep, hst, Jax.scan, Simulators.emInner, (h x).1, (h x).2]

theorem scan_congr {σ α ο : Type} {f g : σ → α → Rand (σ × ο)} : ∀ {l : List α} (s : σ), (∀ a ∈ l, ∀ s, f s a = g s a) →
    Rand.scan f s l = Rand.scan g s l
  | [], _, _ => rfl
  | a :: l, s, h => by
    simp only [Rand.scan]
    rw [h a List.mem_cons_self s]
    congr 1
    funext r
    rw [scan_congr r.1 fun b hb => h b (List.mem_cons_of_mem _ hb)]

omit [LinearOrder ζ] in
/-- Simulating without sub-steps uses the coefficients at the grid points only. -/
theorem eulerPath_congr {drift drift' : (ζ → ℝ) → ℝ → (ζ → ℝ)} {disp disp' : ℝ → ℝ} (key : Key) (x0 : ζ → ℝ) (ts : Arr1 ℝ)
    (h : ∀ t ∈ ts.init, ∀ x, drift x t = drift' x t ∧ disp t = disp' t) :
    Simulators.eulerPath key x0 ts drift disp 1 = Simulators.eulerPath key x0 ts drift' disp' 1 := by
  unfold Simulators.eulerPath
  rw [scan_congr x0]
  rintro ⟨k, t, t'⟩ ha x
  have ht : t ∈ ts.init := (List.of_mem_zip (List.of_mem_zip ha).2).1
  simp only [Simulators.emBody, emStep_congr (h t ht)]

/-- **C74, the filter.**  On the uniform grid of the experiments, the weighted particles of `bootstrap_filter` are exact for
the Euler–Maruyama chain of the bridge from the reference law back to the joint law of latent function and data — that
is, of the drift `make_gaussian_bw_sb` returns with the two laws exchanged — except that the first `u` has covariance
`Lᵀ L` (C62). -/
theorem C74_filter [NeZero N] (e : Fin d ⊕ Fin d ≃ ζ) {eigh : Matrix ζ ζ ℝ → (ζ → ℝ) × Matrix ζ ζ ℝ} (he : IsEigh eigh)
    {choJ : Matrix ζ ζ ℝ → Matrix ζ ζ ℝ} (hc : IsChol choJ) (cho cholesky : Matrix (Fin d) (Fin d) ℝ → Matrix (Fin d) (Fin d) ℝ)
    {K : Matrix (Fin d) (Fin d) ℝ} (hK : K.PosDef) {s : ℝ} (hs : 0 < s) {covRef : Matrix ζ ζ ℝ} (hR : covRef.PosDef)
    {nsteps : ℕ} (hn : 0 < nsteps) (v0 : Fin d → ℝ)
    {res : Smc.Resampling N} (hres : UnbiasedSums res) (key key' : Key) (log rl : Bool)
    {φ : (Fin d → ℝ) → List (Fin d → ℝ) → ℝ≥0∞} :
    ∃ ts : Arr1 ℝ, ts.toList = Simulators.linspace 0 1 (nsteps + 1) ∧
      ((Measurable fun q : (Fin d → ℝ) × (Fin ts.2.length → Fin d → ℝ) => φ q.1 (List.ofFn q.2)) →
      ∫⁻ w, (Smc.bootstrapFilter (Toy.filterFuns e (SbGp.reverseDrift choJ (SbGp.bridge eigh choJ e K s covRef))
          SbGp.reverseDispersion (1 / nsteps) (Gp.refSampler cho cholesky e (fun _ => 1) covRef)) res (v0, List.ofFn w) ts
          key log rl).E
          (fun out => ENNReal.ofReal (Real.exp (-out.nell)) * ((N : ℝ≥0∞)⁻¹ * ∑ i, φ (out.final i) (List.ofFn w)))
          ∂(Measure.pi fun _ : Fin ts.2.length => (volume : Measure (Fin d → ℝ))) =
        ∫⁻ u0, (Simulators.eulerPath key' (Toy.concat e u0 v0) ts
          (makeGaussianBwSb eigh choJ (fun _ => 1) covRef 0 (Gp.jointCov e K s) 1).drift (fun _ => 1) 1).E
          (fun p => φ (Toy.unpackU e p.last) (p.2.map (Toy.unpackV e)))
          ∂(mvn (Gp.refMean cho e (fun _ => 1) covRef v0)
            ((cholesky (Gp.refCov cho e covRef))ᵀ * cholesky (Gp.refCov cho e covRef)))) := by
  obtain ⟨ts, h1, h2⟩ := C59_grid (T := 1) (nsteps := nsteps) (disp := SbGp.reverseDispersion) fun _ _ => one_ne_zero
  refine ⟨ts, h1, fun hφ => ?_⟩
  have h := C59_filter e (drift := SbGp.reverseDrift choJ (SbGp.bridge eigh choJ e K s covRef)) (disp := SbGp.reverseDispersion)
    (fun t => measurable_sbReverseDrift choJ eigh _ _ _ _ _ t) _ (dt := 1 / nsteps)
    (by positivity) ts h2 v0 (Gp.refSampler cho cholesky e (fun _ => 1) covRef)
    (fun k n _ hF => C62_ref_law e cho cholesky (fun _ => 1) covRef k v0 n hF) hres key key' log rl hφ
  rw [h]
  refine lintegral_congr fun u0 => ?_
  rw [eulerPath_congr (drift' := (makeGaussianBwSb eigh choJ (fun _ => 1) covRef 0 (Gp.jointCov e K s) 1).drift)
    (disp' := fun _ => 1) key' _ ts fun t ht x => ?_]
  refine ⟨(C74_reversal he hc (jointCov_posDef e hK hs) hR ?_ ?_ x).1, rfl⟩
  all_goals
    have hm : t ∈ ts.toList := List.dropLast_subset _ ht
    rw [h1] at hm
    obtain ⟨i, hi, rfl⟩ := List.mem_map.1 hm
    have hn' : (0 : ℝ) < nsteps := by exact_mod_cast hn
    have hi' : (i : ℝ) ≤ nsteps := by exact_mod_cast Nat.lt_succ_iff.1 (List.mem_range.1 hi)
    simp only [Nat.add_sub_cancel, sub_zero, zero_add]
  · positivity
  · rw [mul_one_div, div_le_one hn']
    exact hi'

omit [LinearOrder ζ] in
/-- **C74, the observations.**  The forward samplers return one row per time, and the first row of observations is the
given `y0`, whatever the starting value of the latent function. -/
theorem C74_observations (cholesky : Matrix (Fin d) (Fin d) ℝ → Matrix (Fin d) (Fin d) ℝ) (m : Fin d → ℝ)
    (cov : Matrix (Fin d) (Fin d) ℝ) (e : Fin d ⊕ Fin d ≃ ζ) (sb : GaussSB ζ) (ts : Arr1 ℝ) (x0 y0 : Fin d → ℝ) (key : Key) :
    (∀ p, (SbGp.fwdSampler e sb ts key x0 y0).Returns p →
      Toy.unpackU e p.1 = x0 ∧ Toy.unpackV e p.1 = y0 ∧ p.toList.length = ts.toList.length) ∧
    (∀ p, (SbGp.fwdYsProper cholesky m cov e sb ts y0 key).Returns p → p.1 = y0 ∧ p.toList.length = ts.toList.length) ∧
    ∀ p, (SbGp.fwdYsHeuristic e sb ts y0 key).Returns p → p.1 = y0 ∧ p.toList.length = ts.toList.length := by
  have hf : ∀ k x0 p, (SbGp.fwdSampler e sb ts k x0 y0).Returns p →
      Toy.unpackU e p.1 = x0 ∧ Toy.unpackV e p.1 = y0 ∧ p.toList.length = ts.toList.length := fun k x0 p hp => by
    obtain ⟨h1, h2⟩ := C33_shape _ _ _ _ _ _ hp
    rw [h1]
    exact ⟨by funext i; simp [Toy.unpackU, Toy.concat], by funext i; simp [Toy.unpackV, Toy.concat], h2⟩
  have hm : ∀ p : Arr1 (ζ → ℝ), (p.map (Toy.unpackV e)).toList.length = p.toList.length := fun p => by
    simp [Arr1.map, Arr1.toList]
  refine ⟨hf key x0, fun p hp => ?_, fun p hp => ?_⟩
  · simp only [SbGp.fwdYsProper, Rand.returns_bind, Rand.pure_eq, Rand.returns_ret] at hp
    obtain ⟨x, -, q, hq, rfl⟩ := hp
    exact ⟨(hf _ _ _ hq).2.1, (hm q).trans (hf _ _ _ hq).2.2⟩
  · simp only [SbGp.fwdYsHeuristic, Rand.returns_bind, Rand.pure_eq, Rand.returns_ret] at hp
    obtain ⟨x, -, q, hq, rfl⟩ := hp
    exact ⟨(hf _ _ _ hq).2.1, (hm q).trans (hf _ _ _ hq).2.2⟩

omit [Fintype ζ] [LinearOrder ζ] in
theorem measurable_emScan {drift : (ζ → ℝ) → ℝ → (ζ → ℝ)} (hd : ∀ t, Measurable fun z => drift z t) (disp : ℝ → ℝ) (ddt : ℝ)
    {Z : Type} [MeasurableSpace Z] : ∀ (l : List ℝ) (n : ℕ) (a : Z → ζ → ℝ) (w : Z → Fin n → ζ → ℝ), Measurable a →
    Measurable w → Measurable fun z => (Jax.scan (Simulators.emInner drift disp ddt) (a z) ((List.ofFn (w z)).zip l)).1
  | _, 0, a, w, ha, _ => by simpa [Jax.scan] using ha
  | [], n + 1, a, w, ha, _ => by simpa [Jax.scan] using ha
  | t :: l, n + 1, a, w, ha, hw => by
    simp only [List.ofFn_succ, List.zip_cons_cons, Jax.scan]
    refine measurable_emScan hd disp ddt l n _ _ ?_ ?_
    · have h1 : Measurable fun z => drift (a z) t := (hd t).comp ha
      refine measurable_pi_iff.2 fun i => ?_
      exact (((measurable_pi_apply i).comp ha).add (((measurable_pi_apply i).comp h1).mul_const _)).add
        (((measurable_pi_apply i).comp ((measurable_pi_apply 0).comp hw)).const_mul _)
    · exact measurable_pi_iff.2 fun j => (measurable_pi_apply j.succ).comp hw

omit [LinearOrder ζ] in
theorem measurable_E_em {drift : (ζ → ℝ) → ℝ → (ζ → ℝ)} (hd : ∀ t, Measurable fun z => drift z t) (disp : ℝ → ℝ) (n : ℕ) :
    ∀ (is : List (Key × ℝ × ℝ)) {Z : Type} [MeasurableSpace Z] (a : Z → ζ → ℝ) (f : Z → List (ζ → ℝ) → ℝ≥0∞),
    Measurable a → (Measurable fun q : Z × (ℕ → ζ → ℝ) => f q.1 ((List.range is.length).map q.2)) →
    Measurable fun z => (Rand.scan (Simulators.emBody drift disp n id) (a z) is).E fun r => f z r.2
  | [], Z, _, a, f, ha, hf => by
    have : Measurable fun z => f z ((List.range 0).map (fun _ => (0 : ζ → ℝ))) :=
      hf.comp (measurable_id.prodMk measurable_const)
    simpa [Rand.scan] using this
  | i :: is, Z, _, a, f, ha, hf => by
    simp only [Csmc.E_scan_cons, Simulators.emBody, Jax.normalRows, Rand.E_bind, Rand.E_map, Rand.E_sample, Rand.pure_eq,
      Rand.E_ret, id]
    refine Measurable.lintegral_prod_right' (f := fun q : Z × (Fin n → ζ → ℝ) =>
      (Rand.scan (Simulators.emBody drift disp n id) (Simulators.emStep drift disp n (a q.1) i.2.1 i.2.2 (List.ofFn q.2)) is).E
        fun rs => f q.1 (Simulators.emStep drift disp n (a q.1) i.2.1 i.2.2 (List.ofFn q.2) :: rs.2)) ?_
    have hs : Measurable fun q : Z × (Fin n → ζ → ℝ) =>
        Simulators.emStep drift disp n (a q.1) i.2.1 i.2.2 (List.ofFn q.2) :=
      measurable_emScan hd disp _ _ n _ _ (ha.comp measurable_fst) measurable_snd
    refine measurable_E_em hd disp n is (Z := Z × (Fin n → ζ → ℝ)) _ (fun q l =>
      f q.1 (Simulators.emStep drift disp n (a q.1) i.2.1 i.2.2 (List.ofFn q.2) :: l)) hs ?_
    have h1 : Measurable fun q : (Z × (Fin n → ζ → ℝ)) × (ℕ → ζ → ℝ) => (fun j => Nat.casesOn j
        (Simulators.emStep drift disp n (a q.1.1) i.2.1 i.2.2 (List.ofFn q.1.2)) q.2 : ℕ → ζ → ℝ) :=
      Csmc.measurable_seqCons (hs.comp measurable_fst) measurable_snd
    have h2 := hf.comp ((measurable_fst.comp measurable_fst).prodMk h1)
    convert h2 using 2 with q
    simp [List.range_succ_eq_map, Function.comp_def]

omit [LinearOrder ζ] in
/-- **C74, the start of the observation paths.**  The latent function from which `fwd_ys_sampler_proper` starts the forward
process is Gaussian with the mean of the posterior; its covariance is the one with the Cholesky factor transposed, like that
of the reference sampler (C62). -/
theorem C74_start_law (cholesky : Matrix (Fin d) (Fin d) ℝ → Matrix (Fin d) (Fin d) ℝ) (m : Fin d → ℝ)
    (cov : Matrix (Fin d) (Fin d) ℝ) (e : Fin d ⊕ Fin d ≃ ζ) {sb : GaussSB ζ} (hsb : ∀ t, Measurable fun z => sb.drift z t)
    (ts : Arr1 ℝ) (y0 : Fin d → ℝ) (key : Key) {f : List (Fin d → ℝ) → ℝ≥0∞}
    (hf : Measurable fun q : Fin (ts.2.length + 1) → Fin d → ℝ => f (List.ofFn q)) :
    (SbGp.fwdYsProper cholesky m cov e sb ts y0 key).E (fun p => f p.toList) =
      ∫⁻ x0, (SbGp.fwdSampler e sb ts (split key 2 1) x0 y0).E (fun p => f (p.toList.map (Toy.unpackV e)))
        ∂(mvn m ((cholesky cov)ᵀ * cholesky cov)) := by
  have hm : Measurable fun x0 : Fin d → ℝ =>
      (SbGp.fwdSampler e sb ts (split key 2 1) x0 y0).E (fun p => f (p.toList.map (Toy.unpackV e))) := by
    have hc : Measurable fun x0 : Fin d → ℝ => Toy.concat e x0 y0 :=
      (Toy.measurable_concat e).comp (measurable_id.prodMk measurable_const)
    simp only [SbGp.fwdSampler, Simulators.eulerPath, Rand.E_bind, Rand.pure_eq, Rand.E_ret]
    refine measurable_E_em hsb _ 10 _ (fun x0 => Toy.concat e x0 y0)
      (fun x0 l => f ((Toy.concat e x0 y0 :: l).map (Toy.unpackV e))) hc ?_
    have hl : (Simulators.emInputs (split key 2 1) ts).length = ts.2.length := by
      simp [Simulators.emInputs, splitAll, Arr1.init]
    rw [hl]
    have h1 : Measurable fun q : (Fin d → ℝ) × (ℕ → ζ → ℝ) => (fun j : Fin (ts.2.length + 1) =>
        Fin.cases y0 (fun j : Fin ts.2.length => Toy.unpackV e (q.2 j)) j : Fin (ts.2.length + 1) → Fin d → ℝ) := by
      refine measurable_pi_iff.2 fun j => ?_
      refine Fin.cases ?_ (fun j => ?_) j
      · exact measurable_const
      · exact (Toy.measurable_unpackV e).comp ((measurable_pi_apply _).comp measurable_snd)
    convert hf.comp h1 using 2 with q
    simp only [List.map_cons, Toy.unpackV_concat, Function.comp_def, List.ofFn_succ, Fin.cases_zero, Fin.cases_succ,
      List.map_map]
    refine congrArg (fun l => f (y0 :: l)) (List.ext_getElem (by simp) fun i h1 h2 => by simp)
  have h := stdNormal_affine m (cholesky cov)ᵀ
  rw [transpose_transpose] at h
  rw [← h, lintegral_map hm (measurable_affine _ _)]
  simp only [SbGp.fwdYsProper, Gp.rowSampler, normal, Rand.E_bind, Rand.E_sample, Rand.pure_eq, Rand.E_ret, mulVec_transpose]
  rfl

omit [LinearOrder ζ] in
theorem consumes_fwdYsProper (cholesky : Matrix (Fin d) (Fin d) ℝ → Matrix (Fin d) (Fin d) ℝ) (m : Fin d → ℝ)
    (cov : Matrix (Fin d) (Fin d) ℝ) (e : Fin d ⊕ Fin d ≃ ζ) (sb : GaussSB ζ) (ts : Arr1 ℝ) (y0 : Fin d → ℝ) (key : Key) :
    Rand.Consumes {key} (SbGp.fwdYsProper cholesky m cov e sb ts y0 key) :=
  Rand.Consumes.bind_split (n := 2) (i := 0) (j := 1) (by omega) ((consumes_normal _).bind_pure _) fun _ =>
    (consumes_eulerPath _ _ _ _ _ _).bind_pure _

omit [LinearOrder ζ] in
theorem consumes_fwdYsHeuristic (e : Fin d ⊕ Fin d ≃ ζ) (sb : GaussSB ζ) (ts : Arr1 ℝ) (y0 : Fin d → ℝ) (key : Key) :
    Rand.Consumes {key} (SbGp.fwdYsHeuristic e sb ts y0 key) :=
  Rand.Consumes.bind_split (n := 2) (i := 0) (j := 1) (by omega) (consumes_normal _) fun _ =>
    (consumes_eulerPath _ _ _ _ _ _).bind_pure _

omit [LinearOrder ζ] in
/-- **C74, keys and options.**  Every program of the experiments draws from fresh keys derived from its own;
`conditional_sampler` fails exactly for an unknown option `x0`. -/
theorem C74_keys [NeZero N] (cf cholesky : Matrix (Fin d) (Fin d) ℝ → Matrix (Fin d) (Fin d) ℝ) (m : Fin d → ℝ)
    (cov : Matrix (Fin d) (Fin d) ℝ) (e : Fin d ⊕ Fin d ≃ ζ) (sb : GaussSB ζ) (ts : Arr1 ℝ) (x0 y0 : Fin d → ℝ) (key : Key)
    (drift : (ζ → ℝ) → ℝ → (ζ → ℝ)) (disp : ℝ → ℝ) (dt : ℝ) (mRef : ζ → ℝ) (covRef : Matrix ζ ζ ℝ) (opt : String) :
    Spec.FreshFrom key (SbGp.refCov (ζ := ζ) key) ∧
    Spec.FreshFrom key (SbGp.fwdSampler e sb ts key x0 y0) ∧
    Spec.FreshFrom key (SbGp.fwdYsProper cholesky m cov e sb ts y0 key) ∧
    Spec.FreshFrom key (SbGp.fwdYsHeuristic e sb ts y0 key) ∧
    Spec.FreshFrom key (SbGp.conditionalSampler (N := N)
      (Toy.filterFuns e drift disp dt (Gp.refSampler cf cholesky e mRef covRef)) cholesky m cov e sb ts y0 opt key) ∧
    ∀ r, (SbGp.conditionalSampler (N := N)
      (Toy.filterFuns e drift disp dt (Gp.refSampler cf cholesky e mRef covRef)) cholesky m cov e sb ts y0 opt key).Returns r →
      (r = .error "ValueError" ↔ opt ≠ "proper" ∧ opt ≠ "heuristic") := by
  have hc : ∀ fwd : Key → Rand (Arr1 (Fin d → ℝ)), (∀ k, Rand.Consumes {k} (fwd k)) →
      Rand.Consumes {key} (Chains.filterSampler (N := N)
        (Toy.filterFuns e drift disp dt (Gp.refSampler cf cholesky e mRef covRef)) fwd ts key) := fun fwd hf =>
    Rand.Consumes.bind_split (n := 3) (i := 0) (j := 2) (by omega) (hf _) fun p =>
      (consumes_bootstrapFilter (smcKeyed_filterFuns cf cholesky e drift disp dt mRef covRef) consumes_stratified _ _ _ _
        _).bind_pure _
  refine ⟨((consumes_normal _).bind_pure _).freshFrom, (consumes_eulerPath _ _ _ _ _ _).freshFrom,
    (consumes_fwdYsProper cholesky m cov e sb ts y0 key).freshFrom, (consumes_fwdYsHeuristic e sb ts y0 key).freshFrom, ?_,
    fun r hr => ?_⟩
  · unfold SbGp.conditionalSampler
    split_ifs
    · exact ((hc _ (consumes_fwdYsProper cholesky m cov e sb ts y0)).map _).freshFrom
    · exact ((hc _ (consumes_fwdYsHeuristic e sb ts y0)).map _).freshFrom
    · exact (Rand.consumes_pure _ _).freshFrom
  · unfold SbGp.conditionalSampler at hr
    split_ifs at hr with h1 h2
    · obtain ⟨u, -, rfl⟩ := Rand.returns_map.1 hr
      simp [h1]
    · obtain ⟨u, -, rfl⟩ := Rand.returns_map.1 hr
      simp [h2]
    · simp only [Rand.pure_eq, Rand.returns_ret] at hr
      simp [hr, h1, h2]

/-- The filter of the experiment for four correlated values on a grid, and the reversed bridge. -/
example : ∃ (eigh : Matrix (Fin 8) (Fin 8) ℝ → (Fin 8 → ℝ) × Matrix (Fin 8) (Fin 8) ℝ)
    (choJ : Matrix (Fin 8) (Fin 8) ℝ → Matrix (Fin 8) (Fin 8) ℝ) (K : Matrix (Fin 4) (Fin 4) ℝ)
    (covRef : Matrix (Fin 8) (Fin 8) ℝ), K 0 1 ≠ 0 ∧
    ∀ x t, 0 ≤ t → t ≤ 1 →
      SbGp.reverseDrift choJ (SbGp.bridge eigh choJ (finSumFinEquiv : Fin 4 ⊕ Fin 4 ≃ Fin 8) K 1 covRef) x t =
        (makeGaussianBwSb eigh choJ (fun _ => 1) covRef 0 (Gp.jointCov (finSumFinEquiv : Fin 4 ⊕ Fin 4 ≃ Fin 8) K 1) 1).drift
          x t := by
  obtain ⟨eigh, he⟩ := exists_isEigh (n := Fin 8)
  obtain ⟨cho, hc⟩ := exists_isChol 8
  have hK := C60_kernel_posDef one_ne_zero one_pos (strictMono_grid 4) (sigma := 1) (ell := 1)
  refine ⟨eigh, cho, _, (2 : ℝ) • 1, ?_, fun x t h0 h1 =>
    (C74_reversal he hc (jointCov_posDef _ hK one_pos) (PosDef.one.smul two_pos) h0 h1 x).1⟩
  simp [Gp.covFn, Real.exp_ne_zero]

end Experiment

/-- The observation path of a bridge between two data sets of one function, on a grid with two steps: the probability that
the observation at the end is positive. -/
example (cho : Matrix (Fin 2) (Fin 2) ℝ → Matrix (Fin 2) (Fin 2) ℝ) (cholesky : Matrix (Fin 1) (Fin 1) ℝ → Matrix (Fin 1) (Fin 1) ℝ)
    (eigh : Matrix (Fin 2) (Fin 2) ℝ → (Fin 2 → ℝ) × Matrix (Fin 2) (Fin 2) ℝ) (m y0 : Fin 1 → ℝ)
    (K : Matrix (Fin 1) (Fin 1) ℝ) (covRef : Matrix (Fin 2) (Fin 2) ℝ) (key : Key) :
    let sb := SbGp.bridge eigh cho (finSumFinEquiv : Fin 1 ⊕ Fin 1 ≃ Fin 2) K 1 covRef
    let f : List (Fin 1 → ℝ) → ℝ≥0∞ := fun l => Set.indicator {y : Fin 1 → ℝ | 0 < y 0} 1 (l.getD 2 0)
    (SbGp.fwdYsProper cholesky m K finSumFinEquiv sb (0, [1 / 2, 1]) y0 key).E (fun p => f p.toList) =
      ∫⁻ x0, (SbGp.fwdSampler finSumFinEquiv sb (0, [1 / 2, 1]) (split key 2 1) x0 y0).E
        (fun p => f (p.toList.map (Toy.unpackV finSumFinEquiv))) ∂(mvn m ((cholesky K)ᵀ * cholesky K)) := by
  intro sb f
  refine C74_start_law cholesky m K finSumFinEquiv (fun t => measurable_sbDrift _ _ _ _ _ _ _ t) (0, [1 / 2, 1]) y0 key ?_
  have h1 : MeasurableSet {y : Fin 1 → ℝ | 0 < y 0} := measurableSet_lt measurable_const (measurable_pi_apply 0)
  have h2 : Measurable (Set.indicator {y : Fin 1 → ℝ | 0 < y 0} (1 : (Fin 1 → ℝ) → ℝ≥0∞)) := measurable_one.indicator h1
  exact h2.comp (measurable_pi_apply (2 : Fin 3))

end Props
end Fbs
