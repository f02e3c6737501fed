import Verif.Lemmas.GaussCond
import Verif.Props.Toy
import Verif.Props.GaussSB
import Verif.Props.Kl
import Verif.Props.Crescent
import Verif.Props.LinearSim

/-!
# C60, C61, C62: the Gaussian process experiments

`Mvn.mvn m S` is Mathlib's Gaussian measure with mean `m` and covariance `S`.
-/

open MeasureTheory ProbabilityTheory Matrix
open scoped ENNReal NNReal MatrixOrder

namespace Fbs

namespace Spec

/-- The documented contract of `jnp.linalg.cholesky` on positive definite matrices. -/
def IsCholesky {d : ℕ} (cholesky : Matrix (Fin d) (Fin d) ℝ → Matrix (Fin d) (Fin d) ℝ) : Prop :=
  ∀ M, M.PosDef → IsCholFactor (cholesky M) M

end Spec

namespace Props

open Spec Jax Toy Gp Mvn GaussKl GaussCond

/-! ### The kernel -/

section Kernel

variable {d : ℕ}

/-- The factor of the exponential kernel. -/
noncomputable def kernFactor (sigma ell : ℝ) (zs : Fin d → ℝ) : Matrix (Fin d) (Fin d) ℝ := Matrix.of fun i k =>
  if k ≤ i then sigma * Real.exp (-(zs i) / ell) * Real.sqrt (Real.exp (2 * zs k / ell) -
    if h : 0 < (k : ℕ) then Real.exp (2 * zs ⟨k - 1, by omega⟩ / ell) else 0) else 0

theorem kernFactor_arg_pos {ell : ℝ} (hell : 0 < ell) {zs : Fin d → ℝ} (hz : StrictMono zs) (k : Fin d) :
    0 < Real.exp (2 * zs k / ell) - if h : 0 < (k : ℕ) then Real.exp (2 * zs ⟨k - 1, by omega⟩ / ell) else 0 := by
  by_cases h : 0 < (k : ℕ)
  · rw [dif_pos h, sub_pos, Real.exp_lt_exp]
    have : zs ⟨k - 1, by omega⟩ < zs k := hz (by rw [Fin.lt_def]; show (k : ℕ) - 1 < k; omega)
    gcongr
  · rw [dif_neg h, sub_zero]; exact Real.exp_pos _

theorem sum_kern {ell : ℝ} (zs : Fin d → ℝ) : ∀ i : Fin d, ∑ k : Fin d, (if k ≤ i then Real.exp (2 * zs k / ell) -
    (if h : 0 < (k : ℕ) then Real.exp (2 * zs ⟨k - 1, by omega⟩ / ell) else 0) else 0) = Real.exp (2 * zs i / ell) := by
  intro i
  have h1 : ∀ g : ℕ → ℝ, g 0 = 0 → ∀ m : ℕ, m < d → ∑ k : Fin d, (if (k : ℕ) ≤ m then g (k + 1) - g k else 0) = g (m + 1) := by
    intro g hg m hm
    rw [Fin.sum_univ_eq_sum_range (fun k => if k ≤ m then g (k + 1) - g k else 0) d, ← Finset.sum_filter]
    have : (Finset.range d).filter (fun k => k ≤ m) = Finset.range (m + 1) := by ext k; simp; omega
    rw [this, Finset.sum_range_sub, hg, sub_zero]
  have h2 := h1 (fun j => if h : 0 < j ∧ j - 1 < d then Real.exp (2 * zs ⟨j - 1, h.2⟩ / ell) else 0) (by simp) i i.2
  simp only [Nat.succ_pos, Nat.add_sub_cancel, i.2, and_self, dif_pos] at h2
  rw [← h2]
  refine Finset.sum_congr rfl fun k _ => ?_
  have hk : 0 < (k : ℕ) + 1 ∧ (k : ℕ) < d := ⟨Nat.succ_pos _, k.2⟩
  simp only [Fin.le_def, hk, and_self, dif_pos]
  by_cases h : 0 < (k : ℕ)
  · have h3 : 0 < (k : ℕ) ∧ (k : ℕ) - 1 < d := ⟨h, by omega⟩
    simp only [h, h3, and_self, dif_pos]
  · simp only [h, false_and, dif_neg, not_false_iff]

theorem kernFactor_mul {sigma ell : ℝ} (hell : 0 < ell) {zs : Fin d → ℝ} (hz : StrictMono zs) :
    kernFactor sigma ell zs * (kernFactor sigma ell zs)ᵀ = covFn sigma ell zs zs := by
  have hsymm : ∀ i j : Fin d, i ≤ j → (kernFactor sigma ell zs * (kernFactor sigma ell zs)ᵀ) i j =
      sigma ^ 2 * Real.exp (-(zs j - zs i) / ell) := by
    intro i j hij
    rw [mul_apply]
    have : ∀ k : Fin d, kernFactor sigma ell zs i k * (kernFactor sigma ell zs)ᵀ k j =
        sigma ^ 2 * (Real.exp (-(zs i) / ell) * Real.exp (-(zs j) / ell)) * (if k ≤ i then Real.exp (2 * zs k / ell) -
          (if h : 0 < (k : ℕ) then Real.exp (2 * zs ⟨k - 1, by omega⟩ / ell) else 0) else 0) := by
      intro k
      simp only [kernFactor, transpose_apply, of_apply]
      by_cases hk : k ≤ i
      · rw [if_pos hk, if_pos hk, if_pos (hk.trans hij)]
        have := Real.mul_self_sqrt (kernFactor_arg_pos hell hz k).le
        linear_combination sigma ^ 2 * (Real.exp (-(zs i) / ell) * Real.exp (-(zs j) / ell)) * this
      · rw [if_neg hk, if_neg hk]; ring
    rw [Finset.sum_congr rfl fun k _ => this k, ← Finset.mul_sum, sum_kern, mul_assoc, ← Real.exp_add, ← Real.exp_add]
    congr 2
    ring
  ext i j
  rcases le_total i j with h | h
  · rw [hsymm i j h, covFn, of_apply, abs_of_nonneg (sub_nonneg.2 (hz.monotone h))]
  · have ht : (kernFactor sigma ell zs * (kernFactor sigma ell zs)ᵀ) i j =
        (kernFactor sigma ell zs * (kernFactor sigma ell zs)ᵀ) j i := by
      simp only [mul_apply, transpose_apply]
      exact Finset.sum_congr rfl fun k _ => mul_comm _ _
    rw [ht, hsymm j i h, covFn, of_apply, abs_of_nonpos (sub_nonpos.2 (hz.monotone h))]
    congr 3
    ring

/-- **C60, the kernel matrix.**  On an increasing grid the matrix `cov_fn(zs, zs)` is positive definite, so that all
factorisations of the scripts exist. -/
theorem C60_kernel_posDef {sigma ell : ℝ} (hs : sigma ≠ 0) (hell : 0 < ell) {zs : Fin d → ℝ} (hz : StrictMono zs) :
    (covFn sigma ell zs zs).PosDef := by
  rw [← kernFactor_mul hell hz]
  have hdet : (kernFactor sigma ell zs).det ≠ 0 := by
    rw [det_of_isLowerTriangular]
    · refine Finset.prod_ne_zero_iff.2 fun i _ => ?_
      simp only [kernFactor, of_apply, le_refl, if_true]
      exact mul_ne_zero (mul_ne_zero hs (Real.exp_ne_zero _)) (Real.sqrt_ne_zero'.2 (kernFactor_arg_pos hell hz i))
    · intro i j hij
      have : i < j := by simpa using hij
      simp [kernFactor, not_le.2 this]
  have hu : IsUnit (kernFactor sigma ell zs) := (isUnit_iff_isUnit_det _).2 (isUnit_iff_ne_zero.2 hdet)
  have := (PosDef.one (n := Fin d) (R := ℝ)).mul_mul_conjTranspose_same (B := kernFactor sigma ell zs)
    (vecMul_injective_of_isUnit hu)
  simpa using this

end Kernel

/-! ### Data and posterior -/

section Posterior

variable {d : ℕ} {ζ : Type} [Fintype ζ] [DecidableEq ζ]

theorem choSolveVec_eq {n : Type} [Fintype n] [LinearOrder n] {cho : Matrix n n ℝ → Matrix n n ℝ} (hc : IsChol cho)
    {M : Matrix n n ℝ} (hM : M.PosDef) (b : n → ℝ) : Utils.choSolveVec (cho M) b = M⁻¹ *ᵥ b := by
  rw [Utils.choSolveVec, (hc M hM).2]

theorem choSolve_eq {n k : Type} [Fintype n] [LinearOrder n] {cho : Matrix n n ℝ → Matrix n n ℝ} (hc : IsChol cho)
    {M : Matrix n n ℝ} (hM : M.PosDef) (b : Matrix n k ℝ) : Utils.choSolve (cho M) b = M⁻¹ * b := by
  rw [Utils.choSolve, (hc M hM).2]

omit [Fintype ζ] [DecidableEq ζ] in
theorem jointCov_posDef (e : Fin d ⊕ Fin d ≃ ζ) {K : Matrix (Fin d) (Fin d) ℝ} (hK : K.PosDef) {s : ℝ} (hs : 0 < s) :
    (jointCov e K s).PosDef := by
  refine PosDef.submatrix ?_ e.symm.injective
  have hKt : Kᵀ = K := by simpa using hK.1.eq
  refine PosDef.of_dotProduct_mulVec_pos ?_ fun x hx => ?_
  · rw [IsHermitian, conjTranspose_eq_transpose_of_trivial, fromBlocks_transpose]
    simp [hKt]
  · obtain ⟨a, b, rfl⟩ : ∃ a b, x = Sum.elim a b := ⟨x ∘ Sum.inl, x ∘ Sum.inr, by simp⟩
    rw [mulVec_blocks, star_trivial]
    have h1 : Sum.elim a b ⬝ᵥ Sum.elim (K *ᵥ a + K *ᵥ b) (K *ᵥ a + (K + s • 1) *ᵥ b) =
        (a + b) ⬝ᵥ K *ᵥ (a + b) + s * (b ⬝ᵥ b) := by
      have : Sum.elim a b ⬝ᵥ Sum.elim (K *ᵥ a + K *ᵥ b) (K *ᵥ a + (K + s • 1) *ᵥ b) =
          a ⬝ᵥ (K *ᵥ a + K *ᵥ b) + b ⬝ᵥ (K *ᵥ a + (K + s • 1) *ᵥ b) := by
        simp [dotProduct, Fintype.sum_sum_type]
      rw [this, add_mulVec, smul_mulVec, one_mulVec, mulVec_add]
      simp only [dotProduct_add, add_dotProduct, dotProduct_smul, smul_eq_mul]
      ring
    rw [h1]
    by_cases hb : b = 0
    · have ha : a ≠ 0 := by
        rintro rfl
        exact hx (by rw [hb]; funext k; rcases k with k | k <;> rfl)
      have := hK.dotProduct_mulVec_pos ha
      simpa [hb] using this
    · have h2 : 0 < b ⬝ᵥ b := by
        have := (PosDef.one (n := Fin d) (R := ℝ)).dotProduct_mulVec_pos hb
        simpa using this
      have h3 := hK.posSemidef.dotProduct_mulVec_nonneg (a + b)
      rw [star_trivial] at h3
      have := mul_pos hs h2
      linarith

/-- **C60, the simulated data.**  The pair drawn by the scripts has the law `N(0, joint_cov)`. -/
theorem C60_data (e : Fin d ⊕ Fin d ≃ ζ) {cholesky : Matrix (Fin d) (Fin d) ℝ → Matrix (Fin d) (Fin d) ℝ}
    {K : Matrix (Fin d) (Fin d) ℝ} (hL : IsCholFactor (cholesky K) K) {s : ℝ} (hs : 0 ≤ s) (key : Key)
    {f : (ζ → ℝ) → ℝ≥0∞} (hf : Measurable f) :
    (genData cholesky K s key).E (fun p => f (concat e p.1 p.2)) = ∫⁻ z, f z ∂(mvn 0 (jointCov e K s)) := by
  obtain ⟨L, hLdef⟩ : ∃ L, L = cholesky K := ⟨_, rfl⟩
  rw [← hLdef] at hL
  set M : Matrix ζ (Fin d ⊕ Fin d) ℝ := (fromBlocks L 0 L (Real.sqrt s • 1)).submatrix e.symm id with hM
  have hMM : M * Mᵀ = jointCov e K s := by
    rw [hM, jointCov, transpose_submatrix, ← submatrix_mul _ _ _ _ _ Function.bijective_id, fromBlocks_transpose,
      fromBlocks_multiply]
    have h2 := hL.2.2
    congr 1
    simp [h2, smul_smul, Real.mul_self_sqrt hs]
  have h1 := stdNormal_affine (0 : ζ → ℝ) M
  rw [hMM] at h1
  rw [← h1, lintegral_map hf (measurable_affine _ _)]
  have h2 := lintegral_concat (Equiv.refl (Fin d ⊕ Fin d)) (fun _ => gaussianReal 0 1)
    (hf.comp (measurable_affine (0 : ζ → ℝ) M))
  have h3 : ∫⁻ z, f (0 + M *ᵥ z) ∂(stdNormal (Fin d ⊕ Fin d)) = _ := h2
  rw [h3]
  simp only [genData, normal, Rand.E_bind, Rand.E_sample, Rand.pure_eq, Rand.E_ret]
  refine lintegral_congr fun z => lintegral_congr fun w => ?_
  rw [Function.comp_apply, zero_add]
  congr 1
  funext k
  obtain ⟨k, rfl⟩ := e.surjective k
  have hc : concat (Equiv.refl (Fin d ⊕ Fin d)) z w = Sum.elim z w := by
    funext k; rcases k with k | k <;> rfl
  rw [hc]
  have hsub : M *ᵥ Sum.elim z w = (fromBlocks L 0 L (Real.sqrt s • 1) *ᵥ Sum.elim z w) ∘ e.symm := by
    rw [hM]
    funext j
    simp [mulVec, dotProduct]
  rw [hsub, mulVec_blocks]
  rcases k with k | k
  · simp [concat, hLdef]
  · simp [concat, smul_mulVec, hLdef]

/-- **C60, the posterior.**  `gp_mean` and `gp_cov` are the mean and the covariance of the latent function given the
data. -/
theorem C60_posterior (e : Fin d ⊕ Fin d ≃ ζ) {cho : Matrix (Fin d) (Fin d) ℝ → Matrix (Fin d) (Fin d) ℝ} (hc : IsChol cho)
    {K : Matrix (Fin d) (Fin d) ℝ} (hK : K.PosDef) {s : ℝ} (hs : 0 < s) {f : (ζ → ℝ) → ℝ≥0∞} (hf : Measurable f) :
    ∫⁻ z, f z ∂(mvn 0 (jointCov e K s)) =
      ∫⁻ y, ∫⁻ u, f (concat e u y) ∂(mvn (gpMean cho K s y) (gpCov cho K s)) ∂(mvn 0 (K + s • 1)) := by
  have hKs : (K + s • 1).PosDef := hK.add (PosDef.one.smul hs)
  have hUU : blockUU e (jointCov e K s) = K := by ext i j; simp [blockUU, jointCov]
  have hUV : blockUV e (jointCov e K s) = K := by ext i j; simp [blockUV, jointCov]
  have hVV : blockVV e (jointCov e K s) = K + s • 1 := by ext i j; simp [blockVV, jointCov]
  have hKt : Kᵀ = K := by simpa using hK.1.eq
  rw [lintegral_mvn_cond e (jointCov_posDef e hK hs) 0 hf]
  have h0 : unpackV e (0 : ζ → ℝ) = 0 := rfl
  have h0' : unpackU e (0 : ζ → ℝ) = 0 := rfl
  simp only [hUU, hUV, hVV, hKt, h0, h0', sub_zero, zero_add, gpMean, gpCov, choSolveVec_eq hc hKs, choSolve_eq hc hKs,
    Matrix.mul_assoc]

end Posterior

/-! ### The noising process and its score -/

section Score

variable {q : ℕ}

theorem discretise_fst_pos (sde : Linear.SDE) (t s : ℝ) : 0 < (Linear.discretise sde t s).1 := by
  cases sde <;> exact Real.exp_pos _

theorem forwardCov_posDef {sde : Linear.SDE} {t t0 : ℝ} (hQ : 0 ≤ (Linear.discretise sde t t0).2) (m : Fin q → ℝ)
    {C : Matrix (Fin q) (Fin q) ℝ} (hC : C.PosDef) : (forwardMCov sde t0 m C t).2.PosDef :=
  (hC.smul (pow_pos (discretise_fst_pos sde t t0) 2)).add_posSemidef (PosSemidef.one.smul hQ)

/-- **C61, the noised law.**  If the initial state is `N(m, C)`, then the state of the noising process at the `k`-th
time has the mean and the covariance computed by `forward_m_cov`. -/
theorem C61_noised {sde : Linear.SDE} (hsde : Defined sde) (m : Fin q → ℝ) {C : Matrix (Fin q) (Fin q) ℝ}
    (hC : C.PosSemidef) (key : Key) (ts : Arr1 ℝ) (hg : GridOk sde ts.1 ts.2) (k : ℕ) (hk : k ≤ ts.2.length)
    {f : (Fin q → ℝ) → ℝ≥0∞} (hf : Measurable f) :
    ∫⁻ x0, (Linear.simulatePath sde key x0 ts).E (fun p => f (p.getD k x0)) ∂(mvn m C) =
      ∫⁻ z, f z ∂(mvn (forwardMCov sde ts.1 m C (ts.toList.getD k ts.1)).1
        (forwardMCov sde ts.1 m C (ts.toList.getD k ts.1)).2) := by
  have hQ : 0 ≤ (Linear.discretise sde (ts.toList.getD k ts.1) ts.1).2 :=
    (chainInt_marginal hsde ts.2 ts.1 hg k hk m f hf).1
  have h1 : ∀ x0, (Linear.simulatePath sde key x0 ts).E (fun p => f (p.getD k x0)) =
      ∫⁻ y, f y ∂(gaussProd (fun i => (Linear.discretise sde (ts.toList.getD k ts.1) ts.1).1 * x0 i)
        (Linear.discretise sde (ts.toList.getD k ts.1) ts.1).2.toNNReal) := fun x0 =>
    C31_marginal hsde key x0 ts hg k hk hf
  simp only [h1]
  rw [lintegral_mvn_noise hC m _ _ hf, Real.coe_toNNReal _ hQ]
  rfl

theorem hasDerivAt_quad {S : Matrix (Fin q) (Fin q) ℝ} (hS : Sᵀ = S) (m z : Fin q → ℝ) (i : Fin q) :
    HasDerivAt (fun y => quad S m (Function.update z i y)) (2 * (S⁻¹ *ᵥ (z - m)) i) (z i) := by
  set A := S⁻¹ with hA
  have hAt : Aᵀ = A := by rw [hA, transpose_nonsing_inv, hS]
  have hu : ∀ j, HasDerivAt (fun y => Function.update z i y j - m j) (if j = i then 1 else 0) (z i) := by
    intro j
    by_cases h : j = i
    · subst h
      simp only [Function.update_self, if_true]
      exact (hasDerivAt_id _).sub_const _
    · simp only [Function.update_of_ne h, h, if_false]
      exact hasDerivAt_const _ _
  have hz : Function.update z i (z i) = z := Function.update_eq_self i z
  have h1 : HasDerivAt (fun y => ∑ j, (Function.update z i y j - m j) * ∑ l, A j l * (Function.update z i y l - m l))
      (∑ j, ((if j = i then 1 else 0) * (∑ l, A j l * (z l - m l)) +
        (z j - m j) * ∑ l, A j l * (if l = i then 1 else 0))) (z i) := by
    refine HasDerivAt.fun_sum fun j _ => ?_
    have h2 : HasDerivAt (fun y => ∑ l, A j l * (Function.update z i y l - m l))
        (∑ l, A j l * (if l = i then 1 else 0)) (z i) :=
      HasDerivAt.fun_sum fun l _ => (hu l).const_mul _
    have := (hu j).mul h2
    simp only [hz] at this
    exact this
  have h3 : (fun y => quad S m (Function.update z i y)) =
      fun y => ∑ j, (Function.update z i y j - m j) * ∑ l, A j l * (Function.update z i y l - m l) := rfl
  rw [h3]
  refine h1.congr_deriv ?_
  rw [Finset.sum_add_distrib]
  simp only [ite_mul, one_mul, zero_mul, mul_ite, mul_one, mul_zero, Finset.sum_ite_eq', Finset.mem_univ, if_true]
  have h4 : ∑ j, (z j - m j) * A j i = ∑ l, A i l * (z l - m l) := by
    refine Finset.sum_congr rfl fun j _ => ?_
    have : A j i = A i j := by conv_lhs => rw [← hAt, transpose_apply]
    rw [this, mul_comm]
  rw [h4]
  simp only [mulVec, dotProduct, Pi.sub_apply]
  ring

/-- **C61, the score.**  The noised law has a density, and `score(z, t)` is the gradient of its logarithm. -/
theorem C61_score {cho : Matrix (Fin q) (Fin q) ℝ → Matrix (Fin q) (Fin q) ℝ} (hc : IsChol cho)
    {sde : Linear.SDE} (hsde : Defined sde) (m : Fin q → ℝ) {C : Matrix (Fin q) (Fin q) ℝ}
    (hC : C.PosDef) (key : Key) (ts : Arr1 ℝ) (hg : GridOk sde ts.1 ts.2) (k : ℕ) (hk : k ≤ ts.2.length) :
    ∃ l : (Fin q → ℝ) → ℝ,
      (∀ f : (Fin q → ℝ) → ℝ≥0∞, Measurable f →
        ∫⁻ x0, (Linear.simulatePath sde key x0 ts).E (fun p => f (p.getD k x0)) ∂(mvn m C) =
          ∫⁻ z, f z * ENNReal.ofReal (Real.exp (l z))) ∧
      ∀ (z : Fin q → ℝ) (i : Fin q), HasDerivAt (fun y => l (Function.update z i y))
        (score cho sde ts.1 m C z (ts.toList.getD k ts.1) i) (z i) := by
  have hQ : 0 ≤ (Linear.discretise sde (ts.toList.getD k ts.1) ts.1).2 :=
    (chainInt_marginal hsde ts.2 ts.1 hg k hk m (fun _ => 0) measurable_const).1
  have hP := forwardCov_posDef hQ m hC
  refine ⟨logDens (forwardMCov sde ts.1 m C (ts.toList.getD k ts.1)).1
    (forwardMCov sde ts.1 m C (ts.toList.getD k ts.1)).2, fun f hf => ?_, fun z i => ?_⟩
  · rw [C61_noised hsde m hC.posSemidef key ts hg k hk hf, lintegral_mvn_dens _ hP hf]
  · have hS : ((forwardMCov sde ts.1 m C (ts.toList.getD k ts.1)).2)ᵀ =
        (forwardMCov sde ts.1 m C (ts.toList.getD k ts.1)).2 := by simpa using hP.1.eq
    have h := (((hasDerivAt_quad hS (forwardMCov sde ts.1 m C (ts.toList.getD k ts.1)).1 z i).const_add
      (Fintype.card (Fin q) * Real.log (2 * Real.pi) +
        Real.log (forwardMCov sde ts.1 m C (ts.toList.getD k ts.1)).2.det))).const_mul (-(1 / 2))
    have e1 : score cho sde ts.1 m C z (ts.toList.getD k ts.1) i =
        -(1 / 2) * (2 * ((forwardMCov sde ts.1 m C (ts.toList.getD k ts.1)).2⁻¹ *ᵥ
          (z - (forwardMCov sde ts.1 m C (ts.toList.getD k ts.1)).1)) i) := by
      simp only [score, choSolveVec_eq hc hP, Pi.neg_apply]
      ring
    rw [e1]
    exact h

/-- **C61, the reverse drift.**  `reverse_drift` is an affine function of the state, and it drives the reversed mean
and covariance: a process with this drift and with `reverse_dispersion` that starts from the noised law at `T` has the
noised law at `T - t` for all `t`. -/
theorem C61_reverse {cho : Matrix (Fin q) (Fin q) ℝ → Matrix (Fin q) (Fin q) ℝ} (hc : IsChol cho)
    {sde : Linear.SDE} (hsde : Defined sde) {t0 T t : ℝ} (hr : RealDisp sde (T - t))
    (hQ : 0 ≤ (Linear.discretise sde (T - t) t0).2) (m : Fin q → ℝ) {C : Matrix (Fin q) (Fin q) ℝ} (hC : C.PosDef) :
    ∃ (A : Matrix (Fin q) (Fin q) ℝ) (c : Fin q → ℝ),
      (∀ z, reverseDrift cho sde t0 T m C z t = A *ᵥ z + c) ∧
      (∀ i, HasDerivAt (fun t => (forwardMCov sde t0 m C (T - t)).1 i)
        ((A *ᵥ (forwardMCov sde t0 m C (T - t)).1 + c) i) t) ∧
      ∀ i j, HasDerivAt (fun t => (forwardMCov sde t0 m C (T - t)).2 i j)
        ((A * (forwardMCov sde t0 m C (T - t)).2 + (forwardMCov sde t0 m C (T - t)).2 * Aᵀ +
          reverseDispersion sde T t ^ 2 • (1 : Matrix (Fin q) (Fin q) ℝ)) i j) t := by
  set a := Linear.drift sde 1 (T - t) with ha
  set g2 := Linear.dispersion sde (T - t) ^ 2 with hg2
  have hP := forwardCov_posDef hQ m hC
  have hPu : IsUnit (forwardMCov sde t0 m C (T - t)).2.det := hP.det_pos.ne'.isUnit
  have hPt : ((forwardMCov sde t0 m C (T - t)).2)ᵀ = (forwardMCov sde t0 m C (T - t)).2 := by simpa using hP.1.eq
  have hsub : HasDerivAt (fun t => T - t) (-1) t := by simpa using (hasDerivAt_id t).const_sub T
  obtain ⟨hF, hQ'⟩ := C27_ode hsde (T - t) t0
  have hQ2 := hQ' hr
  have hdr : ∀ x, Linear.drift sde x (T - t) = a * x := fun x => by rw [drift_eq, ha]
  rw [hdr] at hF hQ2
  set P := (forwardMCov sde t0 m C (T - t)).2 with hPdef
  set mt := (forwardMCov sde t0 m C (T - t)).1 with hmt
  refine ⟨-a • 1 - g2 • P⁻¹, g2 • (P⁻¹ *ᵥ mt), fun z => ?_, fun i => ?_, fun i j => ?_⟩
  · funext i
    simp only [reverseDrift, score, hdr, ← hg2]
    rw [← hPdef, ← hmt, choSolveVec_eq hc hP, mulVec_sub, sub_mulVec]
    simp only [Pi.neg_apply, Pi.add_apply, Pi.sub_apply, neg_smul, neg_mulVec, smul_mulVec, one_mulVec, Pi.smul_apply,
      smul_eq_mul]
    ring
  · have h1 : HasDerivAt (fun t => (forwardMCov sde t0 m C (T - t)).1 i)
        (a * (Linear.discretise sde (T - t) t0).1 * -1 * m i) t := (hF.comp t hsub).mul_const (m i)
    refine h1.congr_deriv ?_
    simp only [sub_mulVec, neg_smul, neg_mulVec, smul_mulVec, one_mulVec, Pi.add_apply, Pi.sub_apply, Pi.neg_apply,
      Pi.smul_apply, smul_eq_mul]
    have : mt i = (Linear.discretise sde (T - t) t0).1 * m i := rfl
    rw [this]
    ring
  · have h1 : HasDerivAt (fun t => (forwardMCov sde t0 m C (T - t)).2 i j)
        ((2 * (Linear.discretise sde (T - t) t0).1 ^ (2 - 1) * (a * (Linear.discretise sde (T - t) t0).1 * -1)) * C i j +
          ((2 * (a * (Linear.discretise sde (T - t) t0).2) + g2) * -1) * (1 : Matrix (Fin q) (Fin q) ℝ) i j) t := by
      have h2 := (((hF.comp t hsub).pow 2).mul_const (C i j)).add
        ((hQ2.comp t hsub).mul_const ((1 : Matrix (Fin q) (Fin q) ℝ) i j))
      exact_mod_cast h2
    refine h1.congr_deriv ?_
    have e1 : (-a • (1 : Matrix (Fin q) (Fin q) ℝ) - g2 • P⁻¹) * P = -a • P - g2 • 1 := by
      rw [sub_mul, smul_mul_assoc, smul_mul_assoc, one_mul, nonsing_inv_mul _ hPu]
    have e2 : P * (-a • (1 : Matrix (Fin q) (Fin q) ℝ) - g2 • P⁻¹)ᵀ = -a • P - g2 • 1 := by
      rw [transpose_sub, transpose_smul, transpose_smul, transpose_one, transpose_nonsing_inv, hPt, mul_sub, mul_smul_comm,
        mul_smul_comm, mul_one, mul_nonsing_inv _ hPu]
    rw [e1, e2]
    have e3 : P i j = (Linear.discretise sde (T - t) t0).1 ^ 2 * C i j +
        (Linear.discretise sde (T - t) t0).2 * (1 : Matrix (Fin q) (Fin q) ℝ) i j := rfl
    simp only [Matrix.add_apply, Matrix.sub_apply, Matrix.smul_apply, smul_eq_mul, e3, Gp.reverseDispersion, ← hg2]
    ring

end Score

/-! ### The reference samplers -/

section Reference

variable {p q d : ℕ} {ζ : Type} [Fintype ζ] [DecidableEq ζ] {N : ℕ}

/-- **C62, the conditional reference law.**  `m_` and `cov_` are the mean and the covariance of `u` given `v` when the
pair is `N(m_ref, cov_ref)`. -/
theorem C62_conditional (e : Fin p ⊕ Fin q ≃ ζ) {cho : Matrix (Fin q) (Fin q) ℝ → Matrix (Fin q) (Fin q) ℝ}
    (hc : IsChol cho) (m : ζ → ℝ) {C : Matrix ζ ζ ℝ} (hC : C.PosDef) {f : (ζ → ℝ) → ℝ≥0∞} (hf : Measurable f) :
    (refCov cho e C).PosDef ∧
    ∫⁻ z, f z ∂(mvn m C) = ∫⁻ v, ∫⁻ u, f (concat e u v) ∂(mvn (refMean cho e m C v) (refCov cho e C))
      ∂(mvn (unpackV e m) (blockVV e C)) := by
  have hD := posDef_blockVV e hC
  have h1 : refCov cho e C = blockUU e C - blockUV e C * (blockVV e C)⁻¹ * (blockUV e C)ᵀ := by
    rw [refCov, choSolve_eq hc hD, blockVU_eq e hC.1, Matrix.mul_assoc]
  refine ⟨h1 ▸ posDef_schur e hC, ?_⟩
  rw [lintegral_mvn_cond e hC m hf]
  simp only [h1, refMean, choSolveVec_eq hc hD]

theorem lintegral_rows_affine (a : Fin p → ℝ) (R : Matrix (Fin p) (Fin p) ℝ) {F : (Fin N → Fin p → ℝ) → ℝ≥0∞}
    (hF : Measurable F) :
    ∫⁻ z, F (fun j => a + R *ᵥ fun i => z (j, i)) ∂(stdNormal (Fin N × Fin p)) =
      ∫⁻ x, F x ∂(Measure.pi fun _ => mvn a (R * Rᵀ)) := by
  have h1 : (stdNormal (Fin N × Fin p)).map (fun z (j : Fin N) (i : Fin p) => z (j, i)) =
      Measure.pi fun _ => stdNormal (Fin p) := map_rows fun (_ : Fin N) (_ : Fin p) => gaussianReal 0 1
  have h2 : (Measure.pi fun _ : Fin N => stdNormal (Fin p)).map (fun x (j : Fin N) => a + R *ᵥ x j) =
      Measure.pi fun _ => mvn a (R * Rᵀ) := by
    have := Measure.pi_map_pi (μ := fun _ : Fin N => stdNormal (Fin p)) (f := fun _ x => a + R *ᵥ x)
      (fun _ => (measurable_affine a R).aemeasurable)
    rw [this]
    simp only [stdNormal_affine]
  have hm : Measurable fun (x : Fin N → Fin p → ℝ) (j : Fin N) => a + R *ᵥ x j :=
    measurable_pi_iff.2 fun j => (measurable_affine a R).comp (measurable_pi_apply j)
  have hm2 : Measurable fun (z : Fin N × Fin p → ℝ) (j : Fin N) (i : Fin p) => z (j, i) := by fun_prop
  have hF' : Measurable fun x : Fin N → Fin p → ℝ => F (fun j => a + R *ᵥ x j) := hF.comp hm
  rw [← h2, lintegral_map hF hm, ← h1, lintegral_map hF' hm2]

omit [Fintype ζ] [DecidableEq ζ] in
/-- **C62, the law of the reference particles.**  The particles are independent and normal with the right mean; the
covariance is `Lᵀ L` for the Cholesky factor `L` of the right covariance. -/
theorem C62_ref_law (e : Fin p ⊕ Fin q ≃ ζ) (cho : Matrix (Fin q) (Fin q) ℝ → Matrix (Fin q) (Fin q) ℝ)
    (cholesky : Matrix (Fin p) (Fin p) ℝ → Matrix (Fin p) (Fin p) ℝ) (m : ζ → ℝ) (C : Matrix ζ ζ ℝ) (key : Key)
    (yT : Fin q → ℝ) (n : ℕ) {F : (Fin N → Fin p → ℝ) → ℝ≥0∞} (hF : Measurable F) :
    (refSampler cho cholesky e m C key yT n).E F =
      ∫⁻ x, F x ∂(Measure.pi fun _ => mvn (refMean cho e m C yT)
        ((cholesky (refCov cho e C))ᵀ * cholesky (refCov cho e C))) := by
  have h := lintegral_rows_affine (refMean cho e m C yT) (cholesky (refCov cho e C))ᵀ hF
  rw [transpose_transpose] at h
  rw [← h]
  simp only [refSampler, normal, Rand.E_bind, Rand.E_sample, Rand.pure_eq, Rand.E_ret, mulVec_transpose]

/-- A triangular matrix that commutes with its transpose is diagonal. -/
theorem isDiag_of_normal {L : Matrix (Fin p) (Fin p) ℝ} (hL : ∀ i j, i < j → L i j = 0) (h : L * Lᵀ = Lᵀ * L) :
    ∀ i j, i ≠ j → L i j = 0 := by
  have key : ∀ n : ℕ, ∀ k : Fin p, (k : ℕ) = n → ∀ i, k < i → L i k = 0 := by
    intro n
    induction n using Nat.strong_induction_on with
    | _ n ih =>
      rintro k rfl i hki
      have h1 := congrFun (congrFun h k) k
      simp only [mul_apply, transpose_apply] at h1
      have h2 : ∑ j, L k j * L k j = L k k * L k k := by
        rw [Finset.sum_eq_single k]
        · intro j _ hj
          rcases lt_or_gt_of_ne hj with hlt | hgt
          · rw [ih j hlt j rfl k hlt, zero_mul]
          · rw [hL k j hgt, zero_mul]
        · simp
      rw [h2, ← Finset.add_sum_erase _ _ (Finset.mem_univ k)] at h1
      have h3 : ∑ j ∈ Finset.univ.erase k, L j k * L j k = 0 := by linarith
      rw [Finset.sum_eq_zero_iff_of_nonneg fun j _ => mul_self_nonneg _] at h3
      exact mul_self_eq_zero.1 (h3 i (by simp [hki.ne']))
  intro i j hij
  rcases lt_or_gt_of_ne hij with hlt | hgt
  · exact hL i j hlt
  · exact key j j rfl i hgt

theorem chol_normal_iff {L M : Matrix (Fin p) (Fin p) ℝ} (hL : IsCholFactor L M) :
    Lᵀ * L = M ↔ ∀ i j, i ≠ j → M i j = 0 := by
  obtain ⟨h1, h2, h3⟩ := hL
  constructor
  · intro h i j hij
    have hd := isDiag_of_normal h1 (h3.trans h.symm)
    rw [← h3, mul_apply]
    refine Finset.sum_eq_zero fun k _ => ?_
    by_cases hk : i = k
    · subst hk
      rw [transpose_apply, hd j i hij.symm, mul_zero]
    · rw [hd i k hk, zero_mul]
  · intro h
    have hd : ∀ n : ℕ, ∀ k : Fin p, (k : ℕ) = n → ∀ i, k < i → L i k = 0 := by
      intro n
      induction n using Nat.strong_induction_on with
      | _ n ih =>
        rintro k rfl i hki
        have h4 := h i k hki.ne'
        rw [← h3, mul_apply, Finset.sum_eq_single k] at h4
        · rw [transpose_apply] at h4
          exact (mul_eq_zero.1 h4).resolve_right (h2 k).ne'
        · intro j _ hj
          rw [transpose_apply]
          rcases lt_or_gt_of_ne hj with hlt | hgt
          · rw [ih j hlt j rfl k hlt, mul_zero]
          · rw [h1 k j hgt, mul_zero]
        · simp
    have hLd : L = diagonal fun i => L i i := by
      ext i j
      by_cases hij : i = j
      · subst hij; simp
      · rw [diagonal_apply_ne _ hij]
        rcases lt_or_gt_of_ne hij with hlt | hgt
        · exact h1 i j hlt
        · exact hd j j rfl i hgt
    rw [← h3, hLd]
    simp

/-- **C62, when the reference sampler is exact.**  A particle has the conditional reference law if and only if the
conditional covariance is diagonal. -/
theorem C62_ref_exact_iff_partial (e : Fin p ⊕ Fin q ≃ ζ) {cho : Matrix (Fin q) (Fin q) ℝ → Matrix (Fin q) (Fin q) ℝ}
    (hc : IsChol cho) {cholesky : Matrix (Fin p) (Fin p) ℝ → Matrix (Fin p) (Fin p) ℝ} (hL : IsCholesky cholesky)
    (m : ζ → ℝ) {C : Matrix ζ ζ ℝ} (hC : C.PosDef) (key : Key) (yT : Fin q → ℝ) (n : ℕ) (j : Fin N) :
    (∀ f : (Fin p → ℝ) → ℝ≥0∞, Measurable f → (refSampler cho cholesky e m C key yT n).E (fun x : Fin N → Fin p → ℝ => f (x j)) =
      ∫⁻ u, f u ∂(mvn (refMean cho e m C yT) (refCov cho e C))) ↔
    ∀ i i', i ≠ i' → refCov cho e C i i' = 0 := by
  have hR := (C62_conditional e hc m hC (f := fun _ => 0) measurable_const).1
  have hfac := hL _ hR
  rw [← chol_normal_iff hfac]
  have hlaw : ∀ f : (Fin p → ℝ) → ℝ≥0∞, Measurable f →
      (refSampler cho cholesky e m C key yT n).E (fun x : Fin N → Fin p → ℝ => f (x j)) =
      ∫⁻ u, f u ∂(mvn (refMean cho e m C yT) ((cholesky (refCov cho e C))ᵀ * cholesky (refCov cho e C))) := by
    intro f hf
    have hfj : Measurable fun x : Fin N → Fin p → ℝ => f (x j) := hf.comp (measurable_pi_apply j)
    rw [C62_ref_law e cho cholesky m C key yT n hfj]
    exact (measurePreserving_eval (fun _ : Fin N => mvn (refMean cho e m C yT)
      ((cholesky (refCov cho e C))ᵀ * cholesky (refCov cho e C))) j).lintegral_comp hf
  constructor
  · intro h
    have heq : mvn (refMean cho e m C yT) ((cholesky (refCov cho e C))ᵀ * cholesky (refCov cho e C)) =
        mvn (refMean cho e m C yT) (refCov cho e C) :=
      Measure.ext_of_lintegral _ fun f hf => by rw [← hlaw f hf, h f hf]
    refine (mvn_injective ?_ hR.posSemidef heq).2
    simpa using posSemidef_conjTranspose_mul_self (cholesky (refCov cho e C))
  · intro h f hf
    rw [hlaw f hf, h]

omit [Fintype ζ] in
/-- For the joint covariance of the experiments the conditional reference covariance is explicit. -/
theorem refCov_gp (e : Fin d ⊕ Fin d ≃ ζ) {cho : Matrix (Fin d) (Fin d) ℝ → Matrix (Fin d) (Fin d) ℝ} (hc : IsChol cho)
    {K : Matrix (Fin d) (Fin d) ℝ} (hK : K.PosDef) {s F Q : ℝ} (hs : 0 < s) (hF : 0 < F) (hQ : 0 ≤ Q) :
    refCov cho e (F ^ 2 • jointCov e K s + Q • 1) =
      (Q + (F ^ 2 * s + Q)) • 1 - (F ^ 2 * s + Q) ^ 2 • (F ^ 2 • K + (F ^ 2 * s + Q) • 1)⁻¹ := by
  set c := F ^ 2 * s + Q with hcdef
  have hc0 : 0 < c := by positivity
  have hX : (F ^ 2 • K).PosDef := hK.smul (by positivity)
  have hM : (F ^ 2 • K + c • 1).PosDef := hX.add (PosDef.one.smul hc0)
  have hUU : blockUU e (F ^ 2 • jointCov e K s + Q • 1) = F ^ 2 • K + Q • 1 := by
    ext i j; simp [blockUU, jointCov, one_apply]
  have hUV : blockUV e (F ^ 2 • jointCov e K s + Q • 1) = F ^ 2 • K := by
    ext i j; simp [blockUV, jointCov, one_apply]
  have hVU : blockVU e (F ^ 2 • jointCov e K s + Q • 1) = F ^ 2 • K := by
    ext i j; simp [blockVU, jointCov, one_apply]
  have hVV : blockVV e (F ^ 2 • jointCov e K s + Q • 1) = F ^ 2 • K + c • 1 := by
    ext i j; simp [blockVV, jointCov, one_apply, hcdef]; split_ifs <;> ring
  rw [refCov, hUU, hUV, hVU, hVV, choSolve_eq hc hM]
  set X := F ^ 2 • K with hXdef
  set M := X + c • (1 : Matrix (Fin d) (Fin d) ℝ) with hMdef
  have hMu : IsUnit M.det := hM.det_pos.ne'.isUnit
  have hXM : X = M - c • 1 := by rw [hMdef]; abel
  have h1 : X * (M⁻¹ * X) = X - c • 1 + c ^ 2 • M⁻¹ := by
    have : M⁻¹ * X = 1 - c • M⁻¹ := by
      rw [hXM, mul_sub, nonsing_inv_mul _ hMu, mul_smul_comm, mul_one]
    rw [this, mul_sub, mul_one, mul_smul_comm]
    have h2 : X * M⁻¹ = 1 - c • M⁻¹ := by
      rw [hXM, sub_mul, mul_nonsing_inv _ hMu, smul_mul_assoc, one_mul]
    rw [h2, smul_sub, smul_smul, sq]
    abel
  rw [h1]
  module

/-- **C62, the experiments.**  With the joint covariance of the experiments the reference particles have the wrong law
as soon as two different entries of the latent function are correlated, in particular always for the exponential kernel
with `d ≥ 2`. -/
theorem C62_ref_biased (e : Fin d ⊕ Fin d ≃ ζ) {cho : Matrix (Fin d) (Fin d) ℝ → Matrix (Fin d) (Fin d) ℝ} (hc : IsChol cho)
    {cholesky : Matrix (Fin d) (Fin d) ℝ → Matrix (Fin d) (Fin d) ℝ} (hL : IsCholesky cholesky) {sigma ell : ℝ}
    (hsigma : sigma ≠ 0) (hell : 0 < ell) {zs : Fin d → ℝ} (hz : StrictMono zs) (hd : 2 ≤ d) {s : ℝ} (hs : 0 < s)
    {sde : Linear.SDE} {t0 T : ℝ} (hQ : 0 ≤ (Linear.discretise sde T t0).2) (key : Key) (yT : Fin d → ℝ) (n : ℕ)
    (j : Fin N) :
    ¬ ∀ f : (Fin d → ℝ) → ℝ≥0∞, Measurable f →
      (refSampler cho cholesky e (forwardMCov sde t0 0 (jointCov e (covFn sigma ell zs zs) s) T).1
        (forwardMCov sde t0 0 (jointCov e (covFn sigma ell zs zs) s) T).2 key yT n).E
          (fun x : Fin N → Fin d → ℝ => f (x j)) =
      ∫⁻ u, f u ∂(mvn (refMean cho e (forwardMCov sde t0 0 (jointCov e (covFn sigma ell zs zs) s) T).1
        (forwardMCov sde t0 0 (jointCov e (covFn sigma ell zs zs) s) T).2 yT)
        (refCov cho e (forwardMCov sde t0 0 (jointCov e (covFn sigma ell zs zs) s) T).2)) := by
  have hK := C60_kernel_posDef hsigma hell hz
  have hF := discretise_fst_pos sde T t0
  set F := (Linear.discretise sde T t0).1 with hFdef
  set Q := (Linear.discretise sde T t0).2 with hQdef
  set K := covFn sigma ell zs zs with hKdef
  have hC : (F ^ 2 • jointCov e K s + Q • 1).PosDef :=
    ((jointCov_posDef e hK hs).smul (pow_pos hF 2)).add_posSemidef (PosSemidef.one.smul hQ)
  intro h
  have h1 := (C62_ref_exact_iff_partial e hc hL (F • (0 : ζ → ℝ)) hC key yT n j).1 h
  rw [refCov_gp e hc hK hs hF hQ] at h1
  set c := F ^ 2 * s + Q with hcdef
  have hc0 : 0 < c := by positivity
  have hM : (F ^ 2 • K + c • 1).PosDef := (hK.smul (by positivity)).add (PosDef.one.smul hc0)
  set M := F ^ 2 • K + c • (1 : Matrix (Fin d) (Fin d) ℝ) with hMdef
  have hdiag : M⁻¹ = diagonal fun i => M⁻¹ i i := by
    ext i i'
    by_cases hi : i = i'
    · subst hi; simp
    · rw [diagonal_apply_ne _ hi]
      have := h1 i i' hi
      simp only [Matrix.sub_apply, Matrix.smul_apply, one_apply_ne hi, smul_eq_mul, mul_zero, zero_sub, neg_eq_zero,
        mul_eq_zero] at this
      exact this.resolve_left (by positivity)
  have hMd : M = (diagonal fun i => M⁻¹ i i)⁻¹ := by rw [← hdiag, nonsing_inv_nonsing_inv _ hM.det_pos.ne'.isUnit]
  rw [inv_diagonal] at hMd
  have h01 : (⟨0, by omega⟩ : Fin d) ≠ ⟨1, by omega⟩ := by simp
  have h2 := congrFun (congrFun hMd ⟨0, by omega⟩) ⟨1, by omega⟩
  rw [diagonal_apply_ne _ h01, hMdef, Matrix.add_apply, Matrix.smul_apply, Matrix.smul_apply, one_apply_ne h01, hKdef, covFn,
    of_apply] at h2
  simp only [smul_eq_mul, mul_zero, add_zero] at h2
  have h3 : F ^ 2 * (sigma ^ 2 * Real.exp (-|zs ⟨1, by omega⟩ - zs ⟨0, by omega⟩| / ell)) ≠ 0 := by positivity
  exact h3 h2

/-- **C62, the other samplers.**  The initial sampler of `gp_twisted.py` is exact; the posterior sampler of
`sb/gibbs.py` and the last draw of `gp_kf.py` have covariance `Lᵀ L`, like the reference sampler. -/
theorem C62_init_law {cholesky : Matrix (Fin p) (Fin p) ℝ → Matrix (Fin p) (Fin p) ℝ} (m : Fin p → ℝ)
    {C : Matrix (Fin p) (Fin p) ℝ} (hL : IsCholFactor (cholesky C) C) (key : Key) (n : ℕ)
    {F : (Fin N → Fin p → ℝ) → ℝ≥0∞} (hF : Measurable F) :
    (initSampler cholesky m C key n).E F = ∫⁻ x, F x ∂(Measure.pi fun _ => mvn m C) := by
  have h := lintegral_rows_affine m (cholesky C) hF
  rw [hL.2.2] at h
  rw [← h]
  simp only [initSampler, normal, Rand.E_bind, Rand.E_sample, Rand.pure_eq, Rand.E_ret]

/-- **C62, one row.**  The sampler, which multiplies the row of noise by the lower factor, has the stated law exactly when the
covariance is diagonal. -/
theorem C62_row_law {cholesky : Matrix (Fin p) (Fin p) ℝ → Matrix (Fin p) (Fin p) ℝ} (m : Fin p → ℝ)
    {C : Matrix (Fin p) (Fin p) ℝ} (hC : C.PosDef) (hL : IsCholFactor (cholesky C) C) (key : Key) :
    (∀ f : (Fin p → ℝ) → ℝ≥0∞, Measurable f → (rowSampler cholesky m C key).E f = ∫⁻ x, f x ∂(mvn m C)) ↔
      ∀ i i', i ≠ i' → C i i' = 0 := by
  have hlaw : ∀ f : (Fin p → ℝ) → ℝ≥0∞, Measurable f → (rowSampler cholesky m C key).E f =
      ∫⁻ x, f x ∂(mvn m ((cholesky C)ᵀ * cholesky C)) := by
    intro f hf
    have h := stdNormal_affine m (cholesky C)ᵀ
    rw [transpose_transpose] at h
    rw [← h, lintegral_map hf (measurable_affine _ _)]
    simp only [rowSampler, normal, Rand.E_bind, Rand.E_sample, Rand.pure_eq, Rand.E_ret, mulVec_transpose]
  rw [← chol_normal_iff hL]
  constructor
  · intro h
    have heq : mvn m ((cholesky C)ᵀ * cholesky C) = mvn m C :=
      Measure.ext_of_lintegral _ fun f hf => by rw [← hlaw f hf, h f hf]
    refine (mvn_injective ?_ hC.posSemidef heq).2
    simpa using posSemidef_conjTranspose_mul_self (cholesky C)
  · intro h f hf
    rw [hlaw f hf, h]

end Reference

/-! ### The filter of the experiments -/

section Filter

variable {d : ℕ} {ζ : Type} [Fintype ζ] [LinearOrder ζ] {N : ℕ}

theorem measurable_reverseDrift (cho : Matrix ζ ζ ℝ → Matrix ζ ζ ℝ) (sde : Linear.SDE) (t0 T : ℝ) (m : ζ → ℝ)
    (C : Matrix ζ ζ ℝ) (t : ℝ) : Measurable fun z => reverseDrift cho sde t0 T m C z t := by
  refine measurable_pi_iff.2 fun k => ?_
  have h1 : Measurable fun z : ζ → ℝ => score cho sde t0 m C z (T - t) k := by
    have h2 := (measurable_affine (0 : ζ → ℝ) ((cho (forwardMCov sde t0 m C (T - t)).2)ᵀ *
      cho (forwardMCov sde t0 m C (T - t)).2)⁻¹).comp
      (measurable_id.sub_const (forwardMCov sde t0 m C (T - t)).1)
    have h3 := ((measurable_pi_apply k).comp h2).neg
    convert h3 using 1
    funext z
    simp [score, Utils.choSolveVec]
  have h4 : Measurable fun x : ℝ => Linear.drift sde x (T - t) := by
    have : (fun x : ℝ => Linear.drift sde x (T - t)) = fun x => Linear.drift sde 1 (T - t) * x := funext fun x => drift_eq _ _ _
    rw [this]
    exact measurable_const_mul _
  exact ((h4.comp (measurable_pi_apply k)).neg).add (h1.const_mul _)

/-- **C62, the filter of the experiments.**  `bootstrap_filter` as called by `gp_filter.py` and `gp_gibbs.py` is exact
for the Euler-Maruyama chain of the reverse process whose first `u` is drawn from the normal law with covariance `Lᵀ L`
— not from the conditional reference law. -/
theorem C62_filter [NeZero N] (e : Fin d ⊕ Fin d ≃ ζ) (cho : Matrix (Fin d) (Fin d) ℝ → Matrix (Fin d) (Fin d) ℝ)
    (choJ : Matrix ζ ζ ℝ → Matrix ζ ζ ℝ) (cholesky : Matrix (Fin d) (Fin d) ℝ → Matrix (Fin d) (Fin d) ℝ)
    (sde : Linear.SDE) (t0 T : ℝ) (m : ζ → ℝ) (C : Matrix ζ ζ ℝ) (mRef : ζ → ℝ) (covRef : Matrix ζ ζ ℝ)
    {dt : ℝ} (hdt : 0 < dt) (ts : Arr1 ℝ)
    (hts : UniformGrid dt (Gp.reverseDispersion sde T) ts.1 ts.2) (v0 : Fin d → ℝ)
    {res : Smc.Resampling N} (hres : UnbiasedSums res) (key key' : Key) (log rl : Bool)
    {φ : (Fin d → ℝ) → List (Fin d → ℝ) → ℝ≥0∞}
    (hφ : Measurable fun q : (Fin d → ℝ) × (Fin ts.2.length → Fin d → ℝ) => φ q.1 (List.ofFn q.2)) :
    ∫⁻ w, (Smc.bootstrapFilter (filterFuns e (reverseDrift choJ sde t0 T m C) (Gp.reverseDispersion sde T) dt
        (refSampler cho cholesky e mRef covRef)) res (v0, List.ofFn w) ts key log rl).E
        (fun out => ENNReal.ofReal (Real.exp (-out.nell)) * ((N : ℝ≥0∞)⁻¹ * ∑ i, φ (out.final i) (List.ofFn w)))
        ∂(Measure.pi fun _ : Fin ts.2.length => (volume : Measure (Fin d → ℝ))) =
      ∫⁻ u0, (Simulators.eulerPath key' (concat e u0 v0) ts (reverseDrift choJ sde t0 T m C)
        (Gp.reverseDispersion sde T) 1).E (fun p => φ (unpackU e p.last) (p.2.map (unpackV e)))
        ∂(mvn (refMean cho e mRef covRef v0)
          ((cholesky (refCov cho e covRef))ᵀ * cholesky (refCov cho e covRef))) :=
  C59_filter e (fun t => measurable_reverseDrift choJ sde t0 T m C t) _ hdt ts hts v0 _
    (fun k n _ hF => C62_ref_law e cho cholesky mRef covRef k v0 n hF) hres key key' log rl hφ

end Filter

/-! ### The hypotheses can be met -/

theorem exists_isCholesky (k : ℕ) : ∃ c : Matrix (Fin k) (Fin k) ℝ → Matrix (Fin k) (Fin k) ℝ, IsCholesky c := by
  obtain ⟨cho, hc⟩ := exists_isChol k
  refine ⟨fun M => (cho M)ᵀ * diagonal fun i => ((SignType.sign (cho M i i) : SignType) : ℝ), fun M hM => ?_⟩
  obtain ⟨h1, h2⟩ := hc M hM
  have hdet : (cho M).det ≠ 0 := by
    intro h0
    have := congrArg det h2
    rw [det_mul, h0, mul_zero] at this
    exact hM.det_pos.ne this
  have hprod : (cho M).det = ∏ i, cho M i i := det_of_isUpperTriangular fun i j hij => h1 i j (by simpa using hij)
  have hd : ∀ i, cho M i i ≠ 0 := fun i h0 =>
    hdet (by rw [hprod]; exact Finset.prod_eq_zero (Finset.mem_univ i) h0)
  have hsh : ∀ i j, ((cho M)ᵀ * diagonal fun i => ((SignType.sign (cho M i i) : SignType) : ℝ)) i j =
      cho M j i * ((SignType.sign (cho M j j) : SignType) : ℝ) := fun i j => by rw [mul_diagonal, transpose_apply]
  refine ⟨fun i j hij => (hsh i j).trans (by rw [h1 j i hij, zero_mul]), fun i => lt_of_lt_of_eq ?_ (hsh i i).symm, ?_⟩
  · rw [self_mul_sign]
    exact abs_pos.2 (hd i)
  · rw [transpose_mul, diagonal_transpose, transpose_transpose, Matrix.mul_assoc, ← Matrix.mul_assoc (diagonal _),
      diagonal_mul_diagonal]
    have : (fun i => ((SignType.sign (cho M i i) : SignType) : ℝ) * ((SignType.sign (cho M i i) : SignType) : ℝ)) =
        fun _ => 1 := by
      funext i
      rcases lt_or_gt_of_ne (hd i) with h | h
      · simp [sign_neg h]
      · simp [sign_pos h]
    rw [this, diagonal_one, Matrix.one_mul, h2]

/-- The grid of three points with spacing one. -/
theorem strictMono_grid (d : ℕ) : StrictMono fun i : Fin d => ((i : ℕ) : ℝ) := fun i j h => by
  show ((i : ℕ) : ℝ) < ((j : ℕ) : ℝ)
  exact_mod_cast h

/-- Three correlated values observed with unit noise. -/
example (key : Key) : ∃ cho cholesky : Matrix (Fin 3) (Fin 3) ℝ → Matrix (Fin 3) (Fin 3) ℝ,
    (genData cholesky (covFn 1 1 (fun i : Fin 3 => ((i : ℕ) : ℝ)) fun i : Fin 3 => ((i : ℕ) : ℝ)) 1 key).E
      (fun p => ENNReal.ofReal (p.1 0 ^ 2 * p.2 1 ^ 2)) =
    ∫⁻ y, ∫⁻ u, ENNReal.ofReal (u 0 ^ 2 * y 1 ^ 2)
      ∂(mvn (gpMean cho (covFn 1 1 (fun i : Fin 3 => ((i : ℕ) : ℝ)) fun i : Fin 3 => ((i : ℕ) : ℝ)) 1 y)
        (gpCov cho (covFn 1 1 (fun i : Fin 3 => ((i : ℕ) : ℝ)) fun i : Fin 3 => ((i : ℕ) : ℝ)) 1))
      ∂(mvn 0 (covFn 1 1 (fun i : Fin 3 => ((i : ℕ) : ℝ)) (fun i : Fin 3 => ((i : ℕ) : ℝ)) + (1 : ℝ) • 1)) := by
  obtain ⟨cho, hc⟩ := exists_isChol 3
  obtain ⟨cholesky, hL⟩ := exists_isCholesky 3
  refine ⟨cho, cholesky, ?_⟩
  have hK := C60_kernel_posDef one_ne_zero one_pos (strictMono_grid 3) (sigma := 1) (ell := 1)
  have hf : Measurable fun z : Fin 3 ⊕ Fin 3 → ℝ => ENNReal.ofReal (z (Sum.inl 0) ^ 2 * z (Sum.inr 1) ^ 2) := by fun_prop
  have h1 := C60_data (Equiv.refl (Fin 3 ⊕ Fin 3)) (hL _ hK) zero_le_one key hf
  have h2 := C60_posterior (Equiv.refl (Fin 3 ⊕ Fin 3)) hc hK one_pos hf
  exact h1.trans h2

/-- The stationary noising process of the experiments on the grid `0, 1/2, 1`, and a correlated pair. -/
example (key : Key) : ∃ cho : Matrix (Fin 2) (Fin 2) ℝ → Matrix (Fin 2) (Fin 2) ℝ, ∃ l : (Fin 2 → ℝ) → ℝ,
    (∀ f : (Fin 2 → ℝ) → ℝ≥0∞, Measurable f →
      ∫⁻ x0, (Linear.simulatePath (.const (-1 / 2) 1) key x0 (0, [1 / 2, 1])).E (fun p => f (p.getD 2 x0))
        ∂(mvn 0 (covFn 1 1 (fun i : Fin 2 => ((i : ℕ) : ℝ)) fun i : Fin 2 => ((i : ℕ) : ℝ))) =
      ∫⁻ z, f z * ENNReal.ofReal (Real.exp (l z))) ∧
    ∀ (z : Fin 2 → ℝ) (i : Fin 2), HasDerivAt (fun y => l (Function.update z i y))
      (score cho (.const (-1 / 2) 1) 0 0 (covFn 1 1 (fun i : Fin 2 => ((i : ℕ) : ℝ)) fun i : Fin 2 => ((i : ℕ) : ℝ))
        z 1 i) (z i) := by
  obtain ⟨cho, hc⟩ := exists_isChol 2
  have hQ : ∀ t s : ℝ, s < t → 0 ≤ (Linear.discretise (.const (-1 / 2) 1) t s).2 := fun t s hst =>
    (C29_bounds (sde := .const (-1 / 2) 1) (t := t) (s := s) ⟨by norm_num, by norm_num⟩ ⟨by norm_num, by norm_num⟩ hst).2.1.le
  exact ⟨cho, C61_score hc (sde := .const (-1 / 2) 1) (show ((-1 / 2 : ℝ) ≠ 0) by norm_num) 0
    (C60_kernel_posDef one_ne_zero one_pos (strictMono_grid 2)) key (0, [1 / 2, 1])
    ⟨hQ _ _ (by norm_num), hQ _ _ (by norm_num), trivial⟩ 2 (by simp)⟩

/-- With two values the reference sampler is already wrong. -/
example (key : Key) (yT : Fin 2 → ℝ) : ∃ cho cholesky : Matrix (Fin 2) (Fin 2) ℝ → Matrix (Fin 2) (Fin 2) ℝ,
    ∃ f : (Fin 2 → ℝ) → ℝ≥0∞, Measurable f ∧
      (refSampler cho cholesky (Equiv.refl (Fin 2 ⊕ Fin 2)) (forwardMCov (.const (-1 / 2) 1) 0 0 (jointCov (Equiv.refl _)
        (covFn 1 1 (fun i : Fin 2 => ((i : ℕ) : ℝ)) fun i : Fin 2 => ((i : ℕ) : ℝ)) 1) 1).1
        (forwardMCov (.const (-1 / 2) 1) 0 0 (jointCov (Equiv.refl _)
        (covFn 1 1 (fun i : Fin 2 => ((i : ℕ) : ℝ)) fun i : Fin 2 => ((i : ℕ) : ℝ)) 1) 1).2 key yT 3).E
          (fun x : Fin 3 → Fin 2 → ℝ => f (x 0)) ≠
      ∫⁻ u, f u ∂(mvn (refMean cho (Equiv.refl (Fin 2 ⊕ Fin 2)) (forwardMCov (.const (-1 / 2) 1) 0 0 (jointCov (Equiv.refl _)
        (covFn 1 1 (fun i : Fin 2 => ((i : ℕ) : ℝ)) fun i : Fin 2 => ((i : ℕ) : ℝ)) 1) 1).1
        (forwardMCov (.const (-1 / 2) 1) 0 0 (jointCov (Equiv.refl _)
        (covFn 1 1 (fun i : Fin 2 => ((i : ℕ) : ℝ)) fun i : Fin 2 => ((i : ℕ) : ℝ)) 1) 1).2 yT)
        (refCov cho (Equiv.refl (Fin 2 ⊕ Fin 2)) (forwardMCov (.const (-1 / 2) 1) 0 0 (jointCov (Equiv.refl _)
        (covFn 1 1 (fun i : Fin 2 => ((i : ℕ) : ℝ)) fun i : Fin 2 => ((i : ℕ) : ℝ)) 1) 1).2)) := by
  obtain ⟨cho, hc⟩ := exists_isChol 2
  obtain ⟨cholesky, hL⟩ := exists_isCholesky 2
  have hQ : 0 ≤ (Linear.discretise (.const (-1 / 2) 1) 1 0).2 :=
    (C29_bounds (sde := .const (-1 / 2) 1) (t := 1) (s := 0) ⟨by norm_num, by norm_num⟩ ⟨by norm_num, by norm_num⟩
      one_pos).2.1.le
  have h := C62_ref_biased (Equiv.refl (Fin 2 ⊕ Fin 2)) hc hL (sigma := 1) (ell := 1) one_ne_zero one_pos
    (strictMono_grid 2) le_rfl one_pos hQ key yT 3 (0 : Fin 3)
  push Not at h
  obtain ⟨f, hf, hne⟩ := h
  exact ⟨cho, cholesky, f, hf, hne⟩

/-- A diagonal conditional covariance: the factor is the diagonal matrix of standard deviations. -/
example (key : Key) : ∃ cholesky : Matrix (Fin 2) (Fin 2) ℝ → Matrix (Fin 2) (Fin 2) ℝ,
    ∀ f : (Fin 2 → ℝ) → ℝ≥0∞, Measurable f →
      (rowSampler cholesky 0 (diagonal ![2, 3]) key).E f = ∫⁻ x, f x ∂(mvn 0 (diagonal ![2, 3])) := by
  obtain ⟨cholesky, hL⟩ := exists_isCholesky 2
  have hP : (diagonal ![(2 : ℝ), 3]).PosDef := PosDef.diagonal fun i => by fin_cases i <;> norm_num
  exact ⟨cholesky, (C62_row_law 0 hP (hL _ hP) key).2 fun i j hij => diagonal_apply_ne _ hij⟩

end Props
end Fbs
