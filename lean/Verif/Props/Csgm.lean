import Verif.Model.Csgm
import Verif.Props.Guided

/-!
# C64: the conditional score-based generative models of the experiments
-/

open MeasureTheory ProbabilityTheory
open scoped ENNReal NNReal

namespace Fbs
namespace Spec

variable {ι κ ζ : Type} [Fintype ι] [Fintype κ]

/-- The chain of the image experiments, from the definition of the method: at each time a noised copy of the
observation is drawn afresh, and the unobserved pixels move by one Euler-Maruyama step of the reverse process. -/
noncomputable def csgmInt (e : ι ⊕ κ ≃ ζ) (sde : Linear.SDE) (t0 T dt : ℝ) (score : (ζ → ℝ) → ℝ → (ζ → ℝ)) (y0 : κ → ℝ)
    (h : (ι → ℝ) → ℝ≥0∞) : List ℝ → (ι → ℝ) → ℝ≥0∞
  | [], u => h u
  | t :: ts, u => ∫⁻ v, ∫⁻ u', csgmInt e sde t0 T dt score y0 h ts u'
      ∂(gaussProd (fun i => u i + (-Linear.drift sde (u i) (T - t) + Linear.dispersion sde (T - t) ^ 2 *
        score (Toy.concat e u v) (T - t) (e (Sum.inl i))) * dt) (dt * Linear.dispersion sde (T - t) ^ 2).toNNReal)
      ∂(gaussProd (fun i => (Linear.discretise sde (T - t) t0).1 * y0 i) (Linear.discretise sde (T - t) t0).2.toNNReal)

end Spec

namespace Props

open Spec Jax Csgm Gp Mvn Matrix GaussCond Toy GaussKl

section Toy

variable {d : ℕ}

/-- The transcription of `multivariate_normal.logpdf` is the logarithm of the normal density. -/
theorem mvnLogpdf_eq {cholesky : Matrix (Fin d) (Fin d) ℝ → Matrix (Fin d) (Fin d) ℝ} (x m : Fin d → ℝ)
    {C : Matrix (Fin d) (Fin d) ℝ} (hL : IsCholFactor (cholesky C) C) : mvnLogpdf cholesky x m C = logDens m C x := by
  obtain ⟨h1, h2, h3⟩ := hL
  set L := cholesky C with hLdef
  have hdet : L.det = ∏ i, L i i := det_of_isLowerTriangular L fun i j hij => h1 i j (by simpa using hij)
  have hpos : 0 < L.det := by rw [hdet]; exact Finset.prod_pos fun i _ => h2 i
  have hC : Real.log C.det = 2 * ∑ i, Real.log (L i i) := by
    rw [← h3, det_mul, det_transpose, hdet, ← sq, Real.log_pow, Real.log_prod fun i _ => (h2 i).ne']
    norm_num
  have hq : (L⁻¹ *ᵥ (x - m)) ⬝ᵥ (L⁻¹ *ᵥ (x - m)) = quad C m x := by
    unfold quad
    rw [← h3, Matrix.mul_inv_rev, ← mulVec_mulVec, ← transpose_nonsing_inv, dotProduct_mulVec _ (L⁻¹)ᵀ,
      vecMul_transpose]
  unfold mvnLogpdf logDens
  simp only [← hLdef, hq, hC]
  ring

theorem gpCov_eq {cho : Matrix (Fin d) (Fin d) ℝ → Matrix (Fin d) (Fin d) ℝ} (hc : IsChol cho)
    {K : Matrix (Fin d) (Fin d) ℝ} (hK : K.PosDef) {s : ℝ} (hs : 0 < s) :
    gpCov cho K s = K - K * (K + s • 1)⁻¹ * K := by
  have hKs : (K + s • 1).PosDef := hK.add (PosDef.one.smul hs)
  rw [gpCov, choSolve_eq hc hKs, Matrix.mul_assoc]

theorem gpCov_posDef {cho : Matrix (Fin d) (Fin d) ℝ → Matrix (Fin d) (Fin d) ℝ} (hc : IsChol cho)
    {K : Matrix (Fin d) (Fin d) ℝ} (hK : K.PosDef) {s : ℝ} (hs : 0 < s) : (gpCov cho K s).PosDef := by
  have h := posDef_schur (Equiv.refl (Fin d ⊕ Fin d)) (jointCov_posDef (Equiv.refl _) hK hs)
  have hUU : blockUU (Equiv.refl (Fin d ⊕ Fin d)) (jointCov (Equiv.refl _) K s) = K := by ext i j; simp [blockUU, jointCov]
  have hUV : blockUV (Equiv.refl (Fin d ⊕ Fin d)) (jointCov (Equiv.refl _) K s) = K := by ext i j; simp [blockUV, jointCov]
  have hVV : blockVV (Equiv.refl (Fin d ⊕ Fin d)) (jointCov (Equiv.refl _) K s) = K + s • 1 := by
    ext i j; simp [blockVV, jointCov]
  have hKt : Kᵀ = K := by simpa using hK.1.eq
  rw [hUU, hUV, hVV, hKt] at h
  rwa [gpCov_eq hc hK hs]

/-- **C64, the reference law.**  `cond_m_ref` and `cond_cov_ref` are the mean and covariance of the noised posterior:
noising the exact Gaussian process posterior until `T` gives the normal law with these moments. -/
theorem C64_ref {cho : Matrix (Fin d) (Fin d) ℝ → Matrix (Fin d) (Fin d) ℝ} (hc : IsChol cho)
    {K : Matrix (Fin d) (Fin d) ℝ} (hK : K.PosDef) {s : ℝ} (hs : 0 < s) {sde : Linear.SDE} (hsde : Defined sde)
    (y0 : Fin d → ℝ) (key : Key) (ts : Arr1 ℝ) (hg : GridOk sde ts.1 ts.2) {f : (Fin d → ℝ) → ℝ≥0∞} (hf : Measurable f) :
    ∫⁻ x0, (Linear.simulatePath sde key x0 ts).E (fun p => f (p.getD ts.2.length x0))
        ∂(mvn (gpMean cho K s y0) (gpCov cho K s)) =
      ∫⁻ z, f z ∂(mvn (condMRef cho sde ts.1 (ts.toList.getD ts.2.length ts.1) 0 K s y0)
        (condCovRef cho sde ts.1 (ts.toList.getD ts.2.length ts.1) K s)) := by
  have hKs : (K + s • 1).PosDef := hK.add (PosDef.one.smul hs)
  rw [C61_noised hsde _ (gpCov_posDef hc hK hs).posSemidef key ts hg _ le_rfl hf]
  congr 2
  · simp only [forwardMCov, condMRef, gpMean, smul_zero, zero_add, sub_zero, smul_mulVec]
  · simp only [forwardMCov, condCovRef, gpCov, choSolve_eq hc hKs, Matrix.mul_smul, Matrix.smul_mul, smul_smul, smul_sub, ← sq]
    abel

theorem posDef_joint {K : Matrix (Fin d) (Fin d) ℝ} (hK : K.PosDef) {s F Q : ℝ} (hs : 0 < s) (hF : F ≠ 0) (hQ : 0 ≤ Q) :
    (fromBlocks (F ^ 2 • K + Q • 1) (F • K) (F • K) (K + s • 1)).PosDef := by
  have hKt : Kᵀ = K := by simpa using hK.1.eq
  refine PosDef.of_dotProduct_mulVec_pos ?_ fun z hz => ?_
  · rw [IsHermitian, fromBlocks_conjTranspose]
    simp [conjTranspose_eq_transpose_of_trivial, hKt]
  · obtain ⟨a, b, rfl⟩ : ∃ a b, z = Sum.elim a b := ⟨z ∘ Sum.inl, z ∘ Sum.inr, (Sum.elim_comp_inl_inr z).symm⟩
    rw [star_trivial, mulVec_blocks, sumElim_dotProduct_sumElim]
    have hsym : b ⬝ᵥ K *ᵥ a = a ⬝ᵥ K *ᵥ b := by
      rw [dotProduct_mulVec, ← mulVec_transpose, hKt, dotProduct_comm]
    have hexp : a ⬝ᵥ ((F ^ 2 • K + Q • 1) *ᵥ a + (F • K) *ᵥ b) + b ⬝ᵥ ((F • K) *ᵥ a + (K + s • 1) *ᵥ b) =
        (F • a + b) ⬝ᵥ K *ᵥ (F • a + b) + Q * (a ⬝ᵥ a) + s * (b ⬝ᵥ b) := by
      simp only [add_mulVec, smul_mulVec, one_mulVec, mulVec_add, mulVec_smul, dotProduct_add, add_dotProduct,
        dotProduct_smul, smul_dotProduct, smul_eq_mul, hsym]
      ring
    rw [hexp]
    have ha : 0 ≤ a ⬝ᵥ a := Finset.sum_nonneg fun i _ => mul_self_nonneg _
    have hb : 0 ≤ b ⬝ᵥ b := Finset.sum_nonneg fun i _ => mul_self_nonneg _
    have hk : 0 ≤ (F • a + b) ⬝ᵥ K *ᵥ (F • a + b) := by
      simpa using hK.posSemidef.dotProduct_mulVec_nonneg (F • a + b)
    by_cases hb0 : b = 0
    · subst hb0
      have ha0 : a ≠ 0 := by
        rintro rfl
        exact hz (by ext (i | i) <;> rfl)
      have h1 : 0 < (F • a) ⬝ᵥ K *ᵥ (F • a) := by
        simpa using hK.dotProduct_mulVec_pos (x := F • a) (smul_ne_zero hF ha0)
      simp only [add_zero, dotProduct_zero, mul_zero]
      have : 0 ≤ Q * (a ⬝ᵥ a) := mul_nonneg hQ ha
      linarith
    · have h1 : 0 < b ⬝ᵥ b := lt_of_le_of_ne hb fun h => hb0 (dotProduct_self_eq_zero.1 h.symm)
      have : 0 ≤ Q * (a ⬝ᵥ a) := mul_nonneg hQ ha
      have : 0 < s * (b ⬝ᵥ b) := mul_pos hs h1
      linarith

/-- **C64, Bayes' rule for scores.**  The prior score plus the gradient of the likelihood of `y0` is the score of the
noised posterior, so `reverse_drift` of `gp_csgm.py` is the reverse drift of the noising process started from the exact
posterior. -/
theorem C64_drift {cho cholesky : Matrix (Fin d) (Fin d) ℝ → Matrix (Fin d) (Fin d) ℝ} (hc : IsChol cho)
    (hL : IsCholesky cholesky) {K : Matrix (Fin d) (Fin d) ℝ} (hK : K.PosDef) {s : ℝ} (hs : 0 < s) {sde : Linear.SDE}
    {t0 T t : ℝ} (hQ : 0 ≤ (Linear.discretise sde (T - t) t0).2) (m y0 u : Fin d → ℝ) :
    Csgm.reverseDrift cho cholesky sde t0 T m K s y0 u t =
      Gp.reverseDrift cho sde t0 T (m + gpMean cho K s (y0 - m)) (gpCov cho K s) u t := by
  have hKt : Kᵀ = K := by simpa using hK.1.eq
  have hKs : (K + s • 1).PosDef := hK.add (PosDef.one.smul hs)
  have hG := gpCov_posDef hc hK hs
  set F := (Linear.discretise sde (T - t) t0).1 with hFdef
  set Q := (Linear.discretise sde (T - t) t0).2 with hQdef
  have hF : F ≠ 0 := (discretise_fst_pos sde (T - t) t0).ne'
  have hJ := posDef_joint hK hs hF hQ
  set J := fromBlocks (F ^ 2 • K + Q • 1) (F • K) (F • K) (K + s • 1) with hJdef
  set P := F ^ 2 • K + Q • (1 : Matrix (Fin d) (Fin d) ℝ) with hPdef
  have hP : P.PosDef := posDef_blockVV (Equiv.sumComm (Fin d) (Fin d)) hJ
  set Cu := P - (F • K) * (K + s • 1)⁻¹ * (F • K) with hCu
  set Cy := K + s • 1 - (F • K) * P⁻¹ * (F • K) with hCy
  have hFK : (F • K)ᵀ = F • K := by rw [transpose_smul, hKt]
  have hCuP : Cu.PosDef := by
    have h := posDef_schur (Equiv.refl (Fin d ⊕ Fin d)) hJ
    have : Cu = blockUU (Equiv.refl (Fin d ⊕ Fin d)) J - blockUV (Equiv.refl (Fin d ⊕ Fin d)) J *
        (blockVV (Equiv.refl (Fin d ⊕ Fin d)) J)⁻¹ * (blockUV (Equiv.refl (Fin d ⊕ Fin d)) J)ᵀ := by
      have hUV : blockUV (Equiv.refl (Fin d ⊕ Fin d)) J = F • K := rfl
      rw [hUV, hFK]; rfl
    rwa [this]
  have hCyP : Cy.PosDef := by
    have h := posDef_schur (Equiv.sumComm (Fin d) (Fin d)) hJ
    have : Cy = blockUU (Equiv.sumComm (Fin d) (Fin d)) J - blockUV (Equiv.sumComm (Fin d) (Fin d)) J *
        (blockVV (Equiv.sumComm (Fin d) (Fin d)) J)⁻¹ * (blockUV (Equiv.sumComm (Fin d) (Fin d)) J)ᵀ := by
      have hUV : blockUV (Equiv.sumComm (Fin d) (Fin d)) J = F • K := rfl
      rw [hUV, hFK]; rfl
    rwa [this]
  set μ := F • m + (F • K) *ᵥ ((K + s • 1)⁻¹ *ᵥ (y0 - m)) with hμ
  -- the two factorisations of the joint density
  have hfac : ∀ x : Fin d → ℝ, condLogpdf cho cholesky F Q m K s y0 x =
      logDens μ Cu x + logDens m (K + s • 1) y0 - logDens (F • m) P x := by
    intro x
    have h1 := logDens_cond (Equiv.refl (Fin d ⊕ Fin d)) hJ (Sum.elim (F • m) m) (Sum.elim x y0)
    have h2 := logDens_cond (Equiv.sumComm (Fin d) (Fin d)) hJ (Sum.elim (F • m) m) (Sum.elim x y0)
    have e1 : logDens (Sum.elim (F • m) m) J (Sum.elim x y0) = logDens μ Cu x + logDens m (K + s • 1) y0 := by
      rw [h1]
      have hUV : blockUV (Equiv.refl (Fin d ⊕ Fin d)) J = F • K := rfl
      rw [hUV, hFK]; rfl
    have e2 : logDens (Sum.elim (F • m) m) J (Sum.elim x y0) =
        logDens (m + (F • K) *ᵥ (P⁻¹ *ᵥ (x - F • m))) Cy y0 + logDens (F • m) P x := by
      rw [h2]
      have hUV : blockUV (Equiv.sumComm (Fin d) (Fin d)) J = F • K := rfl
      rw [hUV, hFK]; rfl
    rw [← e1, e2, add_sub_cancel_right]
    unfold condLogpdf
    simp only [← hPdef]
    rw [choSolveVec_eq hc hP, choSolve_eq hc hP, ← Matrix.mul_assoc, ← hCy, mvnLogpdf_eq _ _ (hL _ hCyP)]
  have hgrad : ∀ k, Linear.grad (condLogpdf cho cholesky F Q m K s y0) u k =
      -(Cu⁻¹ *ᵥ (u - μ)) k + (P⁻¹ *ᵥ (u - F • m)) k := by
    intro k
    have hCt : Cuᵀ = Cu := by simpa using hCuP.1.eq
    have hPt : Pᵀ = P := by simpa using hP.1.eq
    have d1 := (((hasDerivAt_quad hCt μ u k).const_add (Fintype.card (Fin d) * Real.log (2 * Real.pi) +
      Real.log Cu.det)).const_mul (-(1 / 2))).add_const (logDens m (K + s • 1) y0)
    have d2 := ((hasDerivAt_quad hPt (F • m) u k).const_add (Fintype.card (Fin d) * Real.log (2 * Real.pi) +
      Real.log P.det)).const_mul (-(1 / 2))
    have d3 := d1.sub d2
    have hfun : (fun y => condLogpdf cho cholesky F Q m K s y0 (Function.update u k y)) = _ :=
      funext fun y => hfac (Function.update u k y)
    rw [Linear.grad, hfun]
    refine (HasDerivAt.deriv (f := fun y => logDens μ Cu (Function.update u k y) + logDens m (K + s • 1) y0 -
      logDens (F • m) P (Function.update u k y)) d3).trans ?_
    ring
  have hcov : F ^ 2 • gpCov cho K s + Q • 1 = Cu := by
    rw [gpCov_eq hc hK hs, hCu, hPdef]
    simp only [Matrix.mul_smul, Matrix.smul_mul, smul_smul, smul_sub, ← sq]
    abel
  have hmean : F • (m + gpMean cho K s (y0 - m)) = μ := by
    rw [hμ, gpMean, choSolveVec_eq hc hKs, smul_add, smul_mulVec]
  funext k
  have e3 : Csgm.reverseDrift cho cholesky sde t0 T m K s y0 u t k = -Linear.drift sde (u k) (T - t) +
      Linear.dispersion sde (T - t) ^ 2 * ((-Utils.choSolveVec (cho P) (u - F • m)) k +
        Linear.grad (condLogpdf cho cholesky F Q m K s y0) u k) := rfl
  have e4 : Gp.reverseDrift cho sde t0 T (m + gpMean cho K s (y0 - m)) (gpCov cho K s) u t k =
      -Linear.drift sde (u k) (T - t) + Linear.dispersion sde (T - t) ^ 2 *
        (-Utils.choSolveVec (cho (F ^ 2 • gpCov cho K s + Q • 1)) (u - F • (m + gpMean cho K s (y0 - m)))) k := rfl
  rw [e3, e4, hcov, hmean, choSolveVec_eq hc hP, choSolveVec_eq hc hCuP, hgrad]
  simp only [Pi.neg_apply]
  ring

/-- **C64, what the reference sampler draws.**  It multiplies the noise by the covariance instead of a factor of it, so
its covariance is the square. -/
theorem C64_ref_law (mRef : Fin d → ℝ) (C : Matrix (Fin d) (Fin d) ℝ) (key : Key) {f : (Fin d → ℝ) → ℝ≥0∞}
    (hf : Measurable f) : (condRefSampler mRef C key).E f = ∫⁻ x, f x ∂(mvn mRef (C * Cᵀ)) := by
  rw [← stdNormal_affine mRef C, lintegral_map hf (measurable_affine _ _)]
  simp only [condRefSampler, normal, Rand.E_bind, Rand.E_sample, Rand.pure_eq, Rand.E_ret]

theorem emStep_single (drift : (Fin d → ℝ) → ℝ → (Fin d → ℝ)) (disp : ℝ → ℝ) (x : Fin d → ℝ) (t t' : ℝ)
    (w : Fin 1 → Fin d → ℝ) : Simulators.emStep drift disp 1 x t t' (List.ofFn w) =
      fun k => x k + drift x t k * |t' - t| + disp t * Real.sqrt |t' - t| * w 0 k := by
  simp [Simulators.emStep, Simulators.substepTimes, Simulators.linspace, Simulators.emInner, Jax.scan]

theorem emE_congr {drift drift' : (Fin d → ℝ) → ℝ → (Fin d → ℝ)} (disp : ℝ → ℝ) (f : (Fin d → ℝ) → ℝ≥0∞) :
    ∀ (is : List (ℝ × ℝ)), (∀ i ∈ is, ∀ x, drift x i.1 = drift' x i.1) → ∀ x, emE drift disp 1 is x f = emE drift' disp 1 is x f
  | [], _, _ => rfl
  | (t, t') :: is, h, x => by
    refine lintegral_congr fun w => ?_
    rw [emStep_single, emStep_single, h (t, t') List.mem_cons_self]
    exact emE_congr disp f is (fun i hi => h i (List.mem_cons_of_mem _ hi)) _

theorem measurable_emE {drift : (Fin d → ℝ) → ℝ → (Fin d → ℝ)} (hd : ∀ t, Measurable fun x => drift x t) (disp : ℝ → ℝ)
    {f : (Fin d → ℝ) → ℝ≥0∞} (hf : Measurable f) : ∀ is : List (ℝ × ℝ), Measurable fun x => emE drift disp 1 is x f
  | [] => hf
  | (t, t') :: is => by
    have ih := measurable_emE hd disp hf is
    have hm : Measurable fun q : (Fin d → ℝ) × (Fin 1 → Fin d → ℝ) =>
        Simulators.emStep drift disp 1 q.1 t t' (List.ofFn q.2) := by
      simp only [emStep_single]
      refine measurable_pi_iff.2 fun k => ?_
      have h1 : Measurable fun q : (Fin d → ℝ) × (Fin 1 → Fin d → ℝ) => q.1 k := (measurable_pi_apply k).comp measurable_fst
      have h2 : Measurable fun q : (Fin d → ℝ) × (Fin 1 → Fin d → ℝ) => drift q.1 t k :=
        (measurable_pi_apply k).comp ((hd t).comp measurable_fst)
      have h3 : Measurable fun q : (Fin d → ℝ) × (Fin 1 → Fin d → ℝ) => q.2 0 k :=
        (measurable_pi_apply k).comp ((measurable_pi_apply 0).comp measurable_snd)
      exact (h1.add (h2.mul_const _)).add (h3.const_mul _)
    exact (ih.comp hm).lintegral_prod_right'

/-- **C64, the sampler.**  `conditional_sampler` runs `euler_maruyama` with the exact reverse drift of the posterior,
from the reference law with the squared covariance. -/
theorem C64_sampler {cho cholesky : Matrix (Fin d) (Fin d) ℝ → Matrix (Fin d) (Fin d) ℝ} (hc : IsChol cho)
    (hL : IsCholesky cholesky) {K : Matrix (Fin d) (Fin d) ℝ} (hK : K.PosDef) {s : ℝ} (hs : 0 < s) {sde : Linear.SDE}
    {t0 T : ℝ} (ts : Arr1 ℝ) (hQ : ∀ t ∈ ts.init, 0 ≤ (Linear.discretise sde (T - t) t0).2)
    (m y0 : Fin d → ℝ) (key key' : Key) {f : (Fin d → ℝ) → ℝ≥0∞} (hf : Measurable f) :
    (Csgm.conditionalSampler cho cholesky sde t0 T m K s y0 ts key).E f =
      ∫⁻ u0, (Simulators.eulerLast key' u0 ts
          (Gp.reverseDrift cho sde t0 T (m + gpMean cho K s (y0 - m)) (gpCov cho K s)) (Gp.reverseDispersion sde T) 1).E f
        ∂(mvn (condMRef cho sde t0 T m K s y0)
          (condCovRef cho sde t0 T K s * (condCovRef cho sde t0 T K s)ᵀ)) := by
  have hd : ∀ t, Measurable fun u => Gp.reverseDrift cho sde t0 T (m + gpMean cho K s (y0 - m)) (gpCov cho K s) u t := by
    intro t
    exact (continuous_reverseDrift (sde := sde) (T := T)
      (gp_score_continuous cho sde t0 (m + gpMean cho K s (y0 - m)) (gpCov cho K s)) t).measurable
  simp only [Csgm.conditionalSampler, Rand.E_bind, E_eulerLast]
  rw [← C64_ref_law _ _ (split key 2 0) (measurable_emE hd _ hf _)]
  refine congrArg _ (funext fun u0 => emE_congr _ f _ (fun i hi x => C64_drift hc hL hK hs (hQ i.1 ?_) m y0 x) u0)
  exact (List.of_mem_zip hi).1

/-- **C64, when the reference sampler is exact (partial).**  It draws from the law with covariance `cond_cov_ref` only if
that covariance is the identity. -/
theorem C64_ref_exact_iff_partial (mRef : Fin d → ℝ) {C : Matrix (Fin d) (Fin d) ℝ} (hC : C.PosDef) (key : Key) :
    (∀ f : (Fin d → ℝ) → ℝ≥0∞, Measurable f → (condRefSampler mRef C key).E f = ∫⁻ x, f x ∂(mvn mRef C)) ↔ C = 1 := by
  have hCt : Cᵀ = C := by simpa using hC.1.eq
  constructor
  · intro h
    have heq : mvn mRef (C * Cᵀ) = mvn mRef C :=
      Measure.ext_of_lintegral _ fun f hf => by rw [← C64_ref_law mRef C key hf, h f hf]
    have h2 := (mvn_injective (by simpa using posSemidef_self_mul_conjTranspose C) hC.posSemidef heq).2
    rw [hCt] at h2
    have hu : IsUnit C.det := isUnit_iff_ne_zero.2 hC.det_pos.ne'
    calc C = C⁻¹ * (C * C) := by rw [← Matrix.mul_assoc, nonsing_inv_mul _ hu, Matrix.one_mul]
      _ = 1 := by rw [h2, nonsing_inv_mul _ hu]
  · rintro rfl f hf
    rw [C64_ref_law mRef 1 key hf]
    simp

/-- **C64, the reference sampler of the experiment is never exact.**  With unit prior variances and the constant
coefficients of the experiment, whatever the inputs, the length scale, the noise variance and the horizon. -/
theorem C64_ref_biased [NeZero d] {cho : Matrix (Fin d) (Fin d) ℝ → Matrix (Fin d) (Fin d) ℝ} (hc : IsChol cho) {ell : ℝ}
    (hell : 0 < ell) {zs : Fin d → ℝ} (hz : StrictMono zs) {s T : ℝ} (hs : 0 < s) (hT : 0 ≤ T) (y0 : Fin d → ℝ) (key : Key) :
    ∃ f : (Fin d → ℝ) → ℝ≥0∞, Measurable f ∧
      (condRefSampler (condMRef cho (.const (-1 / 2) 1) 0 T 0 (covFn 1 ell zs zs) s y0)
        (condCovRef cho (.const (-1 / 2) 1) 0 T (covFn 1 ell zs zs) s) key).E f ≠
      ∫⁻ x, f x ∂(mvn (condMRef cho (.const (-1 / 2) 1) 0 T 0 (covFn 1 ell zs zs) s y0)
        (condCovRef cho (.const (-1 / 2) 1) 0 T (covFn 1 ell zs zs) s)) := by
  have hK := C60_kernel_posDef one_ne_zero hell hz (sigma := 1)
  set K := covFn 1 ell zs zs with hKdef
  have hKs : (K + s • 1).PosDef := hK.add (PosDef.one.smul hs)
  have hG := gpCov_posDef hc hK hs
  set F := (Linear.discretise (.const (-1 / 2) 1) T 0).1 with hF
  set Q := (Linear.discretise (.const (-1 / 2) 1) T 0).2 with hQ
  have hF0 : F ≠ 0 := (discretise_fst_pos _ T 0).ne'
  have hFQ : Q = 1 - F ^ 2 := by
    simp only [hQ, hF, Linear.discretise]
    rw [← Real.exp_nat_mul]
    ring_nf
  have hQ0 : 0 ≤ Q := by
    rw [hFQ]
    have h1 : F = Real.exp (-1 / 2 * (T - 0)) := by simp [hF, Linear.discretise]
    have h2 : F ≤ 1 := by rw [h1]; exact Real.exp_le_one_iff.2 (by linarith)
    have h3 : 0 ≤ F := (discretise_fst_pos _ T 0).le
    nlinarith
  have hC : condCovRef cho (.const (-1 / 2) 1) 0 T K s = F ^ 2 • gpCov cho K s + Q • 1 := by
    simp only [condCovRef, gpCov, choSolve_eq hc hKs, Matrix.mul_smul, Matrix.smul_mul, smul_smul, smul_sub, ← sq, ← hF, ← hQ]
    abel
  have hCP : (condCovRef cho (.const (-1 / 2) 1) 0 T K s).PosDef := by
    rw [hC]
    exact (hG.smul (by positivity)).add_posSemidef (PosSemidef.one.smul hQ0)
  by_contra hcon
  push Not at hcon
  have h1 := (C64_ref_exact_iff_partial _ hCP key).1 hcon
  rw [hC, hFQ] at h1
  have h2 : gpCov cho K s = 1 := by
    have h3 : F ^ 2 • (gpCov cho K s - 1) = 0 := by
      rw [smul_sub]
      have : F ^ 2 • gpCov cho K s + (1 - F ^ 2) • 1 = F ^ 2 • gpCov cho K s - F ^ 2 • (1 : Matrix (Fin d) (Fin d) ℝ) + 1 := by
        module
      rw [this] at h1
      simpa using h1
    exact sub_eq_zero.1 ((smul_eq_zero.1 h3).resolve_left (pow_ne_zero 2 hF0))
  rw [gpCov_eq hc hK hs] at h2
  have hu : IsUnit (K + s • 1).det := isUnit_iff_ne_zero.2 hKs.det_pos.ne'
  have h4 : (K + s • 1)⁻¹ * K = 1 - s • (K + s • 1)⁻¹ := by
    have := nonsing_inv_mul _ hu
    rw [Matrix.mul_add, Matrix.mul_smul, Matrix.mul_one] at this
    exact eq_sub_of_add_eq this
  have h5 : s • (K * (K + s • 1)⁻¹) = 1 := by
    rw [Matrix.mul_assoc, h4, Matrix.mul_sub, Matrix.mul_one, Matrix.mul_smul, sub_sub_cancel] at h2
    exact h2
  have h6 : s • K = K + s • 1 := by
    have := congrArg (· * (K + s • 1)) h5
    simp only [Matrix.smul_mul, Matrix.mul_assoc, nonsing_inv_mul _ hu, Matrix.mul_one, Matrix.one_mul] at this
    exact this
  have h7 := congrFun (congrFun h6 0) 0
  rw [Matrix.add_apply, Matrix.smul_apply, Matrix.smul_apply, one_apply_eq] at h7
  have h8 : K 0 0 = 1 := by simp [hKdef, covFn]
  rw [h8] at h7
  simp at h7

/-- The experiment with two values: the sampler runs the exact reverse drift, from the wrong law. -/
example (y0 : Fin 2 → ℝ) (key key' : Key) {f : (Fin 2 → ℝ) → ℝ≥0∞} (hf : Measurable f) :
    ∃ cho cholesky : Matrix (Fin 2) (Fin 2) ℝ → Matrix (Fin 2) (Fin 2) ℝ, ∃ K : Matrix (Fin 2) (Fin 2) ℝ,
    (Csgm.conditionalSampler cho cholesky (.const (-1 / 2) 1) 0 1 0 K 1 y0 (0, [1 / 2, 1]) key).E f =
      ∫⁻ u0, (Simulators.eulerLast key' u0 (0, [1 / 2, 1])
          (Gp.reverseDrift cho (.const (-1 / 2) 1) 0 1 (gpMean cho K 1 y0) (gpCov cho K 1))
          (Gp.reverseDispersion (.const (-1 / 2) 1) 1) 1).E f
        ∂(mvn (condMRef cho (.const (-1 / 2) 1) 0 1 0 K 1 y0)
          (condCovRef cho (.const (-1 / 2) 1) 0 1 K 1 * (condCovRef cho (.const (-1 / 2) 1) 0 1 K 1)ᵀ)) ∧
    ∃ f : (Fin 2 → ℝ) → ℝ≥0∞, Measurable f ∧
      (condRefSampler (condMRef cho (.const (-1 / 2) 1) 0 1 0 K 1 y0) (condCovRef cho (.const (-1 / 2) 1) 0 1 K 1) key).E f ≠
      ∫⁻ x, f x ∂(mvn (condMRef cho (.const (-1 / 2) 1) 0 1 0 K 1 y0) (condCovRef cho (.const (-1 / 2) 1) 0 1 K 1)) := by
  obtain ⟨cho, hc⟩ := exists_isChol 2
  obtain ⟨cholesky, hL⟩ := exists_isCholesky 2
  have hK := C60_kernel_posDef one_ne_zero one_pos (strictMono_grid 2) (sigma := 1) (ell := 1)
  refine ⟨cho, cholesky, _, ?_, C64_ref_biased hc one_pos (strictMono_grid 2) one_pos zero_le_one y0 key⟩
  have hQ : ∀ t ∈ Arr1.init ((0 : ℝ), [1 / 2, 1]), 0 ≤ (Linear.discretise (.const (-1 / 2) 1) (1 - t) 0).2 := by
    intro t ht
    refine (C29_bounds (sde := .const (-1 / 2) 1) (t := 1 - t) (s := 0) ⟨by norm_num, by norm_num⟩
      ⟨by norm_num, by norm_num⟩ ?_).2.1.le
    simp [Arr1.init] at ht
    rcases ht with rfl | rfl <;> norm_num
  have h := C64_sampler hc hL hK one_pos (0, [1 / 2, 1]) hQ 0 y0 key key' hf
  simpa only [zero_add, sub_zero] using h

/-- Noising the exact posterior of three values from time 0 to 1. -/
example (y0 : Fin 3 → ℝ) (key : Key) {f : (Fin 3 → ℝ) → ℝ≥0∞} (hf : Measurable f) :
    ∃ cho : Matrix (Fin 3) (Fin 3) ℝ → Matrix (Fin 3) (Fin 3) ℝ, ∃ K : Matrix (Fin 3) (Fin 3) ℝ,
    ∫⁻ x0, (Linear.simulatePath (.const (-1 / 2) 1) key x0 (0, [1])).E (fun p => f (p.getD 1 x0))
        ∂(mvn (gpMean cho K 1 y0) (gpCov cho K 1)) =
      ∫⁻ z, f z ∂(mvn (condMRef cho (.const (-1 / 2) 1) 0 1 0 K 1 y0) (condCovRef cho (.const (-1 / 2) 1) 0 1 K 1)) := by
  obtain ⟨cho, hc⟩ := exists_isChol 3
  have hK := C60_kernel_posDef one_ne_zero one_pos (strictMono_grid 3) (sigma := 1) (ell := 1)
  have hQ : 0 ≤ (Linear.discretise (.const (-1 / 2) 1) 1 0).2 :=
    (C29_bounds (sde := .const (-1 / 2) 1) (t := 1) (s := 0) ⟨by norm_num, by norm_num⟩ ⟨by norm_num, by norm_num⟩
      one_pos).2.1.le
  exact ⟨cho, _, C64_ref hc hK one_pos (sde := .const (-1 / 2) 1) (show (-1 / 2 : ℝ) ≠ 0 by norm_num) y0 key (0, [1]) ⟨hQ, trivial⟩ hf⟩

end Toy

section Images

variable {ι κ ζ : Type} [Fintype ι] [Fintype κ] (e : ι ⊕ κ ≃ ζ) {sde : Linear.SDE} {t0 T dt : ℝ}
  {score : (ζ → ℝ) → ℝ → (ζ → ℝ)} (y0 : κ → ℝ)

theorem imgScan_law (hsde : ∀ t, Measurable fun x => Linear.drift sde x t) (hsc : ∀ t, Measurable fun z => score z t)
    (hdt : 0 ≤ dt) {h : (ι → ℝ) → ℝ≥0∞} (hh : Measurable h) :
    ∀ (tl : List ℝ) (keys : List Key), keys.length = tl.length →
      (∀ t ∈ tl, 0 ≤ (Linear.discretise sde (T - t) t0).2) →
      Measurable (fun p : (ι → ℝ) × (Fin tl.length → ι → ℝ) => (Rand.scan (imgBody e sde t0 T dt score y0) p.1
        ((List.ofFn p.2).zip (tl.zip keys))).E fun r => h r.1) ∧
      ∀ u, ∫⁻ w, (Rand.scan (imgBody e sde t0 T dt score y0) u ((List.ofFn w).zip (tl.zip keys))).E (fun r => h r.1)
        ∂(Measure.pi fun _ : Fin tl.length => stdNormal ι) = csgmInt e sde t0 T dt score y0 h tl u
  | [], keys, _, _ => by
    constructor
    · simp only [List.zip_nil_left, List.zip_nil_right, Rand.scan, Rand.pure_eq, Rand.E_ret]
      exact hh.comp measurable_fst
    · intro u
      simp [Rand.scan, csgmInt]
  | t :: tl, [], hk, _ => by simp at hk
  | t :: tl, k :: keys, hk, hQ => by
    obtain ⟨ihm, ih⟩ := imgScan_law hsde hsc hdt hh tl keys (by simpa using hk)
      fun t ht => hQ t (List.mem_cons_of_mem _ ht)
    set F := (Linear.discretise sde (T - t) t0).1 with hF
    set Q := (Linear.discretise sde (T - t) t0).2 with hQd
    set g := Linear.dispersion sde (T - t) with hg
    let mean : (ι → ℝ) → (κ → ℝ) → (ι → ℝ) := fun u v i =>
      u i + (-Linear.drift sde (u i) (T - t) + g ^ 2 * score (concat e u v) (T - t) (e (Sum.inl i))) * dt
    let S : (ι → ℝ) → (κ → ℝ) → (ι → ℝ) → (ι → ℝ) := fun u v r i => mean u v i + g * Real.sqrt dt * r i
    let V : (κ → ℝ) → (κ → ℝ) := fun z i => F * y0 i + Real.sqrt Q * z i
    have hconcat : Measurable fun p : (ι → ℝ) × (κ → ℝ) => concat e p.1 p.2 := by
      refine measurable_pi_iff.2 fun j => ?_
      unfold concat
      rcases e.symm j with i | i
      · exact (measurable_pi_apply i).comp measurable_fst
      · exact (measurable_pi_apply i).comp measurable_snd
    have hmean : Measurable fun p : (ι → ℝ) × (κ → ℝ) => mean p.1 p.2 := by
      refine measurable_pi_iff.2 fun i => ?_
      have h1 : Measurable fun p : (ι → ℝ) × (κ → ℝ) => p.1 i := (measurable_pi_apply i).comp measurable_fst
      have h2 : Measurable fun p : (ι → ℝ) × (κ → ℝ) => score (concat e p.1 p.2) (T - t) (e (Sum.inl i)) :=
        (measurable_pi_apply _).comp ((hsc (T - t)).comp hconcat)
      exact h1.add (((((hsde (T - t)).comp h1).neg).add (h2.const_mul _)).mul_const _)
    have hS : Measurable fun p : (ι → ℝ) × (κ → ℝ) × (ι → ℝ) => S p.1 p.2.1 p.2.2 := by
      refine measurable_pi_iff.2 fun i => ?_
      have h1 : Measurable fun p : (ι → ℝ) × (κ → ℝ) × (ι → ℝ) => mean p.1 p.2.1 i :=
        (measurable_pi_apply i).comp (hmean.comp (measurable_fst.prodMk (measurable_fst.comp measurable_snd)))
      have h2 : Measurable fun p : (ι → ℝ) × (κ → ℝ) × (ι → ℝ) => p.2.2 i :=
        (measurable_pi_apply i).comp (measurable_snd.comp measurable_snd)
      exact h1.add (h2.const_mul _)
    have hV : Measurable V := measurable_pi_iff.2 fun i => ((measurable_pi_apply i).const_mul _).const_add _
    set G : (ι → ℝ) → (Fin tl.length → ι → ℝ) → ℝ≥0∞ := fun u w => (Rand.scan (imgBody e sde t0 T dt score y0) u
      ((List.ofFn w).zip (tl.zip keys))).E fun r => h r.1 with hG
    have hGm : Measurable fun p : (ι → ℝ) × (Fin tl.length → ι → ℝ) => G p.1 p.2 := ihm
    have hstep : ∀ (u : ι → ℝ) (w : Fin (tl.length + 1) → ι → ℝ),
        (Rand.scan (imgBody e sde t0 T dt score y0) u ((List.ofFn w).zip ((t :: tl).zip (k :: keys)))).E
          (fun r => h r.1) = ∫⁻ z, G (S u (V z) (w 0)) (fun i => w i.succ) ∂(stdNormal κ) := by
      intro u w
      rw [List.ofFn_succ]
      simp only [List.zip_cons_cons, Rand.scan, imgBody, imgDrift, Rand.E_bind, normal, Rand.E_sample,
        Rand.pure_eq, Rand.E_ret]
      rfl
    constructor
    · have hj : Measurable fun q : ((ι → ℝ) × (Fin (tl.length + 1) → ι → ℝ)) × (κ → ℝ) =>
          G (S q.1.1 (V q.2) (q.1.2 0)) (fun i => q.1.2 i.succ) := by
        have a1 : Measurable fun q : ((ι → ℝ) × (Fin (tl.length + 1) → ι → ℝ)) × (κ → ℝ) =>
            S q.1.1 (V q.2) (q.1.2 0) :=
          hS.comp ((measurable_fst.comp measurable_fst).prodMk ((hV.comp measurable_snd).prodMk
            ((measurable_pi_apply 0).comp (measurable_snd.comp measurable_fst))))
        have a2 : Measurable fun q : ((ι → ℝ) × (Fin (tl.length + 1) → ι → ℝ)) × (κ → ℝ) =>
            fun i : Fin tl.length => q.1.2 i.succ :=
          measurable_pi_iff.2 fun i => (measurable_pi_apply i.succ).comp (measurable_snd.comp measurable_fst)
        exact hGm.comp (a1.prodMk a2)
      have := hj.lintegral_prod_right' (ν := stdNormal κ)
      simp only [List.length_cons, hstep]
      exact this
    · intro u
      have hJ : Measurable fun u' => csgmInt e sde t0 T dt score y0 h tl u' := by
        simp only [← ih]
        exact hGm.lintegral_prod_right'
      have hrow : Measurable fun w : Fin (tl.length + 1) → ι → ℝ =>
          ∫⁻ z, G (S u (V z) (w 0)) (fun i => w i.succ) ∂(stdNormal κ) := by
        have a1 : Measurable fun q : (Fin (tl.length + 1) → ι → ℝ) × (κ → ℝ) => S u (V q.2) (q.1 0) :=
          hS.comp (measurable_const.prodMk ((hV.comp measurable_snd).prodMk
            ((measurable_pi_apply 0).comp measurable_fst)))
        have a2 : Measurable fun q : (Fin (tl.length + 1) → ι → ℝ) × (κ → ℝ) => fun i : Fin tl.length => q.1 i.succ :=
          measurable_pi_iff.2 fun i => (measurable_pi_apply i.succ).comp measurable_fst
        exact (hGm.comp (a1.prodMk a2)).lintegral_prod_right'
      have hin : ∀ r : ι → ℝ, ∫⁻ w, ∫⁻ z, G (S u (V z) r) w ∂(stdNormal κ)
          ∂(Measure.pi fun _ : Fin tl.length => stdNormal ι) =
          ∫⁻ z, csgmInt e sde t0 T dt score y0 h tl (S u (V z) r) ∂(stdNormal κ) := by
        intro r
        have hm : Measurable fun q : (Fin tl.length → ι → ℝ) × (κ → ℝ) => G (S u (V q.2) r) q.1 :=
          hGm.comp ((hS.comp (measurable_const.prodMk ((hV.comp measurable_snd).prodMk measurable_const))).prodMk
            measurable_fst)
        rw [lintegral_lintegral_swap hm.aemeasurable]
        exact lintegral_congr fun z => ih _
      have hm2 : Measurable fun q : (ι → ℝ) × (κ → ℝ) => csgmInt e sde t0 T dt score y0 h tl (S u (V q.2) q.1) :=
        hJ.comp (hS.comp (measurable_const.prodMk ((hV.comp measurable_snd).prodMk measurable_fst)))
      have hm3 : Measurable fun v : κ → ℝ => ∫⁻ r, csgmInt e sde t0 T dt score y0 h tl (S u v r) ∂(stdNormal ι) :=
        Measurable.lintegral_prod_right' (f := fun q : (κ → ℝ) × (ι → ℝ) =>
            csgmInt e sde t0 T dt score y0 h tl (S u q.1 q.2))
          (hJ.comp (hS.comp (measurable_const.prodMk measurable_id)))
      have hnorm : ∀ v, ∫⁻ r, csgmInt e sde t0 T dt score y0 h tl (S u v r) ∂(stdNormal ι) =
          ∫⁻ u', csgmInt e sde t0 T dt score y0 h tl u' ∂(gaussProd (mean u v) (dt * g ^ 2).toNNReal) := by
        intro v
        have hmap := gaussProd_map (0 : ι → ℝ) 1 (mean u v) (g * Real.sqrt dt)
        rw [mul_pow, Real.sq_sqrt hdt, mul_one, mul_comm (g ^ 2)] at hmap
        simp only [Pi.zero_apply, mul_zero, add_zero] at hmap
        have hSv : Measurable fun (r : ι → ℝ) i => mean u v i + g * Real.sqrt dt * r i :=
          measurable_pi_iff.2 fun i => ((measurable_pi_apply i).const_mul _).const_add _
        rw [← hmap, lintegral_map hJ hSv]
        rfl
      calc _ = ∫⁻ w, ∫⁻ z, G (S u (V z) (w 0)) (fun i => w i.succ) ∂(stdNormal κ)
            ∂(Measure.pi fun _ : Fin (tl.length + 1) => stdNormal ι) := lintegral_congr fun w => hstep u w
        _ = ∫⁻ r, ∫⁻ z, csgmInt e sde t0 T dt score y0 h tl (S u (V z) r) ∂(stdNormal κ) ∂(stdNormal ι) := by
            rw [lintegral_rows _ _ hrow]
            simp only [Fin.cons_zero, Fin.cons_succ]
            exact lintegral_congr hin
        _ = ∫⁻ z, ∫⁻ r, csgmInt e sde t0 T dt score y0 h tl (S u (V z) r) ∂(stdNormal ι) ∂(stdNormal κ) :=
            lintegral_lintegral_swap hm2.aemeasurable
        _ = ∫⁻ v, ∫⁻ r, csgmInt e sde t0 T dt score y0 h tl (S u v r) ∂(stdNormal ι)
              ∂(gaussProd (fun i => F * y0 i) Q.toNNReal) :=
            lintegral_stdNormal (hQ t List.mem_cons_self) (fun i => F * y0 i) hm3
        _ = _ := by simp only [hnorm]; rfl

/-- **C64, the image experiments.**  Whatever the score network, `conditional_sampler` draws the end of the chain that
starts from the standard normal law and, in each step, draws a fresh noised copy of the observation and moves the
unobserved pixels by one Euler-Maruyama step of the reverse process given that copy. -/
theorem C64_img (hsc : ∀ t, Measurable fun z => score z t)
    (hdt : 0 ≤ dt) (ts : Arr1 ℝ) (hQ : ∀ t ∈ ts.init, 0 ≤ (Linear.discretise sde (T - t) t0).2) (key : Key)
    {h : (ι → ℝ) → ℝ≥0∞} (hh : Measurable h) :
    (imgConditional e sde t0 T dt score ts key y0).E h =
      ∫⁻ u, csgmInt e sde t0 T dt score y0 h ts.init u ∂(Measure.pi fun _ => gaussianReal 0 1) := by
  have hsde : ∀ t, Measurable fun x => Linear.drift sde x t := by
    intro t
    have : (fun x : ℝ => Linear.drift sde x t) = fun x => Linear.drift sde 1 t * x := funext fun x => drift_eq _ _ _
    rw [this]
    exact measurable_const_mul _
  have hl : ts.init.length = ts.2.length := by simp [Arr1.init]
  simp only [imgConditional, imgEuler, Rand.E_bind, normal, Rand.E_sample, normalRows, Rand.E_map, Rand.pure_eq, Rand.E_ret]
  refine lintegral_congr fun u => ?_
  rw [← hl]
  exact (imgScan_law e y0 hsde hsc hdt hh ts.init _ (by simp [splitAll]) hQ).2 u

/-- One observed and one unobserved pixel, two steps, with the score of the standard normal law. -/
example (y : Fin 1 → ℝ) (key : Key) {h : (Fin 1 → ℝ) → ℝ≥0∞} (hh : Measurable h) :
    (imgConditional (Equiv.refl (Fin 1 ⊕ Fin 1)) (.const (-1 / 2) 1) 0 1 (1 / 2) (fun z _ => -z) (0, [1 / 2, 1]) key y).E h =
      ∫⁻ u, csgmInt (Equiv.refl (Fin 1 ⊕ Fin 1)) (.const (-1 / 2) 1) 0 1 (1 / 2) (fun z _ => -z) y h [0, 1 / 2] u
        ∂(Measure.pi fun _ => gaussianReal 0 1) := by
  refine C64_img (Equiv.refl _) y (fun _ => measurable_neg) (by norm_num) (0, [1 / 2, 1]) ?_ key hh
  intro t ht
  refine (C29_bounds (sde := .const (-1 / 2) 1) (t := 1 - t) (s := 0) ⟨by norm_num, by norm_num⟩
    ⟨by norm_num, by norm_num⟩ ?_).2.1.le
  simp [Arr1.init] at ht
  rcases ht with rfl | rfl <;> norm_num

end Images

end Props
end Fbs
