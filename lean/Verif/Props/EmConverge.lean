import Verif.Lemmas.EmGauss
import Verif.Lemmas.MatDeriv
import Verif.Props.Csgm
import Verif.Props.SbReverse
import Mathlib.Topology.Instances.Matrix

/-!
# C86: the Euler-Maruyama discretisation converges

With `nsteps` steps of `jnp.linspace(0, T, nsteps + 1)` the final state of `euler_maruyama`, for drifts that are affine in
the state, converges in law as `nsteps` grows, and the limit is the law of the differential equation.
-/

open MeasureTheory ProbabilityTheory Matrix Filter Set Topology
open scoped ENNReal NNReal BoundedContinuousFunction

namespace Fbs
namespace Props

open Jax Simulators Spec Mvn Gp

section General

variable {n : Type} [Fintype n] [DecidableEq n]

/-- **C86, the law of the discretised process.**  If the drift is affine at the times of the grid and the start is normal,
then the final state of `euler_maruyama` is normal; mean and covariance follow the discrete moment equations. -/
theorem C86_law {drift : (n → ℝ) → ℝ → (n → ℝ)} (disp : ℝ → ℝ) {T : ℝ} (hT : 0 ≤ T) {N : ℕ} (A : ℝ → Matrix n n ℝ)
    (hd : ∀ k < N, ∃ c, ∀ z, drift z (k * (T / N)) = A (k * (T / N)) *ᵥ z + c) (m0 : n → ℝ) {P0 : Matrix n n ℝ}
    (hP : P0.PosSemidef) (key : Key) {ts : Arr1 ℝ} (hts : ts.toList = linspace 0 T (N + 1)) {f : (n → ℝ) → ℝ≥0∞}
    (hf : Measurable f) :
    ∫⁻ x0, (eulerLast key x0 ts drift disp 1).E f ∂(mvn m0 P0) =
      ∫⁻ x, f x ∂(mvn (emMean drift (T / N) m0 N) (emCov A disp (T / N) P0 N)) := by
  simp only [E_eulerLast, linspace_intervals hts]
  exact emE_range_mvn disp (by positivity) A m0 hP N hd hf

/-- **C86, convergence.**  Let `m` and `P` solve the moment equations of the differential equation with drift
`z ↦ A z + c` and dispersion `disp`, from a normal start.  Then `P T` is a covariance matrix, and the law of the final
state of `euler_maruyama` with `N` steps converges weakly to the normal law with moments `m T` and `P T`. -/
theorem C86_converges {drift : (n → ℝ) → ℝ → (n → ℝ)} {disp : ℝ → ℝ} {T : ℝ} (hT : 0 ≤ T) {m : ℝ → n → ℝ}
    {P : ℝ → Matrix n n ℝ}
    (hode : ∀ t ∈ Icc 0 T, ∃ (A : Matrix n n ℝ) (c : n → ℝ), (∀ z, drift z t = A *ᵥ z + c) ∧
      (∀ i, HasDerivAt (fun t => m t i) ((A *ᵥ m t + c) i) t) ∧
      ∀ i j, HasDerivAt (fun t => P t i j) ((A * P t + P t * Aᵀ + disp t ^ 2 • (1 : Matrix n n ℝ)) i j) t)
    (hdc : ∀ z i, ContinuousOn (fun t => drift z t i) (Icc 0 T)) (hg : ContinuousOn disp (Icc 0 T))
    (hP0 : (P 0).PosSemidef) (key : ℕ → Key) {ts : ℕ → Arr1 ℝ}
    (hts : ∀ N, (ts N).toList = linspace 0 T (N + 1)) :
    (P T).PosSemidef ∧ ∀ f : (n → ℝ) →ᵇ ℝ≥0,
      Tendsto (fun N => ∫⁻ x0, (eulerLast (key N) x0 (ts N) drift disp 1).E (fun x => f x) ∂(mvn (m 0) (P 0))) atTop
        (𝓝 (∫⁻ x, f x ∂(mvn (m T) (P T)))) := by
  have hd : ∀ t ∈ Icc 0 T, ∀ z, drift z t = linPart drift t *ᵥ z + drift 0 t := by
    intro t ht z
    obtain ⟨A, c, h, -⟩ := hode t ht
    rw [linPart_eq h, h, h]
    simp
  have hm : ∀ t ∈ Icc 0 T, ∀ i, HasDerivAt (fun t => m t i) ((linPart drift t *ᵥ m t + drift 0 t) i) t := by
    intro t ht i
    obtain ⟨A, c, h, h2, -⟩ := hode t ht
    rw [← hd t ht, h]
    exact h2 i
  have hP : ∀ t ∈ Icc 0 T, ∀ i j, HasDerivAt (fun t => P t i j)
      ((linPart drift t * P t + P t * (linPart drift t)ᵀ + disp t ^ 2 • (1 : Matrix n n ℝ)) i j) t := by
    intro t ht i j
    obtain ⟨A, c, h, -, h2⟩ := hode t ht
    rw [linPart_eq h]
    exact h2 i j
  have hA : ∀ i j, ContinuousOn (fun t => linPart drift t i j) (Icc 0 T) := fun i j => (hdc _ i).sub (hdc _ i)
  have hA' : ContinuousOn (fun t => (fun i j => linPart drift t i j : n → n → ℝ)) (Icc 0 T) :=
    continuousOn_pi.2 fun i => continuousOn_pi.2 fun j => hA i j
  obtain ⟨a, ha⟩ := isCompact_Icc.exists_bound_of_continuousOn hA'
  have ha0 : 0 ≤ a := (norm_nonneg _).trans (ha 0 ⟨le_rfl, hT⟩)
  have hae : ∀ t ∈ Icc 0 T, ∀ i j, |linPart drift t i j| ≤ a := fun t ht i j =>
    ((norm_le_pi_norm ((fun i j => linPart drift t i j : n → n → ℝ) i) j).trans
      (norm_le_pi_norm (fun i j => linPart drift t i j : n → n → ℝ) i)).trans (ha t ht)
  have t1 := emMean_tendsto hT hd hae ha0 hm hA (hdc 0)
  have t2 := emCov_tendsto hT hae ha0 hP hA hg
  have hps : ∀ N : ℕ, (emCov (linPart drift) disp (T / N) (P 0) N).PosSemidef := fun N =>
    emCov_posSemidef _ _ (by positivity) hP0 N
  have hPT := posSemidef_of_tendsto hps t2
  refine ⟨hPT, fun f => (mvn_tendsto hps hPT t1 t2 f).congr fun N => (C86_law disp hT (linPart drift) ?_ (m 0) hP0 (key N)
    (hts N) ?_).symm⟩
  · intro k hk
    exact ⟨_, hd _ (grid_mem hT (by omega) hk)⟩
  · exact (f.continuous.measurable).coe_nnreal_ennreal

theorem inv_continuousOn {s : Set ℝ} {P : ℝ → Matrix n n ℝ} (hP : ∀ i j, ContinuousOn (fun t => P t i j) s)
    (hd : ∀ t ∈ s, (P t).det ≠ 0) (i j : n) : ContinuousOn (fun t => (P t)⁻¹ i j) s := by
  rw [continuousOn_iff_continuous_domRestrict]
  have h1 : Continuous fun t : s => P t := continuous_matrix fun i j =>
    continuousOn_iff_continuous_domRestrict.1 (hP i j)
  have h2 : Continuous fun t : s => ((P t).det)⁻¹ • (P t).adjugate :=
    (h1.matrix_det.inv₀ fun t => hd t t.2).smul h1.matrix_adjugate
  refine (h2.matrix_elem i j).congr fun t => ?_
  rw [Set.domRestrict_apply, Matrix.inv_def, Ring.inverse_eq_inv']

theorem mvn_zero_cov (m : n → ℝ) : mvn m 0 = Measure.dirac m := by
  have h := stdNormal_affine m (0 : Matrix n n ℝ)
  simp only [zero_mulVec, add_zero, transpose_zero, Matrix.mul_zero] at h
  rw [← h, Measure.map_const, measure_univ, one_smul]

end General

/-! ### The noising process -/

theorem continuous_sdeDrift (sde : Linear.SDE) (x : ℝ) : Continuous fun t => Linear.drift sde x t := by
  cases sde <;> simp only [Linear.drift, Linear.beta] <;> fun_prop

theorem continuous_sdeDisp (sde : Linear.SDE) : Continuous fun t => Linear.dispersion sde t := by
  cases sde <;> simp only [Linear.dispersion, Linear.beta] <;> fun_prop

/-- **C86, the noising process.**  `euler_maruyama` on the coefficients of a `LinearSDE` converges in law to the exact
transition that `discretise_linear_sde` computes. -/
theorem C86_forward {n : Type} [Fintype n] [DecidableEq n] {sde : Linear.SDE} (hsde : Defined sde) {T : ℝ} (hT : 0 ≤ T)
    (hr : ∀ t ∈ Icc 0 T, RealDisp sde t) (x0 : n → ℝ) (key : ℕ → Key) {ts : ℕ → Arr1 ℝ}
    (hts : ∀ N, (ts N).toList = linspace 0 T (N + 1)) (f : (n → ℝ) →ᵇ ℝ≥0) :
    Tendsto (fun N => (eulerLast (key N) x0 (ts N) (fun x t i => Linear.drift sde (x i) t) (Linear.dispersion sde) 1).E
      (fun x => f x)) atTop (𝓝 (∫⁻ x, f x ∂(transLaw sde T 0 x0))) := by
  have h := C86_converges (n := n) (drift := fun x t i => Linear.drift sde (x i) t) (disp := Linear.dispersion sde) hT
    (m := fun t i => (Linear.discretise sde t 0).1 * x0 i) (P := fun t => (Linear.discretise sde t 0).2 • 1)
    (fun t ht => ⟨Linear.drift sde 1 t • 1, 0, fun z => ?_, fun i => ?_, fun i j => ?_⟩)
    (fun z i => (continuous_sdeDrift sde (z i)).continuousOn) (continuous_sdeDisp sde).continuousOn ?_ key hts
  · have h0 := C26_flow hsde 0 0 0
    have h2 := h.2 f
    simp only [h0.1, one_mul, zero_smul, mvn_zero_cov] at h2
    simp only [lintegral_dirac] at h2
    have e : transLaw sde T 0 x0 = mvn (fun i => (Linear.discretise sde T 0).1 * x0 i) ((Linear.discretise sde T 0).2 • 1) := by
      have h3 : transLaw sde T 0 x0 = gaussProd (fun i => (Linear.discretise sde T 0).1 * x0 i)
        (Linear.discretise sde T 0).2.toNNReal := rfl
      rw [h3, gaussProd_eq_mvn]
      congr 1
      rcases isEmpty_or_nonempty n with hn | ⟨⟨i⟩⟩
      · exact Subsingleton.elim _ _
      · have := h.1.diag_nonneg (i := i)
        rw [Real.coe_toNNReal _ (by simpa using this)]
    rw [e]
    exact h2
  · funext i
    simp [smul_mulVec, drift_eq sde (z i)]
  · refine ((C27_ode hsde t 0).1.mul_const (x0 i)).congr_deriv ?_
    rw [drift_eq]
    simp [smul_mulVec, mul_assoc]
  · refine (((C27_ode hsde t 0).2 (hr t ht)).mul_const ((1 : Matrix n n ℝ) i j)).congr_deriv ?_
    rw [drift_eq]
    simp
    ring
  · rw [(C26_flow hsde 0 0 0).1, zero_smul]
    exact PosSemidef.zero

/-! ### The reverse processes of the Gaussian process experiments -/

theorem mderiv_fun_smul {k l : Type} {f : ℝ → ℝ} {f' t : ℝ} (hf : HasDerivAt f f' t) {X : ℝ → Matrix k l ℝ}
    {X' : Matrix k l ℝ} (hX : MDeriv X X' t) : MDeriv (fun t => f t • X t) (f' • X t + f t • X') t :=
  fun i j => hf.mul (hX i j)

section Reverse

variable {q : ℕ} {cho : Matrix (Fin q) (Fin q) ℝ → Matrix (Fin q) (Fin q) ℝ} {sde : Linear.SDE}

theorem reverse_affine (hc : IsChol cho) {t0 T t : ℝ} (hQ : 0 ≤ (Linear.discretise sde (T - t) t0).2) (m : Fin q → ℝ)
    {C : Matrix (Fin q) (Fin q) ℝ} (hC : C.PosDef) (z : Fin q → ℝ) :
    Gp.reverseDrift cho sde t0 T m C z t =
      (-Linear.drift sde 1 (T - t) • 1 - Linear.dispersion sde (T - t) ^ 2 • ((forwardMCov sde t0 m C (T - t)).2)⁻¹) *ᵥ z +
        Linear.dispersion sde (T - t) ^ 2 •
          (((forwardMCov sde t0 m C (T - t)).2)⁻¹ *ᵥ (forwardMCov sde t0 m C (T - t)).1) := by
  have hP := forwardCov_posDef hQ m hC
  funext i
  simp only [Gp.reverseDrift, score]
  rw [choSolveVec_eq hc hP, mulVec_sub, sub_mulVec, drift_eq]
  simp only [Pi.neg_apply, Pi.add_apply, Pi.sub_apply, neg_smul, neg_mulVec, smul_mulVec, one_mulVec, Pi.smul_apply,
    smul_eq_mul]
  ring

/-- The matrix that carries a deviation at the start of the reverse process to its end. -/
noncomputable def revGain (sde : Linear.SDE) (T : ℝ) (m : Fin q → ℝ) (C : Matrix (Fin q) (Fin q) ℝ) (t : ℝ) :
    Matrix (Fin q) (Fin q) ℝ :=
  ((Linear.discretise sde T 0).1 * ((Linear.discretise sde (T - t) 0).1)⁻¹) •
    ((forwardMCov sde 0 m C (T - t)).2 * ((forwardMCov sde 0 m C T).2)⁻¹)

/-- **C86, the reverse process with the exact score.**  Started from any normal law `N(μ, S)`, the reverse process of the
experiments converges, as the number of steps grows, to the data law `N(m, C)` up to an explicit correction: the deviation
of the start from the noised law at `T` is multiplied by `F(T) C P(T)⁻¹`. -/
theorem C86_reverse (hc : IsChol cho) (hsde : Defined sde) {T : ℝ} (hT : 0 ≤ T) (hr : ∀ s ∈ Icc 0 T, RealDisp sde s)
    (hQ : ∀ s ∈ Icc 0 T, 0 ≤ (Linear.discretise sde s 0).2) (m : Fin q → ℝ) {C : Matrix (Fin q) (Fin q) ℝ} (hC : C.PosDef)
    (μ : Fin q → ℝ) {S : Matrix (Fin q) (Fin q) ℝ} (hS : S.PosSemidef) (key : ℕ → Key) {ts : ℕ → Arr1 ℝ}
    (hts : ∀ N, (ts N).toList = linspace 0 T (N + 1)) :
    (C + ((Linear.discretise sde T 0).1 • (C * ((forwardMCov sde 0 m C T).2)⁻¹)) * (S - (forwardMCov sde 0 m C T).2) *
          ((Linear.discretise sde T 0).1 • (C * ((forwardMCov sde 0 m C T).2)⁻¹))ᵀ).PosSemidef ∧ ∀ f : (Fin q → ℝ) →ᵇ ℝ≥0, Tendsto (fun N => ∫⁻ x0, (eulerLast (key N) x0 (ts N) (Gp.reverseDrift cho sde 0 T m C)
        (Gp.reverseDispersion sde T) 1).E (fun x => f x) ∂(mvn μ S)) atTop
      (𝓝 (∫⁻ x, f x ∂(mvn
        (m + ((Linear.discretise sde T 0).1 • (C * ((forwardMCov sde 0 m C T).2)⁻¹)) *ᵥ (μ - (forwardMCov sde 0 m C T).1))
        (C + ((Linear.discretise sde T 0).1 • (C * ((forwardMCov sde 0 m C T).2)⁻¹)) * (S - (forwardMCov sde 0 m C T).2) *
          ((Linear.discretise sde T 0).1 • (C * ((forwardMCov sde 0 m C T).2)⁻¹))ᵀ)))) := by
  have hmem : ∀ t ∈ Icc 0 T, T - t ∈ Icc 0 T := fun t ht => ⟨by linarith [ht.2], by linarith [ht.1]⟩
  have hPT := forwardCov_posDef (hQ T ⟨hT, le_rfl⟩) m hC
  have hPTu : IsUnit (forwardMCov sde 0 m C T).2.det := hPT.det_pos.ne'.isUnit
  have hFT := (discretise_fst_pos sde T 0).ne'
  have g0 : revGain sde T m C 0 = 1 := by
    rw [revGain, sub_zero, mul_inv_cancel₀ hFT, mul_nonsing_inv _ hPTu, one_smul]
  have f0 : forwardMCov sde 0 m C 0 = (m, C) := by
    simp only [forwardMCov, (C26_flow hsde 0 0 0).1]
    simp
  have gT : revGain sde T m C T = (Linear.discretise sde T 0).1 • (C * ((forwardMCov sde 0 m C T).2)⁻¹) := by
    rw [revGain, sub_self, f0, (C26_flow hsde 0 0 0).1, inv_one, mul_one]
  have key1 : ∀ t ∈ Icc 0 T,
      MDeriv (fun t => (forwardMCov sde 0 m C (T - t)).2)
        ((-Linear.drift sde 1 (T - t) • 1 - Linear.dispersion sde (T - t) ^ 2 • ((forwardMCov sde 0 m C (T - t)).2)⁻¹) *
            (forwardMCov sde 0 m C (T - t)).2 + (forwardMCov sde 0 m C (T - t)).2 *
          (-Linear.drift sde 1 (T - t) • 1 - Linear.dispersion sde (T - t) ^ 2 • ((forwardMCov sde 0 m C (T - t)).2)⁻¹)ᵀ +
          Gp.reverseDispersion sde T t ^ 2 • 1) t ∧
      ∀ i, HasDerivAt (fun t => (forwardMCov sde 0 m C (T - t)).1 i)
        (((-Linear.drift sde 1 (T - t) • 1 - Linear.dispersion sde (T - t) ^ 2 • ((forwardMCov sde 0 m C (T - t)).2)⁻¹) *ᵥ
          (forwardMCov sde 0 m C (T - t)).1 + Linear.dispersion sde (T - t) ^ 2 •
          (((forwardMCov sde 0 m C (T - t)).2)⁻¹ *ᵥ (forwardMCov sde 0 m C (T - t)).1) : Fin q → ℝ) i) t := by
    intro t ht
    obtain ⟨A, c, h1, h2, h3⟩ := C61_reverse hc hsde (hr _ (hmem t ht)) (hQ _ (hmem t ht)) m hC
    have h4 := reverse_affine (sde := sde) hc (hQ _ (hmem t ht)) m hC
    have eA : A = _ := (linPart_eq h1).symm.trans (linPart_eq h4)
    refine ⟨fun i j => ?_, fun i => ?_⟩
    · rw [← eA]; exact h3 i j
    · rw [← h4, h1]; exact h2 i
  have key2 : ∀ t ∈ Icc 0 T, MDeriv (revGain sde T m C)
      ((-Linear.drift sde 1 (T - t) • 1 - Linear.dispersion sde (T - t) ^ 2 • ((forwardMCov sde 0 m C (T - t)).2)⁻¹) *
        revGain sde T m C t) t := by
    intro t ht
    have hP := forwardCov_posDef (hQ _ (hmem t ht)) m hC
    have hPu : IsUnit (forwardMCov sde 0 m C (T - t)).2.det := hP.det_pos.ne'.isUnit
    have hPt : ((forwardMCov sde 0 m C (T - t)).2)ᵀ = (forwardMCov sde 0 m C (T - t)).2 := by simpa using hP.1.eq
    have hsub : HasDerivAt (fun t => T - t) (-1) t := by simpa using (hasDerivAt_id t).const_sub T
    have hF0 := (discretise_fst_pos sde (T - t) 0).ne'
    have hF := ((C27_ode hsde (T - t) 0).1.comp t hsub)
    rw [drift_eq] at hF
    have hψ := (hF.inv hF0).const_mul (Linear.discretise sde T 0).1
    have h1 := mderiv_fun_smul hψ (MatDeriv.mul_const (key1 t ht).1 ((forwardMCov sde 0 m C T).2)⁻¹)
    refine MatDeriv.congr h1 ?_
    set P := (forwardMCov sde 0 m C (T - t)).2 with hPdef
    set a := Linear.drift sde 1 (T - t) with ha
    set g2 := Linear.dispersion sde (T - t) ^ 2 with hg2
    have hg2' : Gp.reverseDispersion sde T t ^ 2 = g2 := rfl
    have e1 : (-a • (1 : Matrix (Fin q) (Fin q) ℝ) - g2 • P⁻¹) * P = -a • P - g2 • 1 := by
      rw [sub_mul, smul_mul_assoc, smul_mul_assoc, one_mul, nonsing_inv_mul _ hPu]
    have e2 : P * (-a • (1 : Matrix (Fin q) (Fin q) ℝ) - g2 • P⁻¹)ᵀ = -a • P - g2 • 1 := by
      rw [transpose_sub, transpose_smul, transpose_smul, transpose_one, transpose_nonsing_inv, hPt, mul_sub, mul_smul_comm,
        mul_smul_comm, mul_one, mul_nonsing_inv _ hPu]
    rw [e1, e2, hg2', revGain, ← hPdef, mul_smul_comm, ← Matrix.mul_assoc, e1]
    simp only [Function.comp_apply, Pi.inv_apply]
    have e3 : -(a * (Linear.discretise sde (T - t) 0).1 * -1) / (Linear.discretise sde (T - t) 0).1 ^ 2 =
        a * ((Linear.discretise sde (T - t) 0).1)⁻¹ := by field_simp
    rw [e3]
    simp only [add_mul, sub_mul, smul_mul_assoc, one_mul]
    module
  have h := C86_converges (drift := Gp.reverseDrift cho sde 0 T m C) (disp := Gp.reverseDispersion sde T) hT
    (m := fun t => (forwardMCov sde 0 m C (T - t)).1 + revGain sde T m C t *ᵥ (μ - (forwardMCov sde 0 m C T).1))
    (P := fun t => (forwardMCov sde 0 m C (T - t)).2 +
      revGain sde T m C t * (S - (forwardMCov sde 0 m C T).2) * (revGain sde T m C t)ᵀ)
    (fun t ht => ⟨_, _, reverse_affine hc (hQ _ (hmem t ht)) m hC, fun i => ?_, fun i j => ?_⟩) ?_ ?_ ?_ key hts
  · simp only [sub_zero, sub_self, g0, gT, f0, one_mulVec, Matrix.one_mul, transpose_one, Matrix.mul_one,
      add_sub_cancel] at h
    exact h
  · have d1 := (key1 t ht).2 i
    have d2 := HasDerivAt.fun_sum (u := Finset.univ) fun k _ =>
      (key2 t ht i k).mul_const ((μ - (forwardMCov sde 0 m C T).1) k)
    refine (d1.add d2).congr_deriv ?_
    rw [mulVec_add, mulVec_mulVec]
    simp only [Pi.add_apply]
    have : ∀ (X : Matrix (Fin q) (Fin q) ℝ) (v : Fin q → ℝ), ∑ k, X i k * v k = (X *ᵥ v) i := fun _ _ => rfl
    rw [this]
    ring
  · have d1 := (key1 t ht).1
    have d2 := MatDeriv.mul (MatDeriv.mul_const (key2 t ht) (S - (forwardMCov sde 0 m C T).2))
      (MatDeriv.transpose (key2 t ht))
    refine MatDeriv.congr (MatDeriv.add d1 d2) ?_ i j
    rw [transpose_mul, Matrix.mul_add, Matrix.add_mul]
    simp only [Matrix.mul_assoc]
    abel
  · intro z i
    have hcP : ∀ i j, ContinuousOn (fun t => (forwardMCov sde 0 m C (T - t)).2 i j) (Icc 0 T) := fun i j t ht =>
      ((key1 t ht).1 i j).continuousAt.continuousWithinAt
    have hcm : ∀ i, ContinuousOn (fun t => (forwardMCov sde 0 m C (T - t)).1 i) (Icc 0 T) := fun i t ht =>
      ((key1 t ht).2 i).continuousAt.continuousWithinAt
    have hci := inv_continuousOn hcP fun t ht => (forwardCov_posDef (hQ _ (hmem t ht)) m hC).det_pos.ne'
    have hcd : ContinuousOn (fun t => Linear.drift sde 1 (T - t)) (Icc 0 T) :=
      ((continuous_sdeDrift sde 1).comp (continuous_const.sub continuous_id)).continuousOn
    have hcg : ContinuousOn (fun t => Linear.dispersion sde (T - t) ^ 2) (Icc 0 T) :=
      (((continuous_sdeDisp sde).comp (continuous_const.sub continuous_id)).pow 2).continuousOn
    refine ContinuousOn.congr ?_ fun t ht => congrFun (reverse_affine hc (hQ _ (hmem t ht)) m hC z) i
    simp only [Pi.add_apply, Pi.smul_apply, smul_eq_mul, mulVec, dotProduct, Matrix.sub_apply, Matrix.smul_apply]
    exact (continuousOn_finsetSum _ fun k _ => ((hcd.neg.mul continuousOn_const).sub (hcg.mul (hci i k))).mul
      continuousOn_const).add (hcg.mul (continuousOn_finsetSum _ fun k _ => (hci i k).mul (hcm k)))
  · exact ((continuous_sdeDisp sde).comp (continuous_const.sub continuous_id)).continuousOn
  · simpa [g0] using hS

/-- **C86, sampling the data law.**  Started from the noised law at `T`, the reverse process with the exact score converges
in law to the data law. -/
theorem C86_reverse_exact (hc : IsChol cho) (hsde : Defined sde) {T : ℝ} (hT : 0 ≤ T)
    (hr : ∀ s ∈ Icc 0 T, RealDisp sde s) (hQ : ∀ s ∈ Icc 0 T, 0 ≤ (Linear.discretise sde s 0).2) (m : Fin q → ℝ)
    {C : Matrix (Fin q) (Fin q) ℝ} (hC : C.PosDef) (key : ℕ → Key) {ts : ℕ → Arr1 ℝ}
    (hts : ∀ N, (ts N).toList = linspace 0 T (N + 1)) (f : (Fin q → ℝ) →ᵇ ℝ≥0) :
    Tendsto (fun N => ∫⁻ x0, (eulerLast (key N) x0 (ts N) (Gp.reverseDrift cho sde 0 T m C)
        (Gp.reverseDispersion sde T) 1).E (fun x => f x)
        ∂(mvn (forwardMCov sde 0 m C T).1 (forwardMCov sde 0 m C T).2)) atTop (𝓝 (∫⁻ x, f x ∂(mvn m C))) := by
  have h := (C86_reverse hc hsde hT hr hQ m hC (forwardMCov sde 0 m C T).1
    (forwardCov_posDef (hQ T ⟨hT, le_rfl⟩) m hC).posSemidef key hts).2 f
  simpa using h

/-- **C86, the conditional sampler of `gp_csgm.py`.**  As the number of steps grows, `conditional_sampler` converges in law
to the normal law with the exact posterior mean; its covariance is the posterior covariance `G` plus the explicit excess
`F(T)² (G² - G P⁻¹ G)` with `P = cond_cov_ref`. -/
theorem C86_csgm {cholesky : Matrix (Fin q) (Fin q) ℝ → Matrix (Fin q) (Fin q) ℝ} (hc : IsChol cho) (hL : IsCholesky cholesky)
    {K : Matrix (Fin q) (Fin q) ℝ} (hK : K.PosDef) {s : ℝ} (hs : 0 < s) (hsde : Defined sde) {T : ℝ} (hT : 0 ≤ T)
    (hr : ∀ s ∈ Icc 0 T, RealDisp sde s) (hQ : ∀ s ∈ Icc 0 T, 0 ≤ (Linear.discretise sde s 0).2) (m y0 : Fin q → ℝ)
    (key : ℕ → Key) {ts : ℕ → Arr1 ℝ} (hts : ∀ N, (ts N).toList = linspace 0 T (N + 1)) :
    (gpCov cho K s + (Linear.discretise sde T 0).1 ^ 2 •
        (gpCov cho K s * gpCov cho K s -
          gpCov cho K s * (Csgm.condCovRef cho sde 0 T K s)⁻¹ * gpCov cho K s)).PosSemidef ∧ ∀ f : (Fin q → ℝ) →ᵇ ℝ≥0,
    Tendsto (fun N => (Csgm.conditionalSampler cho cholesky sde 0 T m K s y0 (ts N) (key N)).E (fun x => f x)) atTop
      (𝓝 (∫⁻ x, f x ∂(mvn (m + gpMean cho K s (y0 - m)) (gpCov cho K s + (Linear.discretise sde T 0).1 ^ 2 •
        (gpCov cho K s * gpCov cho K s -
          gpCov cho K s * (Csgm.condCovRef cho sde 0 T K s)⁻¹ * gpCov cho K s))))) := by
  have hKs : (K + s • 1).PosDef := hK.add (PosDef.one.smul hs)
  set G := gpCov cho K s with hG
  have hGP : G.PosDef := gpCov_posDef hc hK hs
  set M := m + gpMean cho K s (y0 - m) with hM
  have r1 : (forwardMCov sde 0 M G T).1 = Csgm.condMRef cho sde 0 T m K s y0 := by
    simp only [forwardMCov, Csgm.condMRef, hM, gpMean, smul_add, smul_mulVec]
  have r2 : (forwardMCov sde 0 M G T).2 = Csgm.condCovRef cho sde 0 T K s := by
    simp only [forwardMCov, Csgm.condCovRef, hG, gpCov, choSolve_eq hc hKs, Matrix.mul_smul, Matrix.smul_mul, smul_smul,
      smul_sub, ← sq]
    abel
  have hPT := forwardCov_posDef (hQ T ⟨hT, le_rfl⟩) M hGP
  rw [r2] at hPT
  set P := Csgm.condCovRef cho sde 0 T K s with hP
  have hPu : IsUnit P.det := hPT.det_pos.ne'.isUnit
  have hPt : Pᵀ = P := by simpa using hPT.1.eq
  have hGt : Gᵀ = G := by simpa using hGP.1.eq
  have hS : (P * Pᵀ).PosSemidef := by simpa using posSemidef_self_mul_conjTranspose P
  have h := C86_reverse hc hsde hT hr hQ M hGP (Csgm.condMRef cho sde 0 T m K s y0) hS (fun _ => []) hts
  rw [r1, r2, sub_self, mulVec_zero, add_zero] at h
  have e : ((Linear.discretise sde T 0).1 • (G * P⁻¹)) * (P * Pᵀ - P) * ((Linear.discretise sde T 0).1 • (G * P⁻¹))ᵀ =
      (Linear.discretise sde T 0).1 ^ 2 • (G * G - G * P⁻¹ * G) := by
    rw [transpose_smul, transpose_mul, transpose_nonsing_inv, hPt, hGt, smul_mul_assoc, smul_mul_assoc, mul_smul_comm,
      smul_smul, ← sq]
    congr 1
    have e1 : P⁻¹ * (P * P - P) * P⁻¹ = 1 - P⁻¹ := by
      rw [mul_sub, ← Matrix.mul_assoc, nonsing_inv_mul _ hPu, one_mul, sub_mul, mul_nonsing_inv _ hPu, one_mul]
    calc G * P⁻¹ * (P * P - P) * (P⁻¹ * G) = G * (P⁻¹ * (P * P - P) * P⁻¹) * G := by simp only [Matrix.mul_assoc]
      _ = _ := by rw [e1, mul_sub, mul_one, sub_mul]
  rw [e] at h
  refine ⟨h.1, fun f => (h.2 f).congr fun N => ?_⟩
  refine (C64_sampler hc hL hK hs (ts N) (fun t ht => hQ _ ?_) m y0 (key N) []
    f.continuous.measurable.coe_nnreal_ennreal).symm
  have h1 : t ∈ (ts N).toList := List.dropLast_subset _ ht
  rw [hts N] at h1
  simp only [linspace, List.mem_map, List.mem_range, Nat.add_sub_cancel, zero_add, sub_zero] at h1
  obtain ⟨i, hi, rfl⟩ := h1
  have h2 : (0 : ℝ) ≤ i * (T / N) := by positivity
  have h3 : (i : ℝ) * (T / N) ≤ T := by
    rcases Nat.eq_zero_or_pos N with rfl | hN
    · simpa using hT
    · have hN' : (0 : ℝ) < N := by exact_mod_cast hN
      rw [← mul_div_assoc, div_le_iff₀ hN', mul_comm]
      exact mul_le_mul_of_nonneg_left (by exact_mod_cast Nat.lt_succ_iff.1 hi) hT
  exact ⟨by linarith, by linarith⟩

/-- **C86, when `conditional_sampler` converges to the posterior.**  Only if `cond_cov_ref` is the identity. -/
theorem C86_csgm_exact_iff {cholesky : Matrix (Fin q) (Fin q) ℝ → Matrix (Fin q) (Fin q) ℝ} (hc : IsChol cho)
    (hL : IsCholesky cholesky) {K : Matrix (Fin q) (Fin q) ℝ} (hK : K.PosDef) {s : ℝ} (hs : 0 < s) (hsde : Defined sde)
    {T : ℝ} (hT : 0 ≤ T) (hr : ∀ s ∈ Icc 0 T, RealDisp sde s) (hQ : ∀ s ∈ Icc 0 T, 0 ≤ (Linear.discretise sde s 0).2)
    (m y0 : Fin q → ℝ) (key : ℕ → Key) {ts : ℕ → Arr1 ℝ} (hts : ∀ N, (ts N).toList = linspace 0 T (N + 1)) :
    (∀ f : (Fin q → ℝ) →ᵇ ℝ≥0,
      Tendsto (fun N => (Csgm.conditionalSampler cho cholesky sde 0 T m K s y0 (ts N) (key N)).E (fun x => f x)) atTop
        (𝓝 (∫⁻ x, f x ∂(mvn (m + gpMean cho K s (y0 - m)) (gpCov cho K s))))) ↔
      Csgm.condCovRef cho sde 0 T K s = 1 := by
  obtain ⟨hlim, hconv⟩ := C86_csgm hc hL hK hs hsde hT hr hQ m y0 key hts
  have hKs : (K + s • 1).PosDef := hK.add (PosDef.one.smul hs)
  have hGP : (gpCov cho K s).PosDef := gpCov_posDef hc hK hs
  have r2 : (forwardMCov sde 0 m (gpCov cho K s) T).2 = Csgm.condCovRef cho sde 0 T K s := by
    simp only [forwardMCov, Csgm.condCovRef, gpCov, choSolve_eq hc hKs, Matrix.mul_smul, Matrix.smul_mul, smul_smul,
      smul_sub, ← sq]
    abel
  have hPT := forwardCov_posDef (hQ T ⟨hT, le_rfl⟩) m hGP
  rw [r2] at hPT
  set P := Csgm.condCovRef cho sde 0 T K s with hP
  set G := gpCov cho K s with hG
  have hPu : IsUnit P.det := hPT.det_pos.ne'.isUnit
  have hGu : IsUnit G.det := hGP.det_pos.ne'.isUnit
  constructor
  · intro hall
    have h := ext_of_forall_lintegral_eq_of_IsFiniteMeasure fun f => tendsto_nhds_unique (hconv f) (hall f)
    have h1 := (mvn_injective hlim hGP.posSemidef h).2
    have h2 : G * G - G * P⁻¹ * G = 0 :=
      (smul_eq_zero.1 (by simpa using h1)).resolve_left (pow_ne_zero 2 (discretise_fst_pos sde T 0).ne')
    have h3 : P⁻¹ = 1 := by
      have h4 : G⁻¹ * (G * P⁻¹ * G) * G⁻¹ = G⁻¹ * (G * G) * G⁻¹ := by rw [sub_eq_zero.1 h2]
      have h5 : ∀ X, G⁻¹ * (G * X * G) * G⁻¹ = X := fun X => by
        rw [Matrix.mul_assoc G X G, ← Matrix.mul_assoc G⁻¹, nonsing_inv_mul _ hGu, one_mul, Matrix.mul_assoc,
          mul_nonsing_inv _ hGu, mul_one]
      have h6 := h5 1
      rw [mul_one] at h6
      rw [h5, h6] at h4
      exact h4
    have := mul_nonsing_inv _ hPu
    rwa [h3, mul_one] at this
  · intro h f
    have := hconv f
    rw [h] at this
    simpa using this

/-- **C86, the experiment does not converge to the posterior.**  With unit prior variances and the constant coefficients of
the experiment, whatever the inputs, the length scale, the noise variance and the horizon, refining the time grid does not
remove the error of `conditional_sampler`. -/
theorem C86_csgm_biased [NeZero q] {cholesky : Matrix (Fin q) (Fin q) ℝ → Matrix (Fin q) (Fin q) ℝ} (hc : IsChol cho)
    (hL : IsCholesky cholesky) {ell : ℝ} (hell : 0 < ell) {zs : Fin q → ℝ} (hz : StrictMono zs) {s T : ℝ} (hs : 0 < s)
    (hT : 0 ≤ T) (y0 : Fin q → ℝ) (key : ℕ → Key) {ts : ℕ → Arr1 ℝ}
    (hts : ∀ N, (ts N).toList = linspace 0 T (N + 1)) :
    ∃ f : (Fin q → ℝ) →ᵇ ℝ≥0, ¬ Tendsto (fun N => (Csgm.conditionalSampler cho cholesky (.const (-1 / 2) 1) 0 T 0
        (covFn 1 ell zs zs) s y0 (ts N) (key N)).E (fun x => f x)) atTop
      (𝓝 (∫⁻ x, f x ∂(mvn (0 + gpMean cho (covFn 1 ell zs zs) s (y0 - 0)) (gpCov cho (covFn 1 ell zs zs) s)))) := by
  have hK := C60_kernel_posDef one_ne_zero hell hz (sigma := 1)
  have hQ : ∀ t, 0 ≤ t → 0 ≤ (Linear.discretise (.const (-1 / 2) 1) t 0).2 := by
    intro t ht
    simp only [Linear.discretise]
    have : Real.exp (2 * (-1 / 2) * (t - 0)) ≤ 1 := Real.exp_le_one_iff.2 (by linarith)
    nlinarith
  by_contra hcon
  push Not at hcon
  have h1 := (C86_csgm_exact_iff hc hL hK hs (sde := .const (-1 / 2) 1)
    (show (-1 / 2 : ℝ) ≠ 0 by norm_num) hT (fun _ _ => trivial) (fun t ht => hQ t ht.1) 0 y0 key hts).1 hcon
  obtain ⟨f, hf, hne⟩ := C64_ref_biased hc hell hz hs hT y0 []
  refine hne ?_
  rw [h1]
  exact (C64_ref_exact_iff_partial _ PosDef.one []).2 rfl f hf

end Reverse

/-! ### The Gaussian Schrödinger bridge -/

/-- **C86, the Gaussian Schrödinger bridge.**  `euler_maruyama` on the drift of `make_gaussian_bw_sb` carries the first
marginal to the second one, in the limit of many steps. -/
theorem C86_bridge {n : Type} [Fintype n] [LinearOrder n] {eigh : Matrix n n ℝ → (n → ℝ) × Matrix n n ℝ}
    {cho : Matrix n n ℝ → Matrix n n ℝ} {mean0 mean1 : n → ℝ} {cov0 cov1 : Matrix n n ℝ} {sig : ℝ} (he : IsEigh eigh)
    (hc : IsChol cho) (h0 : cov0.PosDef) (h1 : cov1.PosDef) (key : ℕ → Key) {ts : ℕ → Arr1 ℝ}
    (hts : ∀ N, (ts N).toList = linspace 0 1 (N + 1)) (f : (n → ℝ) →ᵇ ℝ≥0) :
    Tendsto (fun N => ∫⁻ x0, (eulerLast (key N) x0 (ts N)
        (Utils.makeGaussianBwSb eigh cho mean0 cov0 mean1 cov1 sig).drift (fun _ => sig) 1).E (fun x => f x)
        ∂(mvn mean0 cov0)) atTop (𝓝 (∫⁻ x, f x ∂(mvn mean1 cov1))) := by
  have hpd : ∀ t ∈ Icc (0 : ℝ) 1, ((Utils.makeGaussianBwSb eigh cho mean0 cov0 mean1 cov1 sig).cov t).PosDef :=
    fun t ht => C36_cov_posDef he h0 h1 ht.1 ht.2
  obtain ⟨e1, e2, e3, e4⟩ := C36_marginals (eigh := eigh) (cho := cho) (mean0 := mean0) (mean1 := mean1) (cov0 := cov0)
    (cov1 := cov1) (sig := sig)
  have h := (C86_converges (drift := (Utils.makeGaussianBwSb eigh cho mean0 cov0 mean1 cov1 sig).drift)
    (disp := fun _ => sig) zero_le_one (m := (Utils.makeGaussianBwSb eigh cho mean0 cov0 mean1 cov1 sig).mean)
    (P := (Utils.makeGaussianBwSb eigh cho mean0 cov0 mean1 cov1 sig).cov) (fun t ht => ?_) ?_ continuousOn_const ?_ key
    hts).2 f
  · rwa [e1, e2, e3, e4] at h
  · obtain ⟨A, c, hA, hP⟩ := C36_cov_ode (cho := cho) (mean0 := mean0) (mean1 := mean1) (sig := sig) he hc h0 h1 ht.1 ht.2
    refine ⟨A, c, hA, fun i => ?_, hP⟩
    rw [← hA]
    exact C36_mean_ode t i
  · intro z i
    have hcP : ∀ i j, ContinuousOn (fun t => (Utils.makeGaussianBwSb eigh cho mean0 cov0 mean1 cov1 sig).cov t i j)
        (Icc 0 1) := by
      intro i j
      simp only [sb_cov_eq, Matrix.add_apply, Matrix.smul_apply, smul_eq_mul]
      fun_prop
    have hci := inv_continuousOn hcP fun t ht => (hpd t ht).det_pos.ne'
    have hcs : ∀ i j, ContinuousOn (fun t => (Utils.makeGaussianBwSb eigh cho mean0 cov0 mean1 cov1 sig).s t i j)
        (Icc 0 1) := by
      intro i j
      simp only [Utils.makeGaussianBwSb, Matrix.add_apply, Matrix.sub_apply, Matrix.smul_apply, smul_eq_mul,
        transpose_apply]
      fun_prop
    have hcm : ∀ i, ContinuousOn (fun t => (Utils.makeGaussianBwSb eigh cho mean0 cov0 mean1 cov1 sig).mean t i)
        (Icc 0 1) := by
      intro i
      simp only [Utils.makeGaussianBwSb, Pi.add_apply, Pi.smul_apply, smul_eq_mul]
      fun_prop
    have hdr : ∀ t ∈ Icc (0 : ℝ) 1, (Utils.makeGaussianBwSb eigh cho mean0 cov0 mean1 cov1 sig).drift z t i =
        (((Utils.makeGaussianBwSb eigh cho mean0 cov0 mean1 cov1 sig).s t)ᵀ *ᵥ
          (((Utils.makeGaussianBwSb eigh cho mean0 cov0 mean1 cov1 sig).cov t)⁻¹ *ᵥ
            (z - (Utils.makeGaussianBwSb eigh cho mean0 cov0 mean1 cov1 sig).mean t))) i - mean0 i + mean1 i := by
      intro t ht
      rw [← choSolveVec_eq hc (hpd t ht)]
      rfl
    refine ContinuousOn.congr ?_ hdr
    simp only [mulVec, dotProduct, transpose_apply, Pi.sub_apply]
    refine ((continuousOn_finsetSum _ fun k _ => (hcs k i).mul (continuousOn_finsetSum _ fun l _ =>
      (hci k l).mul (continuousOn_const.sub (hcm l)))).sub continuousOn_const).add continuousOn_const
  · rw [e3]; exact h0.posSemidef

/-! ### Examples -/

/-- The grids exist. -/
noncomputable def linGrid (T : ℝ) (N : ℕ) : Arr1 ℝ := (0, (List.range N).map fun i : ℕ => ((i + 1 : ℕ) : ℝ) * (T / N))

theorem linGrid_toList (T : ℝ) (N : ℕ) : (linGrid T N).toList = linspace 0 T (N + 1) := by
  unfold linspace Arr1.toList linGrid
  rw [List.range_succ_eq_map]
  simp only [List.map_cons, List.map_map, Nat.add_sub_cancel, sub_zero, zero_add]
  congr 1
  simp

/-- Two steps of a rotation with damping, from a degenerate start. -/
example (key : Key) (f : (Fin 2 → ℝ) → ℝ≥0∞) (hf : Measurable f) :
    ∫⁻ x0, (eulerLast key x0 (linGrid 1 2) (fun z _ => !![-1, 2; -2, -1] *ᵥ z + ![1, 0]) (fun t => t) 1).E f
        ∂(mvn ![3, 4] 0) =
      ∫⁻ x, f x ∂(mvn (emMean (fun z _ => !![-1, 2; -2, -1] *ᵥ z + ![1, 0]) (1 / (2 : ℕ)) ![3, 4] 2)
        (emCov (fun _ => !![-1, 2; -2, -1]) (fun t => t) (1 / (2 : ℕ)) 0 2)) :=
  C86_law (fun t => t) zero_le_one (fun _ => !![-1, 2; -2, -1]) (fun _ _ => ⟨![1, 0], fun _ => rfl⟩) ![3, 4]
    PosSemidef.zero key (linGrid_toList 1 2) hf

/-- The linear schedule of the image experiments. -/
example (x0 : Fin 3 → ℝ) (f : (Fin 3 → ℝ) →ᵇ ℝ≥0) :
    Tendsto (fun N => (eulerLast [] x0 (linGrid 2 N) (fun x t i => Linear.drift (.lin 0.02 5 0 2) (x i) t)
      (Linear.dispersion (.lin 0.02 5 0 2)) 1).E (fun x => f x)) atTop
      (𝓝 (∫⁻ x, f x ∂(transLaw (.lin 0.02 5 0 2) 2 0 x0))) :=
  C86_forward (sde := .lin 0.02 5 0 2) (show (0 : ℝ) ≠ 2 by norm_num) zero_le_two
    (fun t ht => by
      have := ht.1
      simp only [RealDisp, Linear.beta]
      norm_num
      linarith) x0 (fun _ => []) (linGrid_toList 2) f

theorem const_Q_nonneg {T : ℝ} : ∀ s ∈ Icc 0 T, 0 ≤ (Linear.discretise (.const (-1 / 2) 1) s 0).2 := by
  intro t ht
  simp only [Linear.discretise]
  have : Real.exp (2 * (-1 / 2) * (t - 0)) ≤ 1 := Real.exp_le_one_iff.2 (by linarith [ht.1])
  nlinarith

/-- The reverse process from the standard normal law, and from the exact noised law. -/
example : ∃ cho, IsChol cho ∧ ∀ f : (Fin 2 → ℝ) →ᵇ ℝ≥0,
    Tendsto (fun N => ∫⁻ x0, (eulerLast [] x0 (linGrid 2 N) (Gp.reverseDrift cho (.const (-1 / 2) 1) 0 2 ![1, 2] (2 • 1))
        (Gp.reverseDispersion (.const (-1 / 2) 1) 2) 1).E (fun x => f x)
        ∂(mvn (forwardMCov (.const (-1 / 2) 1) 0 ![1, 2] (2 • 1) 2).1 (forwardMCov (.const (-1 / 2) 1) 0 ![1, 2] (2 • 1) 2).2))
      atTop (𝓝 (∫⁻ x, f x ∂(mvn ![1, 2] (2 • 1)))) ∧
    ∃ μ S, Tendsto (fun N => ∫⁻ x0, (eulerLast [] x0 (linGrid 2 N)
        (Gp.reverseDrift cho (.const (-1 / 2) 1) 0 2 ![1, 2] (2 • 1))
        (Gp.reverseDispersion (.const (-1 / 2) 1) 2) 1).E (fun x => f x) ∂(mvn 0 1))
      atTop (𝓝 (∫⁻ x, f x ∂(mvn μ S))) := by
  obtain ⟨cho, hc⟩ := exists_isChol 2
  have hC : ((2 : ℕ) • (1 : Matrix (Fin 2) (Fin 2) ℝ)).PosDef := by
    rw [two_nsmul]; exact PosDef.one.add PosDef.one
  have hd : Defined (.const (-1 / 2) 1) := show (-1 / 2 : ℝ) ≠ 0 by norm_num
  exact ⟨cho, hc, fun f => ⟨C86_reverse_exact hc hd zero_le_two (fun _ _ => trivial) const_Q_nonneg _ hC (fun _ => [])
    (linGrid_toList 2) f, _, _, (C86_reverse hc hd zero_le_two (fun _ _ => trivial) const_Q_nonneg _ hC 0 PosSemidef.one
    (fun _ => []) (linGrid_toList 2)).2 f⟩⟩

/-- The conditional sampler, two inputs. -/
example : ∃ cho cholesky, IsChol cho ∧ IsCholesky cholesky ∧ ∃ f : (Fin 2 → ℝ) →ᵇ ℝ≥0,
    ¬ Tendsto (fun N => (Csgm.conditionalSampler cho cholesky (.const (-1 / 2) 1) 0 2 0
        (covFn 1 1 ![0, 1] ![0, 1]) 1 ![5, -3] (linGrid 2 N) []).E (fun x => f x)) atTop
      (𝓝 (∫⁻ x, f x ∂(mvn (0 + gpMean cho (covFn 1 1 ![0, 1] ![0, 1]) 1 (![5, -3] - 0))
        (gpCov cho (covFn 1 1 ![0, 1] ![0, 1]) 1)))) := by
  obtain ⟨cho, hc⟩ := exists_isChol 2
  obtain ⟨cholesky, hL⟩ := exists_isCholesky 2
  refine ⟨cho, cholesky, hc, hL, C86_csgm_biased hc hL one_pos ?_ one_pos zero_le_two _ (fun _ => []) (linGrid_toList 2)⟩
  intro i j hij
  fin_cases i <;> fin_cases j <;> simp_all

/-- A bridge between two normal laws in the plane. -/
example : ∃ eigh cho, IsEigh eigh ∧ IsChol cho ∧ ∀ f : (Fin 2 → ℝ) →ᵇ ℝ≥0,
    Tendsto (fun N => ∫⁻ x0, (eulerLast [] x0 (linGrid 1 N)
        (Utils.makeGaussianBwSb eigh cho ![0, 1] 1 ![3, -2] (2 • 1) (1 / 2)).drift (fun _ => 1 / 2) 1).E (fun x => f x)
        ∂(mvn ![0, 1] 1)) atTop (𝓝 (∫⁻ x, f x ∂(mvn ![3, -2] (2 • 1)))) := by
  obtain ⟨eigh, he⟩ := exists_isEigh (n := Fin 2)
  obtain ⟨cho, hc⟩ := exists_isChol 2
  have hC : ((2 : ℕ) • (1 : Matrix (Fin 2) (Fin 2) ℝ)).PosDef := by
    rw [two_nsmul]; exact PosDef.one.add PosDef.one
  exact ⟨eigh, cho, he, hc, fun f => C86_bridge he hc PosDef.one hC (fun _ => []) (linGrid_toList 1) f⟩

end Props
end Fbs
