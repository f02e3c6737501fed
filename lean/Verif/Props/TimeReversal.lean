import Verif.Lemmas.FokkerPlanck
import Verif.Model.ImgSamplers
import Verif.Model.Guided
import Verif.Props.Losses
import Verif.Props.Simulators

/-!
# C81: the reverse process reverses the noising for every data law
-/

open MeasureTheory ProbabilityTheory
open scoped ENNReal NNReal

namespace Fbs
namespace Spec

variable {ι : Type} [Fintype ι] [DecidableEq ι]

/-- At time `t` the function `p` satisfies the Fokker–Planck equation
`∂ₜ p = - ∑ ∂ᵢ (bᵢ p) + g² / 2 ∑ ∂ᵢᵢ p` of the SDE `dX = b(X, t) dt + g(t) dW`; all derivatives exist. -/
def FokkerPlanck (b : (ι → ℝ) → ℝ → (ι → ℝ)) (g : ℝ → ℝ) (p : ℝ → (ι → ℝ) → ℝ) (t : ℝ) : Prop :=
  ∀ x, ∃ flux lap : ι → ℝ,
    (∀ i, HasDerivAt (fun y => b (Function.update x i y) t i * p t (Function.update x i y)) (flux i) (x i)) ∧
    (∀ i, ∃ p' : ℝ → ℝ, (∀ y, HasDerivAt (fun y => p t (Function.update x i y)) (p' y) y) ∧ HasDerivAt p' (lap i) (x i)) ∧
    HasDerivAt (fun s => p s x) (-(∑ i, flux i) + g t ^ 2 / 2 * ∑ i, lap i) t

end Spec

namespace Props

open Linear Spec

variable {ι : Type} [Fintype ι] [DecidableEq ι] {π : Measure (ι → ℝ)} [IsProbabilityMeasure π]

/-- First and second derivative of the noised density in one coordinate. -/
theorem noisedDens_space (sde : SDE) {t t0 : ℝ} (hQ : 0 < (discretise sde t t0).2) (π : Measure (ι → ℝ))
    [IsProbabilityMeasure π] (x : ι → ℝ) (i : ι) :
    ∃ p' : ℝ → ℝ, ∃ lap : ℝ, (∀ y, HasDerivAt (fun y => noisedDens sde t t0 π (Function.update x i y)) (p' y) y) ∧
      HasDerivAt p' lap (x i) ∧
      p' (x i) = ∫ x0, Score.cs (discretise sde t t0).2.toNNReal (fun i => (discretise sde t t0).1 * x0 i) x i *
        Score.dens (discretise sde t t0).2.toNNReal (fun i => (discretise sde t t0).1 * x0 i) x ∂π ∧
      lap = (∫ x0, (Score.cs (discretise sde t t0).2.toNNReal (fun i => (discretise sde t t0).1 * x0 i) x i ^ 2 -
          1 / (discretise sde t t0).2.toNNReal) *
        Score.dens (discretise sde t t0).2.toNNReal (fun i => (discretise sde t t0).1 * x0 i) x ∂π) ∧
      ∀ y, noisedScore sde t t0 π (Function.update x i y) i * noisedDens sde t t0 π (Function.update x i y) = p' y := by
  have hq : (discretise sde t t0).2.toNNReal ≠ 0 := (Real.toNNReal_pos.2 hQ).ne'
  have hm : Measurable fun (x0 : ι → ℝ) i => (discretise sde t t0).1 * x0 i := measurable_scale _
  refine ⟨_, _, fun y => Score.hasDerivAt_mix' (π := π) hq hm x i y, Score.hasDerivAt_mix_second (π := π) hq hm x i, ?_, rfl,
    fun y => ?_⟩
  · simp only [Function.update_eq_self]
  · rw [noisedScore_eq, noisedDens_eq, Score.score_eq hq hm, div_mul_cancel₀ _ (Score.mix_pos hq hm _).ne']

omit [DecidableEq ι] in
theorem noisedDens_time {sde : SDE} (hd : Defined sde) {t t0 : ℝ} (hQ : 0 < (discretise sde t t0).2) (x : ι → ℝ) :
    HasDerivAt (fun s => noisedDens sde s t0 π x)
      ((∑ i, (-x i * (∫ x0, Score.cs (discretise sde t t0).2.toNNReal (fun i => (discretise sde t t0).1 * x0 i) x i *
          Score.dens (discretise sde t t0).2.toNNReal (fun i => (discretise sde t t0).1 * x0 i) x ∂π) -
        noisedDens sde t t0 π x -
        stationaryVar sde * ∫ x0, (Score.cs (discretise sde t t0).2.toNNReal (fun i => (discretise sde t t0).1 * x0 i) x i ^ 2 -
          1 / (discretise sde t t0).2.toNNReal) *
          Score.dens (discretise sde t t0).2.toNNReal (fun i => (discretise sde t t0).1 * x0 i) x ∂π)) *
        drift sde 1 t) t := by
  simp only [noisedDens_eq, F_eq, Q_eq] at hQ ⊢
  exact (Score.hasDerivAt_mix_time (π := π) (stationaryVar sde) x hQ).comp t (hasDerivAt_rate hd t t0)

/-- **C81, the noising process.**  For every data law the density of the noised data solves the Fokker–Planck equation of the
drift and the dispersion of the SDE. -/
theorem C81_forward {sde : SDE} (hd : Defined sde) {t t0 : ℝ} (hr : RealDisp sde t) (hQ : 0 < (discretise sde t t0).2)
    (π : Measure (ι → ℝ)) [IsProbabilityMeasure π] :
    FokkerPlanck (fun x t i => drift sde (x i) t) (dispersion sde) (fun t => noisedDens sde t t0 π) t := by
  intro x
  choose p' lap h1 h2 h3 h4 h5 using fun i => noisedDens_space sde hQ π x i
  refine ⟨fun i => drift sde 1 t * (noisedDens sde t t0 π x + x i * p' i (x i)), lap, fun i => ?_,
    fun i => ⟨p' i, h1 i, h2 i⟩, ?_⟩
  · have h := (((hasDerivAt_id (x i)).const_mul (drift sde 1 t)).mul (h1 i (x i)))
    simp only [Function.update_self]
    refine (h.congr_of_eventuallyEq (Filter.Eventually.of_forall fun y => ?_)).congr_deriv ?_
    · rw [drift_eq]; rfl
    · simp only [id, Function.update_eq_self]
      ring
  · refine (noisedDens_time (π := π) hd hQ x).congr_deriv ?_
    simp only [← h3, ← h4, disp_sq hd hr, Finset.sum_sub_distrib, Finset.sum_add_distrib, ← Finset.mul_sum, neg_mul,
      Finset.sum_neg_distrib]
    ring

/-- **C81, the reverse process.**  For every data law the densities of the noised data, in reverse order, solve the
Fokker–Planck equation of `reverse_drift` and `reverse_dispersion` with the score of the noised data. -/
theorem C81_reverse {sde : SDE} (hd : Defined sde) {T t t0 : ℝ} (hr : RealDisp sde (T - t))
    (hQ : 0 < (discretise sde (T - t) t0).2) (π : Measure (ι → ℝ)) [IsProbabilityMeasure π] :
    FokkerPlanck (Simulators.reverseDrift T (fun x t => noisedScore sde t t0 π x) (fun x t i => drift sde (x i) t)
        (dispersion sde)) (Simulators.reverseDispersion T (dispersion sde)) (fun t => noisedDens sde (T - t) t0 π) t ∧
    FokkerPlanck (ImgSamplers.reverseDrift sde T fun x t => noisedScore sde t t0 π x)
      (fun t => dispersion sde (T - t)) (fun t => noisedDens sde (T - t) t0 π) t ∧
    FokkerPlanck (Guided.reverseDrift sde T fun x t => noisedScore sde t t0 π x)
      (fun t => dispersion sde (T - t)) (fun t => noisedDens sde (T - t) t0 π) t := by
  have hmain : FokkerPlanck (fun x t i => -drift sde (x i) (T - t) + dispersion sde (T - t) ^ 2 *
      noisedScore sde (T - t) t0 π x i) (fun t => dispersion sde (T - t)) (fun t => noisedDens sde (T - t) t0 π) t := by
    intro x
    choose p' lap h1 h2 h3 h4 h5 using fun i => noisedDens_space sde hQ π x i
    refine ⟨fun i => -(drift sde 1 (T - t) * (noisedDens sde (T - t) t0 π x + x i * p' i (x i))) +
      dispersion sde (T - t) ^ 2 * lap i, lap, fun i => ?_, fun i => ⟨p' i, h1 i, h2 i⟩, ?_⟩
    · have h := (((hasDerivAt_id (x i)).const_mul (drift sde 1 (T - t))).mul (h1 i (x i))).neg.add
        ((h2 i).const_mul (dispersion sde (T - t) ^ 2))
      simp only [Function.update_self]
      refine (h.congr_of_eventuallyEq (Filter.Eventually.of_forall fun y => ?_)).congr_deriv ?_
      · simp only [Pi.add_apply, Pi.neg_apply, Pi.mul_apply, id]
        rw [drift_eq, add_mul, mul_assoc (dispersion sde (T - t) ^ 2), h5 i y]
        ring
      · simp only [id, Function.update_eq_self]
        ring
    · have hsub : HasDerivAt (fun t => T - t) (-1) t := by simpa using (hasDerivAt_id t).const_sub T
      refine ((noisedDens_time (π := π) hd hQ x).comp t hsub).congr_deriv ?_
      simp only [← h3, ← h4, disp_sq hd hr, Finset.sum_sub_distrib, Finset.sum_add_distrib, ← Finset.mul_sum, neg_mul,
        Finset.sum_neg_distrib]
      ring
  exact ⟨hmain, hmain, hmain⟩


/-! ### The two ends -/

section Ends

omit [DecidableEq ι] in
theorem integral_transLaw {sde : SDE} {t s : ℝ} (hQ : 0 ≤ (discretise sde t s).2) (x0 : ι → ℝ) {f : (ι → ℝ) → ℝ}
    (hf : Continuous f) :
    ∫ x, f x ∂(transLaw sde t s x0) =
      ∫ z, f (fun i => (discretise sde t s).1 * x0 i + Real.sqrt (discretise sde t s).2 * z i) ∂(Jax.stdNormal ι) := by
  have h : (Jax.stdNormal ι).map (fun z i => (discretise sde t s).1 * x0 i + Real.sqrt (discretise sde t s).2 * z i) =
      transLaw sde t s x0 := by
    rw [stdNormal_eq, gaussProd_map (0 : ι → ℝ) 1 (fun i => (discretise sde t s).1 * x0 i), Real.sq_sqrt hQ, mul_one]
    simp [transLaw, gaussProd]
  rw [← h, integral_map (Continuous.aemeasurable (by fun_prop)) hf.aestronglyMeasurable]

omit [DecidableEq ι] in
/-- **C81, the end of the reverse process.**  As the time of the noising process decreases to `t0`, the noised law tends to the
data law. -/
theorem C81_end {sde : SDE} (hd : Defined sde) {t0 : ℝ} (hQ : ∀ᶠ s in nhdsWithin t0 (Set.Ioi t0), 0 ≤ (discretise sde s t0).2)
    (π : Measure (ι → ℝ)) [IsProbabilityMeasure π] {f : (ι → ℝ) → ℝ} (hf : Continuous f) {B : ℝ} (hB : ∀ x, |f x| ≤ B) :
    Filter.Tendsto (fun s => ∫ x0, ∫ x, f x ∂(transLaw sde s t0 x0) ∂π) (nhdsWithin t0 (Set.Ioi t0)) (nhds (∫ x, f x ∂π)) := by
  obtain ⟨h1, -⟩ := C27_ode hd t0 t0
  have hcF : ContinuousAt (fun s => (discretise sde s t0).1) t0 := h1.continuousAt
  have hcQ : ContinuousAt (fun s => (discretise sde s t0).2) t0 := by
    have hc := (hasDerivAt_rate hd t0 t0).continuousAt
    simp only [Q_eq]
    fun_prop
  obtain ⟨hself, -⟩ := C26_flow hd t0 t0 t0
  have hb : ∀ s (x0 : ι → ℝ), ‖∫ z, f (fun i => (discretise sde s t0).1 * x0 i +
      Real.sqrt (discretise sde s t0).2 * z i) ∂(Jax.stdNormal ι)‖ ≤ B := fun s x0 => by
    have := norm_integral_le_of_norm_le_const (μ := Jax.stdNormal ι) (C := B)
      (f := fun z => f (fun i => (discretise sde s t0).1 * x0 i + Real.sqrt (discretise sde s t0).2 * z i))
      (Filter.Eventually.of_forall fun z => hB _)
    simpa using this
  have hmain : Filter.Tendsto (fun s => ∫ x0, ∫ z, f (fun i => (discretise sde s t0).1 * x0 i +
      Real.sqrt (discretise sde s t0).2 * z i) ∂(Jax.stdNormal ι) ∂π) (nhds t0) (nhds (∫ x, f x ∂π)) := by
    refine tendsto_integral_filter_of_dominated_convergence (fun _ => B) (Filter.Eventually.of_forall fun s => ?_)
      (Filter.Eventually.of_forall fun s => Filter.Eventually.of_forall (hb s)) (integrable_const _)
      (Filter.Eventually.of_forall fun x0 => ?_)
    · refine StronglyMeasurable.aestronglyMeasurable ?_
      refine StronglyMeasurable.integral_prod_right (f := fun (x0 : ι → ℝ) (z : ι → ℝ) => f (fun i =>
        (discretise sde s t0).1 * x0 i + Real.sqrt (discretise sde s t0).2 * z i)) ?_
      exact (hf.comp (by fun_prop)).stronglyMeasurable
    · have h2 : ∫ z, f x0 ∂(Jax.stdNormal ι) = f x0 := by simp
      rw [← h2]
      refine tendsto_integral_filter_of_dominated_convergence (fun _ => B) (Filter.Eventually.of_forall fun s => ?_)
        (Filter.Eventually.of_forall fun s => Filter.Eventually.of_forall fun z => hB _) (integrable_const _)
        (Filter.Eventually.of_forall fun z => ?_)
      · exact (hf.comp (by fun_prop)).aestronglyMeasurable
      · have h3 : ContinuousAt (fun s => f (fun i => (discretise sde s t0).1 * x0 i +
            Real.sqrt (discretise sde s t0).2 * z i)) t0 := by
          refine hf.continuousAt.comp (continuousAt_pi.2 fun i => ?_)
          exact (hcF.mul_const _).add ((Real.continuous_sqrt.continuousAt.comp hcQ).mul_const _)
        have h4 := h3.tendsto
        simpa [hself] using h4
  refine (hmain.mono_left nhdsWithin_le_nhds).congr' ?_
  filter_upwards [hQ] with s hs
  exact integral_congr_ae (Filter.Eventually.of_forall fun x0 => (integral_transLaw hs x0 hf).symm)

omit [DecidableEq ι] in
theorem integrable_norm_stdNormal : Integrable (fun z : ι → ℝ => ‖z‖) (Jax.stdNormal ι) := by
  have h1 : Integrable (fun z : ι → ℝ => ∑ i, |z i|) (Jax.stdNormal ι) := by
    refine integrable_finsetSum _ fun i _ => ?_
    have h : Integrable (fun x : ℝ => |x|) (gaussianReal 0 1) :=
      ((memLp_id_gaussianReal 1).integrable (by simp)).abs
    exact integrable_comp_eval (μ := fun _ : ι => gaussianReal 0 1) (i := i) h
  refine h1.mono' (by fun_prop) (Filter.Eventually.of_forall fun z => ?_)
  rw [norm_norm]
  refine (pi_norm_le_iff_of_nonneg (Finset.sum_nonneg fun i _ => abs_nonneg _)).2 fun i => ?_
  exact Finset.single_le_sum (f := fun i => |z i|) (fun i _ => abs_nonneg _) (Finset.mem_univ i)

omit [DecidableEq ι] in
/-- **C81, the start of the reverse process.**  The law from which the samplers start, the stationary law, replaces the noised
law at the final time; for Lipschitz functions the difference is at most a multiple of the factor `F` of the discretisation. -/
theorem C81_start {sde : SDE} {t t0 : ℝ} (ht : Admissible sde t) (ht0 : Admissible sde t0) (hlt : t0 < t)
    (π : Measure (ι → ℝ)) [IsProbabilityMeasure π] (hπ : Integrable (fun x => ‖x‖) π) {f : (ι → ℝ) → ℝ} {K : ℝ≥0}
    (hf : LipschitzWith K f) :
    |∫ x0, ∫ x, f x ∂(transLaw sde t t0 x0) ∂π -
        ∫ x, f x ∂(Measure.pi fun _ : ι => gaussianReal 0 (stationaryVar sde).toNNReal)| ≤
      K * (discretise sde t t0).1 *
        (∫ x, ‖x‖ ∂π + Real.sqrt (stationaryVar sde) * ∫ z, ‖z‖ ∂(Jax.stdNormal ι)) := by
  obtain ⟨hsum, hQ, hQσ, hF0, hF1⟩ := C29_bounds ht ht0 hlt
  have hσ := stationaryVar_pos ht
  set F := (discretise sde t t0).1
  set Q := (discretise sde t t0).2
  set σ := stationaryVar sde
  have hN := integrable_norm_stdNormal (ι := ι)
  have hsq : |Real.sqrt Q - Real.sqrt σ| ≤ F * Real.sqrt σ := by
    have h1 : Q = σ * (1 - F ^ 2) := by linarith
    have h2 : 1 - F ≤ Real.sqrt (1 - F ^ 2) := Real.le_sqrt_of_sq_le (by nlinarith)
    have h3 : Real.sqrt Q = Real.sqrt σ * Real.sqrt (1 - F ^ 2) := by rw [h1, Real.sqrt_mul hσ.le]
    have h4 : Real.sqrt Q ≤ Real.sqrt σ := Real.sqrt_le_sqrt hQσ.le
    rw [abs_of_nonpos (by linarith), h3]
    nlinarith [Real.sqrt_nonneg σ]
  have hstat : ∫ x, f x ∂(Measure.pi fun _ : ι => gaussianReal 0 σ.toNNReal) =
      ∫ z, f (fun i => Real.sqrt σ * z i) ∂(Jax.stdNormal ι) := by
    have h : (Jax.stdNormal ι).map (fun z i => Real.sqrt σ * z i) = Measure.pi fun _ : ι => gaussianReal 0 σ.toNNReal := by
      have h' := gaussProd_map (0 : ι → ℝ) 1 0 (Real.sqrt σ)
      rw [Real.sq_sqrt hσ.le, mul_one] at h'
      simpa [gaussProd, stdNormal_eq] using h'
    rw [← h, integral_map (Continuous.aemeasurable (by fun_prop)) hf.continuous.aestronglyMeasurable]
  have hint : ∀ g : (ι → ℝ) → ι → ℝ, Continuous g → (∃ a b : ℝ, ∀ z, ‖g z‖ ≤ a + b * ‖z‖) →
      Integrable (fun z => f (g z)) (Jax.stdNormal ι) := by
    rintro g hg ⟨a, b, hab⟩
    have hI : Integrable (fun z : ι → ℝ => |f 0| + K * (a + b * ‖z‖)) (Jax.stdNormal ι) :=
      (integrable_const _).add (((integrable_const a).add (hN.const_mul b)).const_mul _)
    refine hI.mono' (hf.continuous.comp hg).aestronglyMeasurable (Filter.Eventually.of_forall fun z => ?_)
    have h1 := hf.norm_sub_le (g z) 0
    rw [sub_zero] at h1
    have h2 : ‖f (g z)‖ ≤ ‖f (g z) - f 0‖ + ‖f 0‖ := by simpa using norm_add_le (f (g z) - f 0) (f 0)
    have h3 : (K : ℝ) * ‖g z‖ ≤ K * (a + b * ‖z‖) := mul_le_mul_of_nonneg_left (hab z) K.2
    rw [Real.norm_eq_abs (f 0)] at h2
    linarith
  have hi1 : ∀ x0 : ι → ℝ, Integrable (fun z => f (fun i => F * x0 i + Real.sqrt Q * z i)) (Jax.stdNormal ι) := fun x0 => by
    refine hint (fun z i => F * x0 i + Real.sqrt Q * z i) (by fun_prop) ⟨F * ‖x0‖, Real.sqrt Q, fun z => ?_⟩
    have : (fun i => F * x0 i + Real.sqrt Q * z i) = F • x0 + Real.sqrt Q • z := rfl
    rw [this]
    refine (norm_add_le _ _).trans (add_le_add ?_ ?_)
    · rw [norm_smul, Real.norm_of_nonneg hF0.le]
    · rw [norm_smul, Real.norm_of_nonneg (Real.sqrt_nonneg _)]
  have hi2 : Integrable (fun z => f (fun i => Real.sqrt σ * z i)) (Jax.stdNormal ι) := by
    refine hint (fun z i => Real.sqrt σ * z i) (by fun_prop) ⟨0, Real.sqrt σ, fun z => ?_⟩
    have : (fun i => Real.sqrt σ * z i) = Real.sqrt σ • z := rfl
    rw [this, norm_smul, Real.norm_of_nonneg (Real.sqrt_nonneg _), zero_add]
  set G : (ι → ℝ) → ℝ := fun x0 => ∫ z, f (fun i => F * x0 i + Real.sqrt Q * z i) ∂(Jax.stdNormal ι)
  set c := ∫ z, f (fun i => Real.sqrt σ * z i) ∂(Jax.stdNormal ι)
  have hdiff : ∀ x0, ‖G x0 - c‖ ≤ K * F * (‖x0‖ + Real.sqrt σ * ∫ z, ‖z‖ ∂(Jax.stdNormal ι)) := fun x0 => by
    rw [← integral_sub (hi1 x0) hi2]
    have hI : Integrable (fun z : ι → ℝ => (K : ℝ) * F * (‖x0‖ + Real.sqrt σ * ‖z‖)) (Jax.stdNormal ι) :=
      ((integrable_const _).add (hN.const_mul _)).const_mul _
    refine (norm_integral_le_of_norm_le hI (Filter.Eventually.of_forall fun z => ?_)).trans_eq ?_
    · refine (hf.norm_sub_le _ _).trans ?_
      rw [mul_assoc]
      refine mul_le_mul_of_nonneg_left ?_ K.2
      have : (fun i => F * x0 i + Real.sqrt Q * z i) - (fun i => Real.sqrt σ * z i) =
          F • x0 + (Real.sqrt Q - Real.sqrt σ) • z := by
        funext i
        simp only [Pi.sub_apply, Pi.add_apply, Pi.smul_apply, smul_eq_mul]
        ring
      rw [this]
      refine (norm_add_le _ _).trans ?_
      rw [norm_smul, norm_smul, Real.norm_of_nonneg hF0.le, Real.norm_eq_abs, mul_add, ← mul_assoc]
      gcongr
    · rw [integral_const_mul, integral_add (integrable_const _) (hN.const_mul _), integral_const_mul]
      simp
  have hGm : StronglyMeasurable G := by
    refine StronglyMeasurable.integral_prod_right (f := fun (x0 : ι → ℝ) (z : ι → ℝ) => f (fun i =>
        F * x0 i + Real.sqrt Q * z i)) ?_
    exact (hf.continuous.comp (by fun_prop)).stronglyMeasurable
  have hJ : Integrable (fun x0 : ι → ℝ => (K : ℝ) * F * (‖x0‖ + Real.sqrt σ * ∫ z, ‖z‖ ∂(Jax.stdNormal ι))) π :=
    (hπ.add (integrable_const _)).const_mul _
  have hGc : Integrable (fun x0 => G x0 - c) π :=
    hJ.mono' (hGm.aestronglyMeasurable.sub aestronglyMeasurable_const) (Filter.Eventually.of_forall hdiff)
  have hG : Integrable G π := (hGc.add (integrable_const c)).congr (Filter.Eventually.of_forall fun x0 => by simp)
  have e1 : ∫ x0, ∫ x, f x ∂(transLaw sde t t0 x0) ∂π = ∫ x0, G x0 ∂π :=
    integral_congr_ae (Filter.Eventually.of_forall fun x0 => integral_transLaw hQ.le x0 hf.continuous)
  have e2 : ∫ x0, G x0 ∂π - c = ∫ x0, (G x0 - c) ∂π := by
    rw [integral_sub hG (integrable_const c)]; simp
  rw [e1, hstat, e2, ← Real.norm_eq_abs]
  refine (norm_integral_le_of_norm_le hJ (Filter.Eventually.of_forall hdiff)).trans_eq ?_
  rw [integral_const_mul, integral_add hπ (integrable_const _)]
  simp

end Ends

/-! ### The hypotheses can be met -/

/-- A data set of three images with two pixels, noised by the Ornstein–Uhlenbeck process of the experiments. -/
example : FokkerPlanck (ImgSamplers.reverseDrift (.const (-0.5) 1) 2 fun x t =>
      noisedScore (.const (-0.5) 1) t 0 (empirical ![![0, 1], ![1, 1], ![0, 0]]) x)
    (fun t => dispersion (.const (-0.5) 1) (2 - t))
    (fun t => noisedDens (.const (-0.5) 1) (2 - t) 0 (empirical ![![0, 1], ![1, 1], ![(0 : ℝ), 0]])) 1 := by
  have : IsProbabilityMeasure (empirical ![![0, 1], ![1, 1], ![(0 : ℝ), 0]]) := inferInstance
  refine (C81_reverse (sde := .const (-0.5) 1) (T := 2) (t := 1) (t0 := 0) (by norm_num [Defined]) trivial ?_ _).2.1
  exact (C29_bounds (sde := .const (-0.5) 1) (t := 2 - 1) (s := 0) (by norm_num [Admissible]) (by norm_num [Admissible])
    (by norm_num)).2.1

/-- The noised laws of the same images solve the forward equation under the linear schedule. -/
example : FokkerPlanck (fun x t i => drift (.lin 0.02 5 0 2) (x i) t) (dispersion (.lin 0.02 5 0 2))
    (fun t => noisedDens (.lin 0.02 5 0 2) t 0 (empirical ![![0, 1], ![1, 1], ![(0 : ℝ), 0]])) 1 := by
  have hA : ∀ t : ℝ, 0 ≤ t → t ≤ 2 → Admissible (.lin 0.02 5 0 2) t := fun t h1 h2 => by
    exact ⟨by norm_num, by norm_num, by norm_num, h1, h2⟩
  refine C81_forward (by norm_num [Defined]) ?_ ?_ _
  · norm_num [RealDisp, beta]
  · exact (C29_bounds (hA 1 (by norm_num) (by norm_num)) (hA 0 le_rfl (by norm_num)) (by norm_num)).2.1

/-- One pixel equal to three: the noised pixel tends to it, and at time two it is close to the stationary law. -/
example : Filter.Tendsto (fun s => ∫ x0, ∫ x, Real.sin (x 0) ∂(transLaw (.const (-0.5) 1) s 0 x0)
      ∂(Measure.dirac fun _ : Fin 1 => (3 : ℝ)))
    (nhdsWithin 0 (Set.Ioi 0)) (nhds (Real.sin 3)) := by
  have h := C81_end (sde := .const (-0.5) 1) (t0 := 0) (by norm_num [Defined]) ?_ (Measure.dirac fun _ : Fin 1 => (3 : ℝ))
    (f := fun x => Real.sin (x 0)) (by fun_prop) (B := 1) fun x => Real.abs_sin_le_one _
  · simpa using h
  · filter_upwards [self_mem_nhdsWithin] with s hs
    exact (C29_bounds (sde := .const (-0.5) 1) (by norm_num [Admissible]) (by norm_num [Admissible]) hs).2.1.le

example : |∫ x0, ∫ x, x 0 ∂(transLaw (.const (-0.5) 1) 2 0 x0) ∂(Measure.dirac fun _ : Fin 1 => (3 : ℝ)) -
      ∫ x, x 0 ∂(Measure.pi fun _ : Fin 1 => gaussianReal 0 (stationaryVar (.const (-0.5) 1)).toNNReal)| ≤
    (1 : ℝ≥0) * (discretise (.const (-0.5) 1) 2 0).1 * (∫ x, ‖x‖ ∂(Measure.dirac fun _ : Fin 1 => (3 : ℝ)) +
      Real.sqrt (stationaryVar (.const (-0.5) 1)) * ∫ z, ‖z‖ ∂(Jax.stdNormal (Fin 1))) :=
  C81_start (by norm_num [Admissible]) (by norm_num [Admissible]) (by norm_num) _ (integrable_dirac (by simp))
    (LipschitzWith.eval 0)

end Props
end Fbs
