import Verif.Lemmas.Mvn
import Mathlib.Analysis.Calculus.MeanValue
import Mathlib.Analysis.Calculus.Deriv.Pi
import Mathlib.Analysis.Calculus.Deriv.Mul
import Mathlib.Analysis.SpecificLimits.Basic
import Mathlib.Analysis.SpecialFunctions.Exp
import Mathlib.Topology.UniformSpace.HeineCantor
import Mathlib.MeasureTheory.Measure.LevyConvergence

/-!
# Euler's method for ordinary differential equations, and weak convergence of normal laws
-/

open Filter Set Topology

namespace Fbs

section Ode

variable {E : Type} [NormedAddCommGroup E] [NormedSpace ℝ E]

/-- The local error of one Euler step. -/
theorem euler_local {T h ω : ℝ} {Y Y' : ℝ → E} (hY : ∀ t ∈ Icc 0 T, HasDerivWithinAt Y (Y' t) (Icc 0 T) t)
    {s : ℝ} (hs : 0 ≤ s) (hh : 0 ≤ h) (hsT : s + h ≤ T)
    (hω : ∀ t ∈ Icc s (s + h), ‖Y' t - Y' s‖ ≤ ω) : ‖Y (s + h) - (Y s + h • Y' s)‖ ≤ h * ω := by
  have hsub : Icc s (s + h) ⊆ Icc 0 T := Icc_subset_Icc hs hsT
  have hd : ∀ t ∈ Icc s (s + h), HasDerivWithinAt (fun t => Y t - t • Y' s) (Y' t - Y' s) (Icc s (s + h)) t := by
    intro t ht
    have h1 := (hY t (hsub ht)).mono hsub
    have h2 : HasDerivWithinAt (fun t : ℝ => t • Y' s) ((1 : ℝ) • Y' s) (Icc s (s + h)) t :=
      (hasDerivWithinAt_id t _).smul_const _
    rw [one_smul] at h2
    exact h1.sub h2
  have := Convex.norm_image_sub_le_of_norm_hasDerivWithin_le (f := fun t => Y t - t • Y' s) hd hω (convex_Icc s (s + h))
    (left_mem_Icc.2 (by linarith)) (right_mem_Icc.2 (by linarith))
  have e : Y (s + h) - (Y s + h • Y' s) = (Y (s + h) - (s + h) • Y' s) - (Y s - s • Y' s) := by
    rw [add_smul]; abel
  rw [e]
  refine this.trans (le_of_eq ?_)
  rw [add_sub_cancel_left, Real.norm_of_nonneg hh, mul_comm]

/-- The accumulated error of a one-step method that is close to Euler's. -/
theorem euler_error {T h ω L δ : ℝ} {n : ℕ} {Y Y' : ℝ → E} (hY : ∀ t ∈ Icc 0 T, HasDerivWithinAt Y (Y' t) (Icc 0 T) t)
    (hh : 0 ≤ h) (hn : n * h ≤ T) (hL : 0 ≤ L) (hδ : 0 ≤ δ) (hω0 : 0 ≤ ω)
    (hω : ∀ s ∈ Icc 0 T, ∀ t ∈ Icc 0 T, |t - s| ≤ h → ‖Y' t - Y' s‖ ≤ ω) (y : ℕ → E)
    (hstep : ∀ k < n, ‖y (k + 1) - (Y (k * h) + h • Y' (k * h))‖ ≤ (1 + L) * ‖y k - Y (k * h)‖ + δ) :
    ∀ k ≤ n, ‖y k - Y (k * h)‖ ≤ Real.exp (k * L) * (‖y 0 - Y 0‖ + k * (δ + h * ω)) := by
  intro k
  induction k with
  | zero => intro _; simp
  | succ k ih =>
    intro hk
    have ih := ih (by omega)
    have h1 := hstep k (by omega)
    have hk0 : (0 : ℝ) ≤ k * h := by positivity
    have hkT : (k : ℝ) * h + h ≤ T := by
      have : ((k + 1 : ℕ) : ℝ) * h ≤ n * h := mul_le_mul_of_nonneg_right (by exact_mod_cast hk) hh
      push_cast at this
      linarith
    have h2 := euler_local hY hk0 hh hkT (ω := ω) fun t ht =>
      hω _ ⟨hk0, by linarith⟩ t ⟨by linarith [ht.1], by linarith [ht.2]⟩ (by
        rw [abs_of_nonneg (by linarith [ht.1])]; linarith [ht.2])
    have e : ((k + 1 : ℕ) : ℝ) * h = k * h + h := by push_cast; ring
    have e2 : y (k + 1) - Y (k * h + h) = (y (k + 1) - (Y (k * h) + h • Y' (k * h))) -
        (Y (k * h + h) - (Y (k * h) + h • Y' (k * h))) := by abel
    rw [e, e2]
    set D := δ + h * ω with hD
    have hD0 : 0 ≤ D := by positivity
    have hx : 1 + L ≤ Real.exp L := by linarith [Real.add_one_le_exp L]
    have hb : 0 ≤ ‖y 0 - Y 0‖ + k * D := by positivity
    have e3 : Real.exp (((k + 1 : ℕ) : ℝ) * L) = Real.exp L * Real.exp (k * L) := by
      rw [← Real.exp_add]; congr 1; push_cast; ring
    have hone : 1 ≤ Real.exp (((k + 1 : ℕ) : ℝ) * L) := Real.one_le_exp (by positivity)
    calc _ ≤ _ + _ := norm_sub_le _ _
      _ ≤ ((1 + L) * ‖y k - Y (k * h)‖ + δ) + h * ω := add_le_add h1 h2
      _ = (1 + L) * ‖y k - Y (k * h)‖ + D := by rw [hD]; ring
      _ ≤ Real.exp L * (Real.exp (k * L) * (‖y 0 - Y 0‖ + k * D)) + D :=
          add_le_add (mul_le_mul hx ih (norm_nonneg _) (Real.exp_pos _).le) le_rfl
      _ = Real.exp (((k + 1 : ℕ) : ℝ) * L) * (‖y 0 - Y 0‖ + k * D) + D := by rw [e3]; ring
      _ ≤ Real.exp (((k + 1 : ℕ) : ℝ) * L) * (‖y 0 - Y 0‖ + k * D) + Real.exp (((k + 1 : ℕ) : ℝ) * L) * D :=
          add_le_add le_rfl (le_mul_of_one_le_left hD0 hone)
      _ = _ := by push_cast; ring

/-- Convergence at the end point when the step size tends to zero. -/
theorem euler_tendsto {T Λ Δ : ℝ} (hT : 0 ≤ T) (hΛ : 0 ≤ Λ) (hΔ : 0 ≤ Δ) {Y Y' : ℝ → E}
    (hY : ∀ t ∈ Icc 0 T, HasDerivWithinAt Y (Y' t) (Icc 0 T) t) (hc : ContinuousOn Y' (Icc 0 T)) (y : ℕ → ℕ → E)
    (h0 : ∀ n, y n 0 = Y 0)
    (hstep : ∀ n, 0 < n → ∀ k < n, ‖y n (k + 1) - (Y (k * (T / n)) + (T / n) • Y' (k * (T / n)))‖ ≤
      (1 + Λ / n) * ‖y n k - Y (k * (T / n))‖ + Δ / n ^ 2) :
    Tendsto (fun n => y n n) atTop (𝓝 (Y T)) := by
  rw [Metric.tendsto_atTop]
  intro ε hε
  have huc := isCompact_Icc.uniformContinuousOn_of_continuous hc
  rw [Metric.uniformContinuousOn_iff] at huc
  have hX : 0 < Real.exp Λ * (T + 1) := by positivity
  set ω := ε / (2 * (Real.exp Λ * (T + 1))) with hω
  have hω0 : 0 < ω := by positivity
  obtain ⟨η, hη, huc⟩ := huc ω hω0
  obtain ⟨N1, hN1⟩ := exists_nat_gt (T / η)
  obtain ⟨N2, hN2⟩ := exists_nat_gt (2 * (Real.exp Λ * Δ) / ε)
  refine ⟨max (max N1 N2) 1, fun n hn => ?_⟩
  have hn1 : N1 ≤ n := (le_max_left _ _).trans ((le_max_left _ _).trans hn)
  have hn2 : N2 ≤ n := (le_max_right _ _).trans ((le_max_left _ _).trans hn)
  have hn0 : 0 < n := lt_of_lt_of_le one_pos ((le_max_right _ _).trans hn)
  have hnr : (0 : ℝ) < n := by exact_mod_cast hn0
  have hTn : T / n < η := by
    rw [div_lt_iff₀ hnr]
    have : T / η < n := hN1.trans_le (by exact_mod_cast hn1)
    rw [div_lt_iff₀ hη] at this
    linarith
  have hD : Real.exp Λ * (Δ / n) < ε / 2 := by
    have h1 : 2 * (Real.exp Λ * Δ) / ε < n := hN2.trans_le (by exact_mod_cast hn2)
    rw [div_lt_iff₀ hε] at h1
    rw [← mul_div_assoc, div_lt_iff₀ hnr]
    linarith
  have hmain := euler_error (h := T / n) (ω := ω) (L := Λ / n) (δ := Δ / n ^ 2) (n := n) hY (by positivity)
    (by rw [mul_div_cancel₀ _ hnr.ne']) (by positivity) (by positivity) hω0.le
    (fun s hs t ht hst => by
      have := huc t ht s hs (by rw [Real.dist_eq]; exact hst.trans_lt hTn)
      rw [dist_eq_norm] at this
      exact this.le) (y n) (hstep n hn0) n le_rfl
  rw [mul_div_cancel₀ _ hnr.ne', mul_div_cancel₀ _ hnr.ne', h0, sub_self, norm_zero, zero_add] at hmain
  rw [dist_eq_norm]
  refine hmain.trans_lt ?_
  have e : Real.exp Λ * ((n : ℝ) * (Δ / n ^ 2 + T / n * ω)) = Real.exp Λ * (Δ / n) + Real.exp Λ * T * ω := by
    field_simp
  rw [e]
  have h3 : Real.exp Λ * T * ω < ε / 2 := by
    rw [hω, ← mul_div_assoc, div_lt_iff₀ (by positivity)]
    have : ε / 2 * (2 * (Real.exp Λ * (T + 1))) = Real.exp Λ * T * ε + Real.exp Λ * ε := by ring
    rw [this]
    have : 0 < Real.exp Λ * ε := by positivity
    linarith
  linarith

end Ode

/-! ### Normal laws whose moments converge -/

namespace Mvn

open MeasureTheory ProbabilityTheory Matrix WithLp
open scoped ENNReal NNReal BoundedContinuousFunction

variable {n : Type} [Fintype n] [DecidableEq n]

/-- If means and covariances converge, normal laws converge weakly. -/
theorem mvn_tendsto {m : ℕ → n → ℝ} {S : ℕ → Matrix n n ℝ} {m0 : n → ℝ} {S0 : Matrix n n ℝ}
    (hS : ∀ k, (S k).PosSemidef) (hS0 : S0.PosSemidef) (hm : Tendsto m atTop (𝓝 m0))
    (hSt : ∀ i j, Tendsto (fun k => S k i j) atTop (𝓝 (S0 i j))) (f : (n → ℝ) →ᵇ ℝ≥0) :
    Tendsto (fun k => ∫⁻ x, f x ∂(mvn (m k) (S k))) atTop (𝓝 (∫⁻ x, f x ∂(mvn m0 S0))) := by
  let μ : ℕ → ProbabilityMeasure (EuclideanSpace ℝ n) := fun k => ⟨multivariateGaussian (toLp 2 (m k)) (S k), inferInstance⟩
  let μ0 : ProbabilityMeasure (EuclideanSpace ℝ n) := ⟨multivariateGaussian (toLp 2 m0) S0, inferInstance⟩
  have hμ : Tendsto μ atTop (𝓝 μ0) := by
    rw [ProbabilityMeasure.tendsto_iff_tendsto_charFun]
    intro t
    have h1 : ∀ k, charFun (μ k : Measure (EuclideanSpace ℝ n)) t = _ := fun k => charFun_multivariateGaussian (hS k) t
    have h2 : charFun (μ0 : Measure (EuclideanSpace ℝ n)) t = _ := charFun_multivariateGaussian hS0 t
    simp only [h1, h2]
    refine (Complex.continuous_exp.tendsto _).comp ?_
    have hA : Tendsto (fun k => inner ℝ t (toLp 2 (m k))) atTop (𝓝 (inner ℝ t (toLp 2 m0))) :=
      ((continuous_const.inner continuous_id).tendsto _).comp (((PiLp.continuous_toLp 2 _).tendsto _).comp hm)
    have hB : Tendsto (fun k => ofLp t ⬝ᵥ S k *ᵥ ofLp t) atTop (𝓝 (ofLp t ⬝ᵥ S0 *ᵥ ofLp t)) := by
      simp only [dotProduct, mulVec]
      exact tendsto_finsetSum _ fun i _ => Tendsto.const_mul _
        (tendsto_finsetSum _ fun j _ => (hSt i j).mul_const _)
    have hA' := (Complex.continuous_ofReal.tendsto _).comp hA
    have hB' := (Complex.continuous_ofReal.tendsto _).comp hB
    exact ((hA'.mul_const Complex.I).sub (hB'.div_const 2))
  have h := (ProbabilityMeasure.tendsto_iff_forall_lintegral_tendsto.1 hμ)
    (f.compContinuous ⟨ofLp, PiLp.continuous_ofLp 2 _⟩)
  have hfm : Measurable fun x : n → ℝ => (f x : ℝ≥0∞) := f.continuous.measurable.coe_nnreal_ennreal
  simp only [lintegral_mvn_eq _ _ hfm]
  exact h

end Mvn
end Fbs
