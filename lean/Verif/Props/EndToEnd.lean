import Verif.Props.ScoreStability
import Verif.Props.EmConverge
import Verif.Props.Kl
import Mathlib.Analysis.SpecialFunctions.Integrals.Basic

/-!
# C87: the error of score-based sampling, end to end, for normal data
-/

open MeasureTheory ProbabilityTheory InformationTheory Matrix Filter Set Topology WithLp
open scoped ENNReal NNReal BoundedContinuousFunction

namespace Fbs
namespace Spec

/-- A test function on the results that are not exceptions. -/
def onOk {α : Type} (f : α → ℝ≥0∞) : Except String α → ℝ≥0∞
  | .ok x => f x
  | .error _ => 0

end Spec

namespace Props

open Jax Simulators Spec Mvn Gp

/-- Riemann sums of a continuous function. -/
theorem riemann_tendsto {T : ℝ} (hT : 0 ≤ T) {g : ℝ → ℝ} (hg : Continuous g) :
    Tendsto (fun n : ℕ => ∑ i ∈ Finset.range n, T / n * g (i * (T / n))) atTop (𝓝 (∫ t in (0 : ℝ)..T, g t)) := by
  refine euler_tendsto hT le_rfl le_rfl (Y := fun t => ∫ s in (0 : ℝ)..t, g s) (Y' := g) (fun t _ => ?_) hg.continuousOn
    (fun n k => ∑ i ∈ Finset.range k, T / n * g (i * (T / n))) (fun n => by simp) (fun n _ k _ => ?_)
  · exact (hg.integral_hasStrictDerivAt 0 t).hasDerivAt.hasDerivWithinAt
  · rw [Finset.sum_range_succ]
    simp [smul_eq_mul]

/-- The mass of the dispersion on the grid of the experiments. -/
theorem dispMass_eq_sum (disp : ℝ → ℝ) (T' : ℝ) : ∀ (l : List ℝ) (t : ℝ),
    dispMass disp T' t l = (((Arr1.init (t, l)).zip l).map fun i => |i.2 - i.1| * disp (T' - i.1) ^ 2).sum
  | [], t => by simp [dispMass]
  | t' :: l, t => by
    have hi : Arr1.init (t, t' :: l) = t :: Arr1.init (t', l) := by
      simp [Arr1.init]
    rw [dispMass, dispMass_eq_sum disp T' l t', hi]
    simp

theorem dispMass_linspace (disp : ℝ → ℝ) {T : ℝ} (hT : 0 ≤ T) {N : ℕ} {ts : Arr1 ℝ}
    (hts : ts.toList = linspace 0 T (N + 1)) :
    dispMass disp T ts.1 ts.2 = ∑ i ∈ Finset.range N, T / N * (fun t => disp (T - t) ^ 2) (i * (T / N)) := by
  rw [dispMass_eq_sum, show (Arr1.init (ts.1, ts.2)).zip ts.2 = ts.init.zip ts.2 from rfl, linspace_intervals hts,
    List.map_map, Finset.sum_range]
  rw [← List.sum_ofFn, List.ofFn_eq_map, ← List.map_coe_finRange_eq_range, List.map_map]
  congr 1
  refine List.map_congr_left fun i _ => ?_
  have h : (((i : ℕ) + 1 : ℕ) : ℝ) * (T / N) - (i : ℕ) * (T / N) = T / N := by push_cast; ring
  simp only [Function.comp_apply, h]
  rw [abs_of_nonneg (by positivity)]

theorem linspace_last {T : ℝ} {N : ℕ} (hN : 0 < N) {ts : Arr1 ℝ} (hts : ts.toList = linspace 0 T (N + 1)) :
    ts.last = T := by
  have h : ts.last = ts.toList.getLast (by simp [Arr1.toList]) := rfl
  have hN' : (N : ℝ) ≠ 0 := by positivity
  simp only [h, hts, linspace, List.range_succ, List.map_append, List.map_cons, List.map_nil, List.getLast_append_singleton]
  simp
  field_simp

theorem klDiv_mvn {q : ℕ} {cho : Matrix (Fin q) (Fin q) ℝ → Matrix (Fin q) (Fin q) ℝ} (hc : IsChol cho)
    (m0 m1 : Fin q → ℝ) {S0 S1 : Matrix (Fin q) (Fin q) ℝ} (h0 : S0.PosDef) (h1 : S1.PosDef) :
    klDiv (mvn m0 S0) (mvn m1 S1) ≠ ∞ ∧ (klDiv (mvn m0 S0) (mvn m1 S1)).toReal = Utils.kl cho m0 S0 m1 S1 / 2 := by
  obtain ⟨hne, hk⟩ := C42_twice_divergence_partial (m0 := m0) (m1 := m1) hc h0 h1
  have hle : klDiv (mvn m0 S0) (mvn m1 S1) ≤
      klDiv (multivariateGaussian (toLp 2 m0) S0) (multivariateGaussian (toLp 2 m1) S1) :=
    klDiv_map_le _ _ (WithLp.measurable_ofLp 2 _)
  have hge : klDiv (multivariateGaussian (toLp 2 m0) S0) (multivariateGaussian (toLp 2 m1) S1) ≤
      klDiv (mvn m0 S0) (mvn m1 S1) := by
    have e : ∀ (m : Fin q → ℝ) (S : Matrix (Fin q) (Fin q) ℝ),
        (mvn m S).map (toLp 2) = multivariateGaussian (toLp 2 m) S := fun m S => by
      rw [mvn, Measure.map_map (WithLp.measurable_toLp 2 _) (WithLp.measurable_ofLp 2 _)]
      exact Measure.map_id
    have h := klDiv_map_le (mvn m0 S0) (mvn m1 S1) (WithLp.measurable_toLp 2 (Fin q → ℝ))
    rwa [e, e] at h
  have he := le_antisymm hle hge
  rw [he]
  exact ⟨hne, by rw [hk]; ring⟩

theorem measurable_gpScore {q : ℕ} (cho : Matrix (Fin q) (Fin q) ℝ → Matrix (Fin q) (Fin q) ℝ) (sde : Linear.SDE) (t0 : ℝ)
    (m : Fin q → ℝ) (C : Matrix (Fin q) (Fin q) ℝ) (t : ℝ) : Measurable fun z => Gp.score cho sde t0 m C z t := by
  refine measurable_pi_iff.2 fun k => ?_
  have h2 := (measurable_affine (0 : Fin q → ℝ) ((cho (forwardMCov sde t0 m C t).2)ᵀ *
    cho (forwardMCov sde t0 m C t).2)⁻¹).comp (measurable_id.sub_const (forwardMCov sde t0 m C t).1)
  have h3 := ((measurable_pi_apply k).comp h2).neg
  convert h3 using 1
  funext z
  simp [Gp.score, Utils.choSolveVec]

theorem measurable_linDrift {q : ℕ} (sde : Linear.SDE) (t : ℝ) :
    Measurable fun (z : Fin q → ℝ) i => Linear.drift sde (z i) t := by
  refine measurable_pi_iff.2 fun k => ?_
  have h4 : Measurable fun x : ℝ => Linear.drift sde x t := by
    have : (fun x : ℝ => Linear.drift sde x t) = fun x => Linear.drift sde 1 t * x := funext fun x => drift_eq _ _ _
    rw [this]
    exact measurable_const_mul _
  exact h4.comp (measurable_pi_apply k)

variable {q : ℕ} {cho : Matrix (Fin q) (Fin q) ℝ → Matrix (Fin q) (Fin q) ℝ} {sde : Linear.SDE}

/-- **C87, end to end.**  The data are normal, `N(m, C)`.  `reverse_simulator` is run on the grid of the experiments with any
score function `s'` that is uniformly within `ε` of the score of the noised data, and is started from `N(μ, S)` instead of from
the law of the noised data at time `T`.  As the number of steps grows, the mean of any continuous test function with values in
`[0, 1]` comes within `½ √(kl(N(m_T, P_T), N(μ, S)) + ε² ∫₀ᵀ g²)` of its mean under the data, where `kl` is the function of the
repository. -/
theorem C87_end_to_end (hc : IsChol cho) (hsde : Defined sde) {T : ℝ} (hT : 0 < T)
    (hr : ∀ s ∈ Icc 0 T, RealDisp sde s) (hQ : ∀ s ∈ Icc 0 T, 0 ≤ (Linear.discretise sde s 0).2)
    (hg : ∀ s ∈ Ioc 0 T, Linear.dispersion sde s ≠ 0) (m : Fin q → ℝ)
    {C : Matrix (Fin q) (Fin q) ℝ} (hC : C.PosDef) {s' : (Fin q → ℝ) → ℝ → (Fin q → ℝ)}
    (hs' : ∀ t, Measurable fun x => s' x t) {ε : ℝ}
    (hε : ∀ t ∈ Ioc 0 T, ∀ x, ∑ i, (Gp.score cho sde 0 m C x t i - s' x t i) ^ 2 ≤ ε ^ 2)
    (μ : Fin q → ℝ) {S : Matrix (Fin q) (Fin q) ℝ} (hS : S.PosDef) (key : ℕ → Key) {ts : ℕ → Arr1 ℝ}
    (hts : ∀ N, (ts N).toList = linspace 0 T (N + 1)) (f : (Fin q → ℝ) →ᵇ ℝ≥0) (hf : ∀ x, f x ≤ 1)
    {δ : ℝ} (hδ : 0 < δ) :
    ∀ᶠ N in atTop,
      |(∫⁻ x0, (reverseSimulator (key N) x0 (ts N) s' (fun x t i => Linear.drift sde (x i) t) (Linear.dispersion sde) 1
          "euler-maruyama").E (onOk fun x => f x) ∂(mvn μ S)).toReal -
        (∫⁻ x, f x ∂(mvn m C)).toReal| ≤
      Real.sqrt (Utils.kl cho (forwardMCov sde 0 m C T).1 (forwardMCov sde 0 m C T).2 μ S +
        ε ^ 2 * ∫ t in (0 : ℝ)..T, Linear.dispersion sde t ^ 2) / 2 + δ := by
  set pT := mvn (forwardMCov sde 0 m C T).1 (forwardMCov sde 0 m C T).2 with hpT
  have hPT := forwardCov_posDef (hQ T ⟨hT.le, le_rfl⟩) m hC
  obtain ⟨hkne, hk⟩ := klDiv_mvn hc (forwardMCov sde 0 m C T).1 μ hPT hS
  set K := Utils.kl cho (forwardMCov sde 0 m C T).1 (forwardMCov sde 0 m C T).2 μ S with hK
  set D := ∫ t in (0 : ℝ)..T, Linear.dispersion sde t ^ 2 with hD
  have hcont : Continuous fun t => Linear.dispersion sde (T - t) ^ 2 :=
    ((continuous_sdeDisp sde).comp (continuous_const.sub continuous_id)).pow 2
  have hR := riemann_tendsto hT.le hcont
  have hDint : ∫ t in (0 : ℝ)..T, Linear.dispersion sde (T - t) ^ 2 = D := by
    rw [intervalIntegral.integral_comp_sub_left (fun t => Linear.dispersion sde t ^ 2) T]
    simp [hD]
  rw [hDint] at hR
  have hB : Tendsto (fun N : ℕ => Real.sqrt ((K / 2 + ε ^ 2 / 2 *
      ∑ i ∈ Finset.range N, T / N * Linear.dispersion sde (T - i * (T / N)) ^ 2) / 2)) atTop
      (𝓝 (Real.sqrt ((K / 2 + ε ^ 2 / 2 * D) / 2))) :=
    (Real.continuous_sqrt.tendsto _).comp (((tendsto_const_nhds.add (tendsto_const_nhds.mul hR))).div_const 2)
  have hlim : Real.sqrt ((K / 2 + ε ^ 2 / 2 * D) / 2) = Real.sqrt (K + ε ^ 2 * D) / 2 := by
    rw [show (K / 2 + ε ^ 2 / 2 * D) / 2 = (K + ε ^ 2 * D) / 2 ^ 2 by ring, Real.sqrt_div' _ (by positivity),
      Real.sqrt_sq (by norm_num)]
  rw [hlim] at hB
  have hE := C86_reverse_exact hc hsde hT.le hr hQ m hC key hts f
  have hfin : ∫⁻ x, f x ∂(mvn m C) ≠ ∞ := by
    refine ne_of_lt ((lintegral_mono fun x => (ENNReal.coe_le_one_iff.2 (hf x))).trans_lt ?_)
    simp
  have hE' := (ENNReal.tendsto_toReal hfin).comp hE
  filter_upwards [hB.eventually_le_const (lt_add_of_pos_right _ (half_pos hδ)), hE'.eventually (Metric.closedBall_mem_nhds _ (half_pos hδ)),
    eventually_gt_atTop 0] with N h1 h2 hN
  have hlast := linspace_last hN (hts N)
  have hN' : (0 : ℝ) < N := by exact_mod_cast hN
  have hinit : ∀ t ∈ (ts N).init, T - t ∈ Ioc 0 T := by
    intro t ht
    have hi : (ts N).init = (ts N).toList.dropLast := rfl
    rw [hi, hts N, linspace, ← List.map_dropLast, List.mem_map] at ht
    obtain ⟨i, hi, rfl⟩ := ht
    have hi' : i < N := by simpa [List.range_succ] using hi
    have hiN : (i : ℝ) < N := by exact_mod_cast hi'
    have e : (0 : ℝ) + i * ((T - 0) / (N + 1 - 1 : ℕ)) = T * (i / N) := by simp; ring
    rw [e]
    have h3 : (i : ℝ) / N < 1 := (div_lt_one hN').2 hiN
    have h4 : (0 : ℝ) ≤ i / N := by positivity
    constructor <;> nlinarith
  have hne : ∀ i ∈ (ts N).init.zip (ts N).2, i.1 ≠ i.2 := by
    rw [linspace_intervals (hts N)]
    intro i hi
    obtain ⟨k, _, rfl⟩ := List.mem_map.1 hi
    have : 0 < T / N := by positivity
    push_cast
    intro h
    nlinarith
  have h3 := C87_score_uniform (Linear.dispersion sde) (s := Gp.score cho sde 0 m C) (s' := s')
    (f := fun x t i => Linear.drift sde (x i) t) (measurable_gpScore cho sde 0 m C) hs' (measurable_linDrift sde)
    (ts := ts N) (fun t ht => by rw [hlast]; exact hg _ (hinit t ht)) hne (ε := ε)
    (fun t ht x => by rw [hlast]; exact hε _ (hinit t ht) x) pT (mvn μ S) hkne (key N) (key N)
    (g := onOk fun x => f x)
    (f.continuous.measurable.coe_nnreal_ennreal) (fun r => by
      cases r with
      | ok x => exact ENNReal.coe_le_one_iff.2 (hf x)
      | error _ => exact zero_le_one)
  rw [hk, hlast, dispMass_linspace _ hT.le (hts N)] at h3
  have h4 : ∫⁻ x, (reverseSimulator (key N) x (ts N) (Gp.score cho sde 0 m C) (fun x t i => Linear.drift sde (x i) t)
      (Linear.dispersion sde) 1 "euler-maruyama").E (onOk fun x => f x) ∂pT =
      ∫⁻ x0, (eulerLast (key N) x0 (ts N) (Gp.reverseDrift cho sde 0 T m C)
        (Gp.reverseDispersion sde T) 1).E (fun x => f x) ∂pT := by
    simp only [reverseSimulator, if_true, Rand.E_map, hlast]
    rfl
  rw [h4] at h3
  rw [Real.dist_eq] at h2
  simp only [Function.comp_apply] at h2
  rw [abs_sub_comm] at h3
  refine (abs_sub_le _ _ _).trans ((add_le_add (h3.trans h1) h2).trans (le_of_eq (by ring)))

/-- Two-dimensional data with mean `(1, -2)`, noised by `dX = -X/2 dt + dW` up to time 2; the score is off by `sin(x₀)/10` in
every coordinate, and the sampler is started from the standard normal law. -/
example : ∃ cho : Matrix (Fin 2) (Fin 2) ℝ → Matrix (Fin 2) (Fin 2) ℝ, IsChol cho ∧ ∀ f : (Fin 2 → ℝ) →ᵇ ℝ≥0,
    (∀ x, f x ≤ 1) → ∀ δ : ℝ, 0 < δ → ∀ᶠ N in atTop,
    |(∫⁻ x0, (reverseSimulator [] x0 (linGrid 2 N)
        (fun x t i => Gp.score cho (.const (-1 / 2) 1) 0 ![1, -2] ((2 : ℕ) • 1) x t i + Real.sin (x 0) / 10)
        (fun x t i => Linear.drift (.const (-1 / 2) 1) (x i) t) (Linear.dispersion (.const (-1 / 2) 1)) 1
        "euler-maruyama").E (onOk fun x => f x) ∂(mvn 0 1)).toReal -
      (∫⁻ x, f x ∂(mvn (n := Fin 2) ![1, -2] ((2 : ℕ) • 1))).toReal| ≤
    Real.sqrt (Utils.kl cho (forwardMCov (.const (-1 / 2) 1) 0 ![1, -2] ((2 : ℕ) • 1) 2).1
      (forwardMCov (.const (-1 / 2) 1) 0 ![1, -2] ((2 : ℕ) • 1) 2).2 0 1 +
        (1 / 5) ^ 2 * ∫ t in (0 : ℝ)..2, Linear.dispersion (.const (-1 / 2) 1) t ^ 2) / 2 + δ := by
  obtain ⟨cho, hc⟩ := exists_isChol 2
  have hC : ((2 : ℕ) • (1 : Matrix (Fin 2) (Fin 2) ℝ)).PosDef := by
    rw [two_nsmul]; exact PosDef.one.add PosDef.one
  have hd : Defined (.const (-1 / 2) 1) := by show (-1 / 2 : ℝ) ≠ 0; norm_num
  refine ⟨cho, hc, fun f hf δ hδ => ?_⟩
  have hm : ∀ t, Measurable fun (x : Fin 2 → ℝ) i =>
      Gp.score cho (.const (-1 / 2) 1) 0 ![1, -2] ((2 : ℕ) • 1) x t i + Real.sin (x 0) / 10 := fun t =>
    measurable_pi_iff.2 fun i => ((measurable_pi_apply i).comp (measurable_gpScore cho _ 0 _ _ t)).add
      ((Real.continuous_sin.measurable.comp (measurable_pi_apply 0)).div_const 10)
  have hε : ∀ t ∈ Ioc (0 : ℝ) 2, ∀ x : Fin 2 → ℝ, ∑ i, (Gp.score cho (.const (-1 / 2) 1) 0 ![1, -2] ((2 : ℕ) • 1) x t i -
      (Gp.score cho (.const (-1 / 2) 1) 0 ![1, -2] ((2 : ℕ) • 1) x t i + Real.sin (x 0) / 10)) ^ 2 ≤ (1 / 5 : ℝ) ^ 2 := by
    intro t _ x
    have h := Real.sin_sq_le_one (x 0)
    simp only [sub_add_cancel_left, Finset.sum_const, Finset.card_univ, Fintype.card_fin, nsmul_eq_mul]
    push_cast
    nlinarith
  exact C87_end_to_end (T := 2) hc hd two_pos (fun _ _ => trivial) const_Q_nonneg (fun s _ => one_ne_zero) ![1, -2] hC hm hε 0
    PosDef.one (fun _ => []) (linGrid_toList 2) f hf hδ

end Props
end Fbs
