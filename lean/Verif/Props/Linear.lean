import Verif.Model.Linear
import Mathlib.Analysis.Calculus.MeanValue
import Mathlib.Analysis.Calculus.Deriv.Mul
import Mathlib.Analysis.Calculus.Deriv.Add
import Mathlib.Analysis.Calculus.Deriv.Inv
import Mathlib.MeasureTheory.Integral.IntervalIntegral.Basic
import Mathlib.Analysis.SpecialFunctions.Integrals.Basic

/-!
# C26–C30, C32: discretisation of linear SDEs
-/

open MeasureTheory ProbabilityTheory

namespace Fbs
namespace Spec

open Linear

/-- The parameters for which no denominator of the code vanishes. -/
def Defined : SDE → Prop
  | .const a _ => a ≠ 0
  | .lin _ _ t0 T => t0 ≠ T
  | .exp a _ c _ => a ≠ 0 ∧ c ≠ 0

/-- The dispersion is a real number at `t`. -/
def RealDisp : SDE → ℝ → Prop
  | .lin bm bM t0 T, t => 0 ≤ beta bm bM t0 T t
  | _, _ => True

/-- The parameters and times the classes are meant for (`/repo/fbs/sdes/linear.py:14`, `:49`, `:96-98`): mean
reversion, non-zero noise, and times inside the schedule. -/
def Admissible : SDE → ℝ → Prop
  | .const a b, _ => a < 0 ∧ b ≠ 0
  | .lin bm bM t0 T, t => t0 < T ∧ 0 < bm ∧ bm ≤ bM ∧ t0 ≤ t ∧ t ≤ T
  | .exp a b c _, _ => a < 0 ∧ b ≠ 0 ∧ c ≠ 0

/-- The stationary variance `sigma^2`. -/
noncomputable def stationaryVar : SDE → ℝ
  | .const a b => -b ^ 2 / (2 * a)
  | .lin .. => 1
  | .exp a b _ _ => -b ^ 2 / (2 * a)

end Spec

namespace Props

open Linear Spec Jax

theorem Admissible.defined {sde : SDE} {t : ℝ} (h : Admissible sde t) : Defined sde := by
  cases sde with
  | const a b => exact h.1.ne
  | lin bm bM t0 T => exact h.1.ne
  | exp a b c z => exact ⟨h.1.ne, h.2.2⟩

/-- The exponent: `F = exp r`. -/
noncomputable def rate : SDE → ℝ → ℝ → ℝ
  | .const a _, t, s => a * (t - s)
  | .lin bm bM t0 T, t, s => -0.5 * betaIntegral bm bM t0 T t s
  | .exp a _ c z, t, s => a * (Real.exp (c * (t - z)) - Real.exp (c * (s - z))) / c

theorem F_eq (sde : SDE) (t s : ℝ) : (discretise sde t s).1 = Real.exp (rate sde t s) := by
  cases sde <;> rfl

theorem Q_eq (sde : SDE) (t s : ℝ) :
    (discretise sde t s).2 = stationaryVar sde * (1 - Real.exp (2 * rate sde t s)) := by
  cases sde with
  | const a b =>
    simp only [discretise, stationaryVar, rate]
    rw [← mul_assoc]
    ring
  | lin bm bM t0 T =>
    simp only [discretise, stationaryVar, rate, one_mul]
    congr 2; ring
  | exp a b c z => rfl

theorem rate_self (sde : SDE) (s : ℝ) : rate sde s s = 0 := by
  cases sde <;> simp [rate, betaIntegral]

theorem rate_add (sde : SDE) (t s r : ℝ) : rate sde t r = rate sde t s + rate sde s r := by
  cases sde with
  | const a b => simp only [rate]; ring
  | lin bm bM t0 T => simp only [rate, betaIntegral]; ring
  | exp a b c z => simp only [rate]; ring

/-- **C26.**  Flow property of the discretisation. -/
theorem C26_flow {sde : SDE} (_h : Defined sde) (t s r : ℝ) :
    discretise sde s s = (1, 0) ∧
    (discretise sde t r).1 = (discretise sde t s).1 * (discretise sde s r).1 ∧
    (discretise sde t r).2 = (discretise sde t s).1 ^ 2 * (discretise sde s r).2 + (discretise sde t s).2 := by
  refine ⟨Prod.ext ?_ ?_, ?_, ?_⟩
  · rw [F_eq, rate_self, Real.exp_zero]
  · rw [Q_eq, rate_self]; simp
  · rw [F_eq, F_eq, F_eq, rate_add sde t s r, Real.exp_add]
  · rw [F_eq, Q_eq, Q_eq, Q_eq, rate_add sde t s r, mul_add, Real.exp_add, ← Real.exp_nat_mul]
    push_cast
    ring

/-- **C26.**  `mean` and `variance`, where a class has them, agree with the discretisation. -/
theorem C26_moments {sde : SDE} (_h : Defined sde) (t s m0 : ℝ) :
    (∀ m ∈ mean sde t s m0, m = (discretise sde t s).1 * m0) ∧
    (∀ v ∈ Linear.variance sde t s, v = (discretise sde t s).2) ∧
    ((mean sde t s m0).isSome ↔ (Linear.variance sde t s).isSome) ∧
    ((mean sde t s m0).isSome ↔ ∀ a b c z, sde ≠ .exp a b c z) := by
  cases sde <;> simp [mean, Linear.variance, discretise, mul_comm]

theorem hasDerivAt_rate {sde : SDE} (h : Defined sde) (t s : ℝ) :
    HasDerivAt (fun t => rate sde t s) (drift sde 1 t) t := by
  cases sde with
  | const a b =>
    simp only [rate, drift]
    simpa using ((hasDerivAt_id t).sub_const s).const_mul a
  | lin bm bM t0 T =>
    have h' : T - t0 ≠ 0 := sub_ne_zero.2 (Ne.symm h)
    simp only [rate, drift, betaIntegral, beta]
    have h1 : HasDerivAt (fun t : ℝ => 0.5 * (t - s)) (0.5 * 1) t := ((hasDerivAt_id t).sub_const s).const_mul _
    have h2 : HasDerivAt (fun t : ℝ => (bM - bm) / (T - t0) * (t + s) + 2 * (bm * T - bM * t0) / (T - t0))
        ((bM - bm) / (T - t0) * 1) t := (((hasDerivAt_id t).add_const s).const_mul _).add_const _
    refine ((h1.mul h2).const_mul (-0.5)).congr_deriv ?_
    field_simp
    ring
  | exp a b c z =>
    obtain ⟨ha, hc⟩ := h
    simp only [rate, drift]
    have h1 : HasDerivAt (fun t : ℝ => c * (t - z)) (c * 1) t := ((hasDerivAt_id t).sub_const z).const_mul c
    refine (((h1.exp.sub_const (Real.exp (c * (s - z)))).const_mul a).div_const c).congr_deriv ?_
    field_simp

theorem drift_eq (sde : SDE) (x t : ℝ) : drift sde x t = drift sde 1 t * x := by
  cases sde <;> simp [drift]

theorem disp_sq {sde : SDE} (h : Defined sde) {t : ℝ} (hr : RealDisp sde t) :
    dispersion sde t ^ 2 = -2 * stationaryVar sde * drift sde 1 t := by
  cases sde with
  | const a b =>
    have h : a ≠ 0 := h
    simp only [dispersion, stationaryVar, drift]; field_simp
  | lin bm bM t0 T =>
    simp only [dispersion, stationaryVar, drift]
    rw [Real.sq_sqrt hr]; ring
  | exp a b c z =>
    obtain ⟨ha, hc⟩ := h
    simp only [dispersion, stationaryVar, drift]
    rw [mul_pow, ← Real.exp_nat_mul]
    push_cast
    rw [mul_div_cancel₀ _ (two_ne_zero' ℝ)]
    field_simp

/-- **C27, existence.**  `F` and `Q` solve the moment equations with the coefficients of `drift`, `dispersion`. -/
theorem C27_ode {sde : SDE} (h : Defined sde) (t s : ℝ) :
    HasDerivAt (fun t => (discretise sde t s).1) (drift sde (discretise sde t s).1 t) t ∧
    (RealDisp sde t → HasDerivAt (fun t => (discretise sde t s).2)
      (2 * drift sde (discretise sde t s).2 t + dispersion sde t ^ 2) t) := by
  have h1 := hasDerivAt_rate h t s
  constructor
  · simp only [F_eq]
    rw [drift_eq, mul_comm]
    exact h1.exp
  · intro hr
    simp only [Q_eq]
    rw [drift_eq, disp_sq h hr]
    refine ((((h1.const_mul 2).exp).const_sub 1).const_mul (stationaryVar sde)).congr_deriv ?_
    ring

/-- A solution of `D' = k a D` that vanishes at `s`. -/
theorem zero_of_ode {sde : SDE} (h : Defined sde) {s T' : ℝ} (hT : s ≤ T') (k : ℝ) {D : ℝ → ℝ}
    (hD : ∀ t ∈ Set.Icc s T', HasDerivAt D (k * drift sde (D t) t) t) (h0 : D s = 0) : D T' = 0 := by
  have hder : ∀ t ∈ Set.Icc s T', HasDerivAt (fun t => D t * Real.exp (-(k * rate sde t s))) 0 t := by
    intro t ht
    refine ((hD t ht).mul ((hasDerivAt_rate h t s).const_mul k).neg.exp).congr_deriv ?_
    rw [drift_eq sde (D t)]
    ring
  have hc := constant_of_has_deriv_right_zero (f := fun t => D t * Real.exp (-(k * rate sde t s))) (a := s) (b := T')
    (fun t ht => (hder t ht).continuousAt.continuousWithinAt)
    (fun t ht => (hder t ⟨ht.1, ht.2.le⟩).hasDerivWithinAt) T' ⟨hT, le_rfl⟩
  simp only [h0, zero_mul] at hc
  exact (mul_eq_zero.1 hc).resolve_right (Real.exp_pos _).ne'

/-- **C27, uniqueness.**  They are the only solutions with `F = 1`, `Q = 0` at `t = s`. -/
theorem C27_unique {sde : SDE} (h : Defined sde) {s T' : ℝ} (hT : s ≤ T') {F Q : ℝ → ℝ} (hF0 : F s = 1) (hQ0 : Q s = 0)
    (hF : ∀ t ∈ Set.Icc s T', HasDerivAt F (drift sde (F t) t) t)
    (hr : ∀ t ∈ Set.Icc s T', RealDisp sde t)
    (hQ : ∀ t ∈ Set.Icc s T', HasDerivAt Q (2 * drift sde (Q t) t + dispersion sde t ^ 2) t) :
    discretise sde T' s = (F T', Q T') := by
  have hsub : ∀ x y t, drift sde (x - y) t = drift sde x t - drift sde y t := by
    intro x y t; rw [drift_eq, drift_eq sde x, drift_eq sde y, mul_sub]
  obtain ⟨h0, -, -⟩ := C26_flow h s s s
  have h1 : (discretise sde T' s).1 - F T' = 0 := by
    refine zero_of_ode h hT 1 (D := fun t => (discretise sde t s).1 - F t) (fun t ht => ?_) ?_
    · rw [one_mul, hsub]; exact (C27_ode h t s).1.sub (hF t ht)
    · simp only [h0, hF0, sub_self]
  have h2 : (discretise sde T' s).2 - Q T' = 0 := by
    refine zero_of_ode h hT 2 (D := fun t => (discretise sde t s).2 - Q t) (fun t ht => ?_) ?_
    · refine (((C27_ode h t s).2 (hr t ht)).sub (hQ t ht)).congr_deriv ?_
      rw [hsub]; ring
    · simp only [h0, hQ0, sub_self]
  exact Prod.ext (sub_eq_zero.1 h1) (sub_eq_zero.1 h2)

/-- **C28.**  The schedule: end points, affine, bounds, and its integral. -/
theorem C28_beta {bm bM t0 T : ℝ} (hT : t0 < T) (hb : bm ≤ bM) :
    beta bm bM t0 T t0 = bm ∧ beta bm bM t0 T T = bM ∧
    (∀ x y lam, beta bm bM t0 T ((1 - lam) * x + lam * y) =
      (1 - lam) * beta bm bM t0 T x + lam * beta bm bM t0 T y) ∧
    (∀ t, t0 ≤ t → t ≤ T → bm ≤ beta bm bM t0 T t ∧ beta bm bM t0 T t ≤ bM) := by
  have h : T - t0 ≠ 0 := (sub_pos.2 hT).ne'
  have he : ∀ t, beta bm bM t0 T t = bm + (bM - bm) * ((t - t0) / (T - t0)) := by
    intro t; simp only [beta]; field_simp; ring
  refine ⟨by rw [he]; simp, by rw [he, div_self h]; ring, fun x y lam => ?_, fun t h1 h2 => ?_⟩
  · rw [he, he, he]; field_simp; ring
  · have hd : 0 ≤ (t - t0) / (T - t0) := div_nonneg (by linarith) (by linarith)
    have hd' : (t - t0) / (T - t0) ≤ 1 := (div_le_one (sub_pos.2 hT)).2 (by linarith)
    have hb' : 0 ≤ bM - bm := by linarith
    rw [he]
    constructor
    · nlinarith [mul_nonneg hb' hd]
    · nlinarith [mul_le_mul_of_nonneg_left hd' hb']

/-- **C28.**  `beta_integral(t, s)` is the integral of `beta` from `s` to `t`. -/
theorem C28_integral {bm bM t0 T : ℝ} (hT : t0 < T) (t s : ℝ) :
    betaIntegral bm bM t0 T t s = ∫ x in s..t, beta bm bM t0 T x := by
  have h : T - t0 ≠ 0 := (sub_pos.2 hT).ne'
  simp only [beta, betaIntegral]
  rw [intervalIntegral.integral_add (Continuous.intervalIntegrable (by fun_prop) _ _)
    (Continuous.intervalIntegrable (by fun_prop) _ _), intervalIntegral.integral_const_mul,
    intervalIntegral.integral_const, integral_id, smul_eq_mul]
  field_simp
  ring

theorem rate_neg {sde : SDE} {t s : ℝ} (ht : Admissible sde t) (hs : Admissible sde s) (hst : s < t) :
    rate sde t s < 0 := by
  cases sde with
  | const a b => exact mul_neg_of_neg_of_pos ht.1 (sub_pos.2 hst)
  | lin bm bM t0 T =>
    obtain ⟨hT, hb, hbM, h1, h2⟩ := ht
    obtain ⟨-, -, -, h3, h4⟩ := hs
    have h : 0 < betaIntegral bm bM t0 T t s := by
      have e : betaIntegral bm bM t0 T t s = (t - s) * beta bm bM t0 T ((t + s) / 2) := by
        have h : T - t0 ≠ 0 := (sub_pos.2 hT).ne'
        simp only [beta, betaIntegral]; field_simp; ring
      rw [e]
      exact mul_pos (sub_pos.2 hst) (hb.trans_le ((C28_beta hT hbM).2.2.2 _ (by linarith) (by linarith)).1)
    simp only [rate]; linarith
  | exp a b c z =>
    obtain ⟨ha, -, hc⟩ := ht
    simp only [rate, mul_div_assoc]
    refine mul_neg_of_neg_of_pos ha ?_
    rcases lt_or_gt_of_ne hc with hc | hc
    · refine div_pos_of_neg_of_neg (sub_neg.2 (Real.exp_lt_exp.2 ?_)) hc
      nlinarith
    · refine div_pos (sub_pos.2 (Real.exp_lt_exp.2 ?_)) hc
      nlinarith

theorem stationaryVar_pos {sde : SDE} {t : ℝ} (h : Admissible sde t) : 0 < stationaryVar sde := by
  cases sde with
  | const a b =>
    exact div_pos_of_neg_of_neg (neg_neg_of_pos (by have := h.2; positivity)) (by have := h.1; linarith)
  | lin bm bM t0 T => exact one_pos
  | exp a b c z =>
    exact div_pos_of_neg_of_neg (neg_neg_of_pos (by have := h.2.1; positivity)) (by have := h.1; linarith)

/-- **C29.**  Stationarity and bounds. -/
theorem C29_bounds {sde : SDE} {t s : ℝ} (ht : Admissible sde t) (hs : Admissible sde s) (hst : s < t) :
    (discretise sde t s).1 ^ 2 * stationaryVar sde + (discretise sde t s).2 = stationaryVar sde ∧
    0 < (discretise sde t s).2 ∧ (discretise sde t s).2 < stationaryVar sde ∧
    0 < (discretise sde t s).1 ∧ (discretise sde t s).1 < 1 := by
  have hr := rate_neg ht hs hst
  have hS := stationaryVar_pos ht
  have he : Real.exp (2 * rate sde t s) < 1 := Real.exp_lt_one_iff.2 (by linarith)
  have he' := Real.exp_pos (2 * rate sde t s)
  refine ⟨?_, ?_, ?_, ?_, ?_⟩
  · rw [F_eq, Q_eq, ← Real.exp_nat_mul]; push_cast; ring
  · rw [Q_eq]; exact mul_pos hS (by linarith)
  · rw [Q_eq]; nlinarith
  · rw [F_eq]; exact Real.exp_pos _
  · rw [F_eq]; exact Real.exp_lt_one_iff.2 hr

/-- **C29.**  The variance increases strictly with time. -/
theorem C29_increasing {sde : SDE} {t t' s : ℝ} (ht : Admissible sde t) (ht' : Admissible sde t') (h : t < t') :
    (discretise sde t s).2 < (discretise sde t' s).2 := by
  have hr := rate_neg ht' ht h
  have hS := stationaryVar_pos ht
  rw [Q_eq, Q_eq, rate_add sde t' t s]
  refine mul_lt_mul_of_pos_left ?_ hS
  have : Real.exp (2 * (rate sde t' t + rate sde t s)) < Real.exp (2 * rate sde t s) :=
    Real.exp_lt_exp.2 (by linarith)
  linarith

/-- **C30.**  The conditional score is the derivative of the log transition density. -/
theorem C30_score (sde : SDE) {t s : ℝ} (hQ : 0 < (discretise sde t s).2) (x x0 : ℝ) :
    HasDerivAt (fun y => Real.log (gaussianPDFReal ((discretise sde t s).1 * x0) (discretise sde t s).2.toNNReal y))
      (condScore sde x t x0 s) x := by
  set F := (discretise sde t s).1
  set Q := (discretise sde t s).2
  have hc : (√(2 * Real.pi * Q))⁻¹ ≠ 0 := by positivity
  have he : ∀ y, Real.log (gaussianPDFReal (F * x0) Q.toNNReal y) =
      Real.log (√(2 * Real.pi * Q))⁻¹ + -(y - F * x0) ^ 2 / (2 * Q) := by
    intro y
    rw [gaussianPDFReal, Real.coe_toNNReal _ hQ.le, Real.log_mul hc (Real.exp_pos _).ne', Real.log_exp]
  rw [funext he]
  have h1 : HasDerivAt (fun y : ℝ => (y - F * x0) ^ 2) (2 * (x - F * x0)) x := by
    refine (((hasDerivAt_id x).sub_const (F * x0)).pow 2).congr_deriv ?_
    simp
  refine ((h1.neg.div_const (2 * Q)).const_add (Real.log (√(2 * Real.pi * Q))⁻¹)).congr_deriv ?_
  simp only [condScore]
  change _ = -(x - F * x0) / Q
  field_simp

/-- **C30** in the situation of the library: admissible parameters and `s < t`. -/
theorem C30_score_admissible {sde : SDE} {t s : ℝ} (ht : Admissible sde t) (hs : Admissible sde s) (hst : s < t)
    (x x0 : ℝ) :
    HasDerivAt (fun y => Real.log (gaussianPDFReal ((discretise sde t s).1 * x0) (discretise sde t s).2.toNNReal y))
      (condScore sde x t x0 s) x :=
  C30_score sde (C29_bounds ht hs hst).2.1 x x0

/-- **C32.**  Same discretisation and conditional score. -/
theorem C32_discretise (a b t s x x0 : ℝ) :
    discretiseOu a b (t - s) = discretise (.const a b) t s ∧
    condScoreOu a b x (t - s) x0 = condScore (.const a b) x t x0 s := ⟨rfl, rfl⟩

theorem scan_zip_ou {ι : Type} (a b : ℝ) : ∀ (ts ts' : List ℝ) (rnds : List (ι → ℝ)) (x : ι → ℝ),
    Jax.scan (fwdBodyOu a b) x ((List.zipWith (fun t s => t - s) ts ts').zip rnds) =
      Jax.scan (fwdBody (.const a b)) x (ts.zip (ts'.zip rnds))
  | [], _, _, _ => by simp [Jax.scan]
  | _ :: _, [], _, _ => by simp [Jax.scan]
  | _ :: _, _ :: _, [], _ => by simp [Jax.scan]
  | t :: ts, s :: ts', r :: rnds, x => by
    simp only [List.zipWith_cons_cons, List.zip_cons_cons, Jax.scan]
    rw [scan_zip_ou a b ts ts' rnds]
    rfl

/-- **C32.**  Same simulated path: the two programs are equal, draw by draw. -/
theorem C32_paths {ι : Type} [Fintype ι] (a b : ℝ) (key : Key) (x0 : ι → ℝ) (ts : Arr1 ℝ) :
    simulatePathOu a b key x0 ts = simulatePath (.const a b) key x0 ts := by
  have hl : (diff ts).length = ts.2.length := by
    simp [diff, Arr1.init]
  simp only [simulatePathOu, simulatePath, hl]
  congr 1
  funext rnds
  rw [diff, scan_zip_ou]

/-! ### The hypotheses can be met -/

example : Admissible (.const (-1 / 2) 1) 3 ∧ Admissible (.lin 0.02 5 0 2) 1 ∧ Admissible (.exp (-1) 2 3 1) 5 := by
  refine ⟨⟨by norm_num, by norm_num⟩, ⟨by norm_num, by norm_num, by norm_num, by norm_num, by norm_num⟩,
    ⟨by norm_num, by norm_num, by norm_num⟩⟩

example : 0 < (discretise (.lin 0.02 5 0 2) 1.5 0.5).2 ∧ (discretise (.lin 0.02 5 0 2) 1.5 0.5).2 < 1 :=
  have h := C29_bounds (sde := .lin 0.02 5 0 2) (t := 1.5) (s := 0.5) (by norm_num [Admissible])
    (by norm_num [Admissible]) (by norm_num)
  ⟨h.2.1, h.2.2.1⟩

example : RealDisp (.lin 0.02 5 0 2) 1 := by norm_num [RealDisp, beta]

end Props
end Fbs
