import Verif.Props.CsmcPrior
import Verif.Lemmas.TanhPair

/-!
# C110: the loop of `tests/test_csmc.py` itself
-/

open MeasureTheory ProbabilityTheory Filter
open scoped ENNReal NNReal Topology

namespace Fbs
namespace Props

open Jax Spec Csmc Gibbs CsmcTest TanhPair

section

variable {F Q statVar : ℝ}

/-- Two successive states. -/
noncomputable def pairLaw (F Q statVar : ℝ) : Measure (ℝ × ℝ) := (gaussianReal 0 statVar.toNNReal) ⊗ₘ testStep F Q

instance : IsProbabilityMeasure (pairLaw F Q statVar) := by unfold pairLaw; infer_instance

theorem prior_pair (t0 t1 : ℝ) {f : Arr1 ℝ → ℝ≥0∞} (hf : Measurable fun q : ℝ × ℝ => f (q.1, [q.2])) :
    (testH F Q statVar one_pos).prior (t0, [t1]) f = ∫⁻ q, f (q.1, [q.2]) ∂(pairLaw F Q statVar) := by
  unfold pairLaw
  rw [Measure.lintegral_compProd hf]
  rfl

theorem pair_fst : (pairLaw F Q statVar).map Prod.fst = gaussianReal 0 statVar.toNNReal := Measure.fst_compProd _ _

theorem pair_snd (hQ : 0 ≤ Q) (hs : 0 ≤ statVar) (hst : statVar * F ^ 2 + Q = statVar) :
    (pairLaw F Q statVar).map Prod.snd = gaussianReal 0 statVar.toNNReal := by
  refine Measure.ext_of_lintegral _ fun f hf => ?_
  have h1 : Measurable fun q : ℝ × ℝ => f q.2 := hf.comp measurable_snd
  rw [lintegral_map hf measurable_snd]
  unfold pairLaw
  rw [Measure.lintegral_compProd h1]
  have e1 : (gaussianReal 0 statVar.toNNReal).map (F * ·) = gaussianReal 0 (F ^ 2 * statVar).toNNReal := by
    rw [gaussianReal_map_const_mul, mul_zero]
    congr 1
    exact NNReal.eq (by simp [hs, mul_nonneg (sq_nonneg F) hs])
  have e2 : (gaussianReal 0 1).map (Real.sqrt Q * ·) = gaussianReal 0 Q.toNNReal := by
    rw [gaussianReal_map_const_mul, mul_zero]
    congr 1
    exact NNReal.eq (by simp [hQ, Real.sq_sqrt hQ])
  have e3 : gaussianReal 0 (F ^ 2 * statVar).toNNReal ∗ gaussianReal 0 Q.toNNReal = gaussianReal 0 statVar.toNNReal := by
    rw [gaussianReal_conv_gaussianReal, add_zero, ← Real.toNNReal_add (mul_nonneg (sq_nonneg F) hs) hQ, mul_comm, hst]
  have e4 : ∫⁻ x, f x ∂(gaussianReal 0 statVar.toNNReal) = ∫⁻ x, ∫⁻ y, f (x + y) ∂((gaussianReal 0 1).map (Real.sqrt Q * ·))
      ∂((gaussianReal 0 statVar.toNNReal).map (F * ·)) := by
    rw [e1, e2, ← Measure.lintegral_conv hf, e3]
  rw [e4]
  have hm : Measurable fun x => ∫⁻ y, f (x + y) ∂((gaussianReal 0 1).map (Real.sqrt Q * ·)) :=
    (hf.comp measurable_add).lintegral_prod_right'
  rw [lintegral_map hm (by fun_prop)]
  refine lintegral_congr fun u => ?_
  have hm2 : Measurable fun y => f (F * u + y) := hf.comp (by fun_prop)
  rw [lintegral_map hm2 (by fun_prop), lintegral_testStep F hQ u hf, mul_comm u]

theorem pair_ne (hQ : 0 < Q) : ¬ ∀ᵐ q ∂(pairLaw F Q statVar), q.1 = q.2 := by
  intro h
  unfold pairLaw at h
  rw [Measure.ae_compProd_iff (measurableSet_eq_fun measurable_fst measurable_snd)] at h
  obtain ⟨x, hx⟩ := h.exists
  rw [testStep_eq F hQ.le] at hx
  have hv : Q.toNNReal ≠ 0 := (Real.toNNReal_pos.2 hQ).ne'
  have := nullSingletonClass_gaussianReal (μ := x * F) hv
  have h0 : gaussianReal (x * F) Q.toNNReal {x} = 0 := measure_singleton x
  have h1 : gaussianReal (x * F) Q.toNNReal {x}ᶜ = 0 := by
    rw [← ae_iff.1 hx]
    congr 1
    ext y
    simp [eq_comm]
  have h2 := measure_add_measure_compl (μ := gaussianReal (x * F) Q.toNNReal) (measurableSet_singleton x)
  rw [h0, h1, measure_univ] at h2
  simp at h2

/-- The densities of two observations at one state. -/
theorem lik_pair (a b u : ℝ) :
    ENNReal.ofReal (Real.exp ((testH F Q statVar one_pos).logLik a u)) * ENNReal.ofReal (Real.exp ((testH F Q statVar one_pos).logLik b u))
      = gaussianPDF 0 1 a * gaussianPDF 0 1 b * tilt u (a + b) := by
  show ENNReal.ofReal (Real.exp (Linear.normLogpdf a (emission u) (Real.sqrt 1))) *
    ENNReal.ofReal (Real.exp (Linear.normLogpdf b (emission u) (Real.sqrt 1))) = _
  rw [exp_linear_normLogpdf (by simp), exp_linear_normLogpdf (by simp)]
  unfold gaussianPDF tilt emission
  rw [← ENNReal.ofReal_mul (gaussianPDFReal_nonneg _ _ _), ← ENNReal.ofReal_mul (gaussianPDFReal_nonneg _ _ _),
    ← ENNReal.ofReal_mul (mul_nonneg (gaussianPDFReal_nonneg _ _ _) (gaussianPDFReal_nonneg _ _ _))]
  congr 1
  simp only [Real.sqrt_one, one_pow, Real.toNNReal_one, gaussianPDFReal]
  have h : ∀ c x y z w r : ℝ, c * Real.exp x * (c * Real.exp y) = c * Real.exp z * (c * Real.exp w) * Real.exp r ↔
      c * c * Real.exp (x + y) = c * c * Real.exp (z + w + r) := fun c x y z w r => by
    rw [Real.exp_add, Real.exp_add, Real.exp_add]
    constructor <;> intro h <;> linarith
  rw [h]
  congr 2
  push_cast
  ring

theorem test_refMean (a b : ℝ) (t0 t1 : ℝ) (B : Set ℝ) (hB : MeasurableSet B) :
    refMean (testH F Q statVar one_pos).space.init ((testH F Q statVar one_pos).space.logG0 a b)
        ((testH F Q statVar one_pos).space.steps a [b] [t0, t1]) (onPath 1 fun q => B.indicator 1 (q 0))
      = wmean (gaussianReal 0 statVar.toNNReal) (B.indicator 1) (a + b) * (wmean (gaussianReal 0 statVar.toNNReal) 1 (a + b))⁻¹ := by
  set H := testH F Q statVar one_pos with hH
  unfold refMean
  show (∫⁻ u, ENNReal.ofReal (Real.exp (H.logLik a u)) * (ENNReal.ofReal (Real.exp (H.logLik b u)) *
      ∫⁻ u', B.indicator 1 u ∂(testStep F Q u)) ∂(gaussianReal 0 statVar.toNNReal)) *
    (∫⁻ u, ENNReal.ofReal (Real.exp (H.logLik a u)) * (ENNReal.ofReal (Real.exp (H.logLik b u)) *
      ∫⁻ u', 1 ∂(testStep F Q u)) ∂(gaussianReal 0 statVar.toNNReal))⁻¹ = _
  simp only [lintegral_const, measure_univ, mul_one]
  set c := gaussianPDF 0 1 a * gaussianPDF 0 1 b with hc
  have h0 : c ≠ 0 := mul_ne_zero (gaussianPDF_pos 0 one_ne_zero a).ne' (gaussianPDF_pos 0 one_ne_zero b).ne'
  have h1 : c ≠ ∞ := ENNReal.mul_ne_top gaussianPDF_ne_top gaussianPDF_ne_top
  have e1 : ∀ u, ENNReal.ofReal (Real.exp (H.logLik a u)) * (ENNReal.ofReal (Real.exp (H.logLik b u)) * B.indicator 1 u)
      = c * (tilt u (a + b) * B.indicator 1 u) := fun u => by rw [← mul_assoc, lik_pair, mul_assoc]
  have e2 : ∀ u, ENNReal.ofReal (Real.exp (H.logLik a u)) * ENNReal.ofReal (Real.exp (H.logLik b u))
      = c * (tilt u (a + b) * (1 : ℝ → ℝ≥0∞) u) := fun u => by rw [lik_pair, Pi.one_apply, mul_one]
  have m1 : Measurable fun u => tilt u (a + b) * B.indicator 1 u := (measurable_tilt_right _).mul (measurable_one.indicator hB)
  have m2 : Measurable fun u => tilt u (a + b) * (1 : ℝ → ℝ≥0∞) u := (measurable_tilt_right _).mul measurable_one
  rw [lintegral_congr e1, lintegral_congr e2, lintegral_const_mul _ m1, lintegral_const_mul _ m2]
  show c * wmean _ _ _ * (c * wmean _ _ _)⁻¹ = _
  rw [ENNReal.mul_inv (Or.inl h0) (Or.inl h1)]
  calc _ = c * c⁻¹ * (wmean (gaussianReal 0 statVar.toNNReal) (B.indicator 1) (a + b) *
        (wmean (gaussianReal 0 statVar.toNNReal) 1 (a + b))⁻¹) := by ring
    _ = _ := by rw [ENNReal.mul_inv_cancel h0 h1, one_mul]

theorem lintegral_stdNormal_two {ψ : ℝ → ℝ≥0∞} (hψ : Measurable ψ) :
    ∫⁻ z, ψ (z 0 + z 1) ∂(Jax.stdNormal (Fin 2)) = ∫⁻ z, ψ z ∂(gaussianReal 0 2) := by
  have h := gaussianReal_conv_gaussianReal (m₁ := 0) (m₂ := 0) (v₁ := 1) (v₂ := 1)
  rw [add_zero, one_add_one_eq_two] at h
  rw [← h, Measure.lintegral_conv hψ]
  unfold Jax.stdNormal
  have hm : Measurable fun z : Fin 2 → ℝ => ψ (z 0 + z 1) := hψ.comp (by fun_prop)
  rw [lintegral_rows _ 1 hm]
  refine lintegral_congr fun x => ?_
  have hm2 : Measurable fun w : Fin 1 → ℝ => ψ ((Fin.cons x w : Fin 2 → ℝ) 0 + (Fin.cons x w : Fin 2 → ℝ) 1) :=
    hψ.comp (measurable_const.add (measurable_pi_apply 0))
  rw [lintegral_rows _ 0 hm2]
  simp

theorem logLik_bound (v u : ℝ) : |(testH F Q statVar one_pos).logLik v u| ≤ (|v| + 1) ^ 2 + |Real.log (2 * Real.pi)| := by
  show |Linear.normLogpdf v (emission u) (Real.sqrt 1)| ≤ _
  unfold Linear.normLogpdf
  rw [Real.sqrt_one, one_pow, mul_one, div_one, abs_div, abs_neg, abs_two]
  have h1 : |v - emission u| ≤ |v| + 1 := (abs_sub _ _).trans (add_le_add le_rfl (abs_tanh_le u))
  have h2 : (v - emission u) ^ 2 ≤ (|v| + 1) ^ 2 := by
    rw [← sq_abs (v - emission u)]
    exact pow_le_pow_left₀ (abs_nonneg _) h1 2
  have h3 := abs_add_le (Real.log (2 * Real.pi)) ((v - emission u) ^ 2)
  rw [abs_of_nonneg (sq_nonneg (v - emission u))] at h3
  have h4 := abs_nonneg (Real.log (2 * Real.pi))
  have h5 := sq_nonneg (|v| + 1)
  linarith

/-- The mean of `1_B` of the first state after one round with exact draws. -/
noncomputable def idealRound (statVar : ℝ) (B : Set ℝ) (s : ℝ) : ℝ≥0∞ :=
  wmean (gaussianReal 0 statVar.toNNReal) (B.indicator 1) s * (wmean (gaussianReal 0 statVar.toNNReal) 1 s)⁻¹

theorem measurable_idealRound {B : Set ℝ} (hB : MeasurableSet B) : Measurable (idealRound statVar B) := by
  have h1 : Measurable (wmean (gaussianReal 0 statVar.toNNReal) (B.indicator 1)) := measurable_wmean (measurable_one.indicator hB)
  have h2 : Measurable (wmean (gaussianReal 0 statVar.toNNReal) 1) := measurable_wmean measurable_one
  exact h1.mul h2.inv

theorem ind_le_one (B : Set ℝ) (x : ℝ) : B.indicator (1 : ℝ → ℝ≥0∞) x ≤ 1 := Set.indicator_le_self' (fun _ _ => zero_le) x

/-- The exact round, written with the observations instead of their sum. -/
theorem ideal_lik (hQ : 0 ≤ Q) (hs : 0 ≤ statVar) {B : Set ℝ} (hB : MeasurableSet B) (q : ℝ × ℝ) :
    ∫⁻ z, idealRound statVar B (Real.tanh q.1 + Real.tanh q.2 + z) ∂(gaussianReal 0 2)
      = ∫⁻ y, emW (testH F Q statVar one_pos) (id : Fin 2 → Fin 2) y ![q.1, q.2] * idealRound statVar B (y 0 + y 1)
          ∂(Measure.pi fun _ => (testH F Q statVar one_pos).base) := by
  have hideal := measurable_idealRound (statVar := statVar) hB
  have he := (C110_test_functions (N := 1) (K := 1) F hQ hs one_pos).2
  have h := he [] ![q.1, q.2] (fun vs => idealRound statVar B (vs.1 + vs.2.headD 0))
    (hideal.comp ((measurable_pi_apply 0).add (measurable_pi_apply 1)))
  rw [samplerYs_E (K := 1) 1 [] (by simp [arr]), rowsOf_arr] at h
  have hψ : Measurable fun z => idealRound statVar B (Real.tanh q.1 + Real.tanh q.2 + z) := hideal.comp (by fun_prop)
  rw [← lintegral_stdNormal_two hψ]
  refine Eq.trans (lintegral_congr fun z => ?_) h
  show idealRound statVar B _ = idealRound statVar B ((Real.tanh q.1 + Real.sqrt 1 * z 0) + (Real.tanh q.2 + Real.sqrt 1 * z 1))
  congr 1
  rw [Real.sqrt_one]
  ring

/-- With many particles one call becomes an exact draw given the observations. -/
theorem call_limit (hQ : 0 ≤ Q) (hs : 0 ≤ statVar) (t0 t1 : ℝ) {B : Set ℝ} (hB : MeasurableSet B) (us : Arr1 ℝ)
    (hu : us.2.length = 1) (y : Fin 2 → ℝ) :
    Tendsto (fun N : ℕ => (Csmc.kernel (funs (N + 1) F Q 1 statVar) CsmcResampling.killing (N + 1) false [] us
        (0, List.replicate 1 0) (arr y) (t0, [t1])).E (fun out => onPath 1 (fun q => B.indicator 1 (q 0)) out.1)) atTop
      (𝓝 (idealRound statVar B (y 0 + y 1))) := by
  have hm : ∀ N, Implements (funs (N + 1) F Q 1 statVar) (testH F Q statVar one_pos).space :=
    fun N => (C110_test_functions (K := 1) F hQ hs one_pos).1
  have hFm : Measurable fun q : Fin 2 → ℝ => B.indicator (1 : ℝ → ℝ≥0∞) (q 0) :=
    (measurable_one.indicator hB).comp (measurable_pi_apply 0)
  have hy : arr y = (y 0, [y 1]) := rfl
  have e := test_refMean (F := F) (Q := Q) (statVar := statVar) (y 0) (y 1) t0 t1 B hB
  unfold idealRound
  rw [← e, hy]
  obtain ⟨β, hβ⟩ : ∃ β, β = max ((|y 0| + 1) ^ 2 + |Real.log (2 * Real.pi)|) ((|y 1| + 1) ^ 2 + |Real.log (2 * Real.pi)|) := ⟨_, rfl⟩
  have hβ0 : 0 ≤ β := hβ ▸ le_max_of_le_left (by positivity)
  have h0 : ∀ u, |(testH F Q statVar one_pos).space.logG0 (y 0) (y 1) u| ≤ β := fun u =>
    hβ ▸ (logLik_bound (F := F) (Q := Q) (statVar := statVar) (y 0) u).trans (le_max_left _ _)
  have h1 : ∀ s ∈ (testH F Q statVar one_pos).space.steps (y 0) [y 1] [t0, t1], ∀ u, |s.g u| ≤ β := fun s hs u => by
    have hs' : s ∈ [_] := hs
    rw [List.mem_singleton] at hs'
    subst hs'
    exact hβ ▸ (logLik_bound (F := F) (Q := Q) (statVar := statVar) (y 1) u).trans (le_max_right _ _)
  exact C97_csmc_limit_at hm hβ0 [] us (fun _ => (0, List.replicate 1 0)) (y 0, [y 1]) (t0, [t1]) h1 h0 hu (fun _ => rfl) rfl
    (measList_onPath hFm) (onPath_le_one fun q => ind_le_one B _)

section

variable {K : ℕ} {U V : Type} [MeasurableSpace U] [MeasurableSpace V] {H : Hmm U V}

theorem measurable_emW_left (src : Fin (K + 1) → Fin (K + 1)) (q : Fin (K + 1) → U) : Measurable fun y => emW H src y q :=
  (measurable_emW src).comp measurable_prodMk_left

theorem roundInt_le_one {N : ℕ} [NeZero N] {m : Csmc.Funs N U V} (hm : Implements m H.space) (src : Fin (K + 1) → Fin (K + 1)) {ts : Arr1 ℝ}
    (ht : ts.2.length = K) {F : (Fin (K + 1) → U) → ℝ≥0∞} (h1 : ∀ q, F q ≤ 1) (q : Fin (K + 1) → U) :
    roundInt H m CsmcResampling.killing N src ts F q ≤ 1 := by
  rw [← lintegral_emW (H := H) src q]
  refine lintegral_mono fun y => mul_le_of_le_one_right' ?_
  refine le_trans (Rand.E_mono _ fun out => onPath_le_one h1 _) ?_
  exact (csmc_total hm killingScheme N [] (arr q) (0, List.replicate K 0) (arr y) ts (by simp [arr]) (by simp [arr])
    (by simp [arr, ht])).le

/-- If one call has a limit at all observations, so has one round. -/
theorem roundInt_tendsto {m : ∀ N, Csmc.Funs (N + 1) U V} (hm : ∀ N, Implements (m N) H.space) (src : Fin (K + 1) → Fin (K + 1))
    {ts : Arr1 ℝ} (ht : ts.2.length = K) {F : (Fin (K + 1) → U) → ℝ≥0∞} (hF : Measurable F) (h1 : ∀ q, F q ≤ 1) (q : Fin (K + 1) → U)
    {L : (Fin (K + 1) → V) → ℝ≥0∞} (hL : ∀ y, Tendsto (fun N => (Csmc.kernel (m N) CsmcResampling.killing (N + 1) false [] (arr q)
      (0, List.replicate K 0) (arr y) ts).E (fun out => onPath K F out.1)) atTop (𝓝 (L y))) :
    Tendsto (fun N => roundInt H (m N) CsmcResampling.killing (N + 1) src ts F q) atTop
      (𝓝 (∫⁻ y, emW H src y q * L y ∂(Measure.pi fun _ => H.base))) := by
  have hk : ∀ N : ℕ, Measurable fun y => (Csmc.kernel (m N) CsmcResampling.killing (N + 1) false [] (arr q)
      (0, List.replicate K 0) (arr y) ts).E (fun out => onPath K F out.1) := fun N =>
    (measurable_csmc_joint (hm N) (Or.inl rfl) (N + 1) [] (0, List.replicate K 0) (by simp) ts ht hF).comp measurable_prodMk_left
  refine tendsto_lintegral_of_dominated_convergence (fun y => emW H src y q) (fun N => (measurable_emW_left src q).mul (hk N))
    (fun N => ae_of_all _ fun y => mul_le_of_le_one_right' ?_) (by rw [lintegral_emW]; exact ENNReal.one_ne_top)
    (ae_of_all _ fun y => ENNReal.Tendsto.const_mul (hL y) (Or.inr (ENNReal.prod_ne_top fun i _ => ENNReal.ofReal_ne_top)))
  refine le_trans (Rand.E_mono _ fun out => onPath_le_one h1 _) ?_
  exact (csmc_total (hm N) killingScheme (N + 1) [] (arr q) (0, List.replicate K 0) (arr y) ts (by simp [arr]) (by simp [arr])
    (by simp [arr, ht])).le

end

/-- With many particles one round becomes the round with exact draws. -/
theorem round_limit (hQ : 0 ≤ Q) (hs : 0 ≤ statVar) (t0 t1 : ℝ) {B : Set ℝ} (hB : MeasurableSet B) (q : ℝ × ℝ) :
    Tendsto (fun N : ℕ => roundInt (testH F Q statVar one_pos) (funs (N + 1) F Q 1 statVar) CsmcResampling.killing (N + 1)
        (id : Fin 2 → Fin 2) (t0, [t1]) (fun q => B.indicator 1 (q 0)) ![q.1, q.2]) atTop
      (𝓝 (∫⁻ z, idealRound statVar B (Real.tanh q.1 + Real.tanh q.2 + z) ∂(gaussianReal 0 2))) := by
  have hm : ∀ N, Implements (funs (N + 1) F Q 1 statVar) (testH F Q statVar one_pos).space :=
    fun N => (C110_test_functions (K := 1) F hQ hs one_pos).1
  have hFm : Measurable fun q : Fin 2 → ℝ => B.indicator (1 : ℝ → ℝ≥0∞) (q 0) :=
    (measurable_one.indicator hB).comp (measurable_pi_apply 0)
  rw [ideal_lik (F := F) hQ hs hB q]
  exact roundInt_tendsto (K := 1) hm id rfl hFm (fun q => ind_le_one B _) ![q.1, q.2]
    fun y => call_limit (F := F) (Q := Q) hQ hs t0 t1 hB (arr ![q.1, q.2]) rfl y

/-- **C110, the loop of the test.**  With the functions of the test, two times and every observation drawn at its own state by
`sampler_ys_cond_xs`, the prior is not kept: for all large numbers of particles a single round changes the probability of
some set for the first state. -/
theorem C110_test_fails {sigma ell dt : ℝ} (hsig : sigma ≠ 0) (hl : 0 < ell) (hd : 0 < dt) (t0 t1 : ℝ) :
    ∃ B : Set ℝ, MeasurableSet B ∧ ∃ N0 : ℕ, ∀ N ≥ N0, ∀ (key : Key) (bs : Arr1 (Fin (N + 1))), bs.2.length = 1 →
      (testH (transFQ sigma ell dt).1 (transFQ sigma ell dt).2 (sigma ^ 2) one_pos).prior (t0, [t1]) (fun us =>
        (csmcGibbs (funs (N + 1) (transFQ sigma ell dt).1 (transFQ sigma ell dt).2 1 (sigma ^ 2)) CsmcResampling.killing (N + 1)
          (samplerYs 1) (t0, [t1]) 1 key us bs).E fun s => B.indicator 1 s.1.1)
      ≠ (testH (transFQ sigma ell dt).1 (transFQ sigma ell dt).2 (sigma ^ 2) one_pos).prior (t0, [t1]) fun us =>
          B.indicator 1 us.1 := by
  have hdisc := C111_discretisation sigma hl dt
  have hlt : Real.exp (-dt / ell) < 1 := Real.exp_lt_one_iff.2 (div_neg_of_neg_of_pos (neg_neg_of_pos hd) hl)
  have hQ : 0 < (transFQ sigma ell dt).2 := by
    rw [hdisc]
    have := Real.exp_pos (-dt / ell)
    have h2 : 0 < sigma ^ 2 := by positivity
    exact mul_pos h2 (by nlinarith)
  have hst : sigma ^ 2 * (transFQ sigma ell dt).1 ^ 2 + (transFQ sigma ell dt).2 = sigma ^ 2 := by
    rw [hdisc]
    ring
  set F := (transFQ sigma ell dt).1
  set Q := (transFQ sigma ell dt).2
  have hs : 0 ≤ sigma ^ 2 := sq_nonneg _
  have hv : (sigma ^ 2).toNNReal ≠ 0 := (Real.toNNReal_pos.2 (by positivity)).ne'
  obtain ⟨B, hB, hne⟩ := ideal_fails hv (pair_fst (F := F) (Q := Q)) (pair_snd hQ.le hs hst) (pair_ne hQ)
  refine ⟨B, hB, ?_⟩
  set H := testH F Q (sigma ^ 2) one_pos with hH
  have hind : Measurable (B.indicator (1 : ℝ → ℝ≥0∞)) := measurable_one.indicator hB
  have hm : ∀ N, Implements (funs (N + 1) F Q 1 (sigma ^ 2)) H.space := fun N => (C110_test_functions (K := 1) F hQ.le hs one_pos).1
  have hFm : Measurable fun q : Fin 2 → ℝ => B.indicator (1 : ℝ → ℝ≥0∞) (q 0) := hind.comp (measurable_pi_apply 0)
  have hmr : ∀ N : ℕ, Measurable fun q : ℝ × ℝ => roundInt H (funs (N + 1) F Q 1 (sigma ^ 2)) CsmcResampling.killing (N + 1)
      (id : Fin 2 → Fin 2) (t0, [t1]) (fun q => B.indicator 1 (q 0)) ![q.1, q.2] := fun N =>
    (measurable_roundInt (hm N) (Or.inl rfl) (N + 1) (id : Fin 2 → Fin 2) (ts := (t0, [t1])) rfl hFm).comp (by
      refine measurable_pi_iff.2 fun i => ?_
      fin_cases i
      · exact measurable_fst
      · exact measurable_snd)
  -- the mean after one round
  have hround : ∀ (N : ℕ) (key : Key) (bs : Arr1 (Fin (N + 1))), bs.2.length = 1 → H.prior (t0, [t1]) (fun us =>
      (csmcGibbs (funs (N + 1) F Q 1 (sigma ^ 2)) CsmcResampling.killing (N + 1) (samplerYs 1) (t0, [t1]) 1 key us bs).E
        fun s => B.indicator 1 s.1.1)
      = ∫⁻ q, roundInt H (funs (N + 1) F Q 1 (sigma ^ 2)) CsmcResampling.killing (N + 1) (id : Fin 2 → Fin 2) (t0, [t1])
          (fun q => B.indicator 1 (q 0)) ![q.1, q.2] ∂(pairLaw F Q (sigma ^ 2)) := fun N key bs hb => by
    have he := (C110_test_functions (N := N + 1) (K := 1) F hQ.le hs one_pos).2
    have e : ∀ q : ℝ × ℝ, (csmcGibbs (funs (N + 1) F Q 1 (sigma ^ 2)) CsmcResampling.killing (N + 1) (samplerYs 1) (t0, [t1]) 1 key
        (q.1, [q.2]) bs).E (fun s => B.indicator 1 s.1.1) = roundInt H (funs (N + 1) F Q 1 (sigma ^ 2)) CsmcResampling.killing (N + 1)
          (id : Fin 2 → Fin 2) (t0, [t1]) (fun q => B.indicator 1 (q 0)) ![q.1, q.2] := fun q => by
      have h := csmcGibbs_eq (hm N) (Or.inl rfl) (N + 1) he (ts := (t0, [t1])) rfl (f := fun us => B.indicator 1 us.1) hFm 1 key
        (q.1, [q.2]) bs rfl hb
      rw [h]
      show roundInt _ _ _ _ _ _ _ _ = _
      congr 1
      funext i
      fin_cases i <;> rfl
    rw [prior_pair t0 t1 (by simp only [e]; exact hmr N)]
    exact lintegral_congr e
  have hbase : H.prior (t0, [t1]) (fun us => B.indicator 1 us.1) = gaussianReal 0 (sigma ^ 2).toNNReal B := by
    rw [prior_pair t0 t1 (f := fun us => B.indicator 1 us.1) (hind.comp measurable_fst)]
    show ∫⁻ q : ℝ × ℝ, B.indicator 1 q.1 ∂_ = _
    rw [← lintegral_map hind measurable_fst, pair_fst, lintegral_indicator_one hB]
  have hlim : Tendsto (fun N : ℕ => ∫⁻ q, roundInt H (funs (N + 1) F Q 1 (sigma ^ 2)) CsmcResampling.killing (N + 1)
      (id : Fin 2 → Fin 2) (t0, [t1]) (fun q => B.indicator 1 (q 0)) ![q.1, q.2] ∂(pairLaw F Q (sigma ^ 2))) atTop
      (𝓝 (∫⁻ s, idealRound (sigma ^ 2) B s ∂(sumLaw (pairLaw F Q (sigma ^ 2))))) := by
    rw [lintegral_sumLaw _ (measurable_idealRound hB)]
    refine tendsto_lintegral_of_dominated_convergence (fun _ => 1) hmr (fun N => ae_of_all _ fun q => ?_) (by simp)
      (ae_of_all _ fun q => round_limit hQ.le hs t0 t1 hB q)
    exact roundInt_le_one (K := 1) (hm N) id rfl (fun q => ind_le_one B _) _
  obtain ⟨N0, hN0⟩ := eventually_atTop.1 (hlim.eventually_ne hne)
  exact ⟨N0, fun N hN key bs hb => by rw [hround N key bs hb, hbase]; exact hN0 N hN⟩

/-- The constants of `/repo/tests/test_csmc.py:34-48`, two times. -/
example : ∃ B : Set ℝ, MeasurableSet B ∧ ∃ N0 : ℕ, ∀ N ≥ N0, ∀ key : Key,
    (testH (transFQ 1 1 1).1 (transFQ 1 1 1).2 (1 ^ 2) one_pos).prior (0, [1]) (fun us =>
        (csmcGibbs (funs (N + 1) (transFQ 1 1 1).1 (transFQ 1 1 1).2 1 (1 ^ 2)) CsmcResampling.killing (N + 1)
          (samplerYs 1) (0, [1]) 1 key us (0, [0])).E fun s => B.indicator 1 s.1.1)
      ≠ (testH (transFQ 1 1 1).1 (transFQ 1 1 1).2 (1 ^ 2) one_pos).prior (0, [1]) fun us => B.indicator 1 us.1 := by
  obtain ⟨B, hB, N0, h⟩ := C110_test_fails one_ne_zero one_pos one_pos 0 1
  exact ⟨B, hB, N0, fun N hN key => h N hN key (0, [0]) rfl⟩

end

end Props
end Fbs
