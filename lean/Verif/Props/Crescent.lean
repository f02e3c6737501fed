import Verif.Model.Crescent
import Verif.Lemmas.Gauss
import Mathlib.Analysis.SpecialFunctions.Log.Deriv
import Mathlib.Analysis.Calculus.Deriv.Pow
import Mathlib.LinearAlgebra.Matrix.Notation

/-!
# C46: the crescent model
-/

open MeasureTheory ProbabilityTheory
open scoped ENNReal NNReal

namespace Fbs

namespace Spec

/-- The documented contract of `jnp.linalg.cholesky`: the lower triangular factor with positive diagonal. -/
def IsCholFactor {n : ℕ} (L M : Matrix (Fin n) (Fin n) ℝ) : Prop :=
  (∀ i j, i < j → L i j = 0) ∧ (∀ i, 0 < L i i) ∧ L * L.transpose = M

/-- The mesh `jnp.dstack(jnp.meshgrid(xs, ys))`. -/
def meshgrid (xs ys : ℕ → ℝ) : ℕ → ℕ → Fin 2 → ℝ := fun a b => ![xs b, ys a]

/-- The two-dimensional trapezoidal rule for values `v a b` at the points `(xs b, ys a)`. -/
noncomputable def trapezoid2 (n : ℕ) (xs ys : ℕ → ℝ) (v : ℕ → ℕ → ℝ) : ℝ :=
  ∑ a ∈ Finset.range (n - 1), ∑ b ∈ Finset.range (n - 1),
    (xs (b + 1) - xs b) * (ys (a + 1) - ys a) * ((v a b + v a (b + 1) + v (a + 1) b + v (a + 1) (b + 1)) / 4)

end Spec

namespace Props

open Crescent Jax Spec

/-! The hypothesis `ψ ≠ 0` of the theorems below excludes the division by zero of `emission`. -/

/-! ### Sampler -/

theorem chol_cov {L : Matrix (Fin 2) (Fin 2) ℝ} (hL : IsCholFactor L cov) : L = !![Real.sqrt 2, 0; 0, 1] := by
  obtain ⟨h1, h2, h3⟩ := hL
  have h01 : L 0 1 = 0 := h1 0 1 (by decide)
  have e00 := congrFun (congrFun h3 0) 0
  have e10 := congrFun (congrFun h3 1) 0
  have e11 := congrFun (congrFun h3 1) 1
  simp [Matrix.mul_apply, Fin.sum_univ_two, cov, h01] at e00 e10 e11
  have p0 := h2 0
  have p1 := h2 1
  have a00 : L 0 0 = Real.sqrt 2 := by
    rw [← e00, Real.sqrt_mul_self p0.le]
  have a10 : L 1 0 = 0 := by
    rcases e10 with h | h
    · exact h
    · exact absurd h p0.ne'
  have a11 : L 1 1 = 1 := by
    rw [a10, mul_zero, zero_add] at e11
    nlinarith
  ext i j
  fin_cases i <;> fin_cases j <;> simp [h01, a00, a10, a11]

/-- One row of a standard normal matrix is a standard normal vector. -/
theorem stdNormal_row {n : ℕ} (j : Fin n) :
    (stdNormal (Fin n × Fin 2)).map (fun z i => z (j, i)) = stdNormal (Fin 2) := by
  have hm : Measurable fun (z : Fin n × Fin 2 → ℝ) (i : Fin 2) => z (j, i) :=
    measurable_pi_iff.2 fun i => measurable_pi_apply _
  symm
  refine Measure.pi_eq fun s hs => ?_
  rw [Measure.map_apply hm (MeasurableSet.univ_pi hs)]
  have hpre : (fun (z : Fin n × Fin 2 → ℝ) (i : Fin 2) => z (j, i)) ⁻¹' Set.univ.pi s =
      Set.univ.pi fun p : Fin n × Fin 2 => if p.1 = j then s p.2 else Set.univ := by
    ext z
    simp only [Set.mem_preimage, Set.mem_univ_pi, Prod.forall]
    constructor
    · intro h a b
      by_cases hab : a = j
      · subst hab; simpa using h b
      · simp [hab]
    · intro h i
      simpa using h j i
  rw [hpre, stdNormal, Measure.pi_pi, Fintype.prod_prod_type]
  rw [Finset.prod_eq_single j (fun a _ ha => by simp [ha]) (by simp)]
  simp

/-- **C46, sampler.**  Each sampled pair is distributed as the model documents: `φ ~ N(0, diag(2, 1))` and
`y | φ ~ N(emission φ, ξ)`. -/
theorem C46_sampler {L : Matrix (Fin 2) (Fin 2) ℝ} (hL : IsCholFactor L cov) {psi xi : ℝ} (_hpsi : psi ≠ 0) (hxi : 0 ≤ xi) (key : Key)
    {n : ℕ} (j : Fin n) {f : (Fin 2 → ℝ) → ℝ → ℝ≥0∞} (hf : Measurable fun p : (Fin 2 → ℝ) × ℝ => f p.1 p.2) :
    (sampler L psi xi key n).E (fun r => f (r.1 j) (r.2 j)) =
      ∫⁻ phi, ∫⁻ y, f phi y ∂(gaussianReal (emission phi psi) xi.toNNReal)
        ∂(Measure.pi fun i => gaussianReal 0 (cov i i).toNNReal) := by
  rw [chol_cov hL]
  simp only [sampler, Rand.E_bind, normal, Rand.E_sample, Rand.pure_eq, Rand.E_ret, zero_add]
  have hem : Measurable fun phi : Fin 2 → ℝ => emission phi psi := by unfold emission; fun_prop
  -- the noise of one observation
  have h1 : ∀ phi : Fin 2 → ℝ, ∫⁻ e, f phi (emission phi psi + Real.sqrt xi * e j) ∂(stdNormal (Fin n)) =
      ∫⁻ y, f phi y ∂(gaussianReal (emission phi psi) xi.toNNReal) := by
    intro phi
    have hfy : Measurable fun y => f phi y := hf.comp (measurable_const.prodMk measurable_id)
    have hp := (measurePreserving_eval (fun _ : Fin n => gaussianReal 0 1) j).lintegral_comp
      (f := fun e => f phi (emission phi psi + Real.sqrt xi * e)) (hfy.comp (by fun_prop))
    refine Eq.trans hp ?_
    have hmap : (gaussianReal 0 1).map (fun z => emission phi psi + Real.sqrt xi * z) =
        gaussianReal (emission phi psi) xi.toNNReal := by
      have : (fun z => emission phi psi + Real.sqrt xi * z) = (emission phi psi + ·) ∘ (Real.sqrt xi * ·) := rfl
      rw [this, ← Measure.map_map (by fun_prop) (by fun_prop), gaussianReal_map_const_mul, gaussianReal_map_const_add]
      congr 1
      · simp
      · exact NNReal.eq (by simp [Real.sq_sqrt hxi, hxi])
    rw [← hmap, lintegral_map hfy (by fun_prop)]
  have hrow : ∀ z : Fin n × Fin 2 → ℝ, Matrix.vecMul (fun i => z (j, i)) !![Real.sqrt 2, 0; 0, 1] =
      fun i => ![Real.sqrt 2, 1] i * z (j, i) := by
    intro z
    ext i
    fin_cases i <;> simp [Matrix.vecMul, dotProduct, Fin.sum_univ_two, mul_comm]
  simp only [hrow, h1]
  have hG : Measurable fun phi : Fin 2 → ℝ => ∫⁻ y, f phi y ∂(gaussianReal (emission phi psi) xi.toNNReal) := by
    have h2 : ∀ phi : Fin 2 → ℝ, ∫⁻ y, f phi y ∂(gaussianReal (emission phi psi) xi.toNNReal) =
        ∫⁻ e, f phi (emission phi psi + e) ∂(gaussianReal 0 xi.toNNReal) := by
      intro phi
      have hmap := gaussianReal_map_const_add (μ := 0) (v := xi.toNNReal) (emission phi psi)
      rw [zero_add] at hmap
      have hfy : Measurable fun y => f phi y := hf.comp (measurable_const.prodMk measurable_id)
      have hadd : Measurable fun x => emission phi psi + x := by fun_prop
      rw [← hmap, lintegral_map hfy hadd]
    rw [funext h2]
    have hm2 : Measurable fun p : (Fin 2 → ℝ) × ℝ => f p.1 (emission p.1 psi + p.2) :=
      hf.comp (measurable_fst.prodMk ((hem.comp measurable_fst).add measurable_snd))
    exact hm2.lintegral_prod_right'
  have hscale : Measurable fun (z : Fin 2 → ℝ) (i : Fin 2) => ![Real.sqrt 2, 1] i * z i :=
    measurable_pi_iff.2 fun i => (measurable_pi_apply i).const_mul _
  have hmr : Measurable fun (z : Fin n × Fin 2 → ℝ) (i : Fin 2) => z (j, i) :=
    measurable_pi_iff.2 fun i => measurable_pi_apply _
  have hsc : (stdNormal (Fin 2)).map (fun z i => ![Real.sqrt 2, 1] i * z i) =
      Measure.pi fun i => gaussianReal 0 (cov i i).toNNReal := by
    have h3 : ∀ i : Fin 2, (gaussianReal 0 1).map (fun z => ![Real.sqrt 2, 1] i * z) =
        gaussianReal 0 (cov i i).toNNReal := by
      intro i
      rw [gaussianReal_map_const_mul]
      congr 1
      · simp
      · refine NNReal.eq ?_
        fin_cases i <;> simp [cov]
    have : ∀ i : Fin 2, IsProbabilityMeasure ((gaussianReal 0 1).map (fun z => ![Real.sqrt 2, 1] i * z)) := fun i => by
      rw [h3]; infer_instance
    rw [stdNormal, Measure.pi_map_pi (f := fun i z => ![Real.sqrt 2, 1] i * z) (fun i => by fun_prop)]
    simp_rw [h3]
  rw [← hsc, lintegral_map hG hscale, ← stdNormal_row j]
  exact (lintegral_map (hG.comp hscale) hmr).symm

/-! ### Densities -/

theorem exp_normLogpdf (x loc : ℝ) {scale : ℝ} (hs : 0 < scale) :
    Real.exp (normLogpdf x loc scale) = gaussianPDFReal loc (scale ^ 2).toNNReal x := by
  have hs2 : (0 : ℝ) < scale ^ 2 := by positivity
  have hc : (((scale ^ 2).toNNReal : ℝ≥0) : ℝ) = scale ^ 2 := Real.coe_toNNReal _ hs2.le
  have hp : 0 < 2 * Real.pi * scale ^ 2 := by positivity
  rw [gaussianPDFReal, hc, normLogpdf,
    show (Real.log (2 * Real.pi * scale ^ 2) + (x - loc) ^ 2 / scale ^ 2) / (-2) =
      -(Real.log (2 * Real.pi * scale ^ 2) / 2) + -(x - loc) ^ 2 / (2 * scale ^ 2) by field_simp; ring,
    Real.exp_add, Real.exp_neg, ← Real.log_sqrt hp.le, Real.exp_log (Real.sqrt_pos.2 hp)]

/-- **C46, likelihood.**  The conditional log density is that of the sampler. -/
theorem C46_likelihood {psi xi : ℝ} (_hpsi : psi ≠ 0) (hxi : 0 < xi) (y : ℝ) (phi : Fin 2 → ℝ) :
    Real.exp (logLik psi xi y phi) = gaussianPDFReal (emission phi psi) xi.toNNReal y := by
  rw [logLik, exp_normLogpdf _ _ (Real.sqrt_pos.2 hxi), Real.sq_sqrt hxi.le]

/-- **C46, prior.**  `log_prior_pdf` is the log density of `N(0, diag(4, 1))`: the entries of the covariance are passed
where standard deviations are expected. -/
theorem C46_prior_partial (phi : Fin 2 → ℝ) :
    Real.exp (logPriorPdf phi) = gaussianPDFReal 0 4 (phi 0) * gaussianPDFReal 0 1 (phi 1) := by
  rw [logPriorPdf, Fin.sum_univ_two, Real.exp_add]
  have h0 : cov 0 0 = 2 := rfl
  have h1 : cov 1 1 = 1 := rfl
  rw [h0, h1, exp_normLogpdf _ _ two_pos, exp_normLogpdf _ _ one_pos]
  congr 2
  · refine NNReal.eq ?_
    rw [Real.coe_toNNReal _ (by norm_num)]; norm_num
  · refine NNReal.eq ?_
    rw [Real.coe_toNNReal _ (by norm_num)]; norm_num

/-- **C46 fails for the prior.**  `log_prior_pdf` is not the log density of the law of `C46_sampler`. -/
theorem C46_prior_counterexample :
    Real.exp (logPriorPdf 0) < gaussianPDFReal 0 (cov 0 0).toNNReal 0 * gaussianPDFReal 0 (cov 1 1).toNNReal 0 := by
  have h0 : (cov 0 0).toNNReal = 2 := NNReal.eq (by simp [cov])
  have h1 : (cov 1 1).toNNReal = 1 := NNReal.eq (by simp [cov])
  rw [C46_prior_partial, h0, h1]
  refine mul_lt_mul_of_pos_right ?_ (gaussianPDFReal_pos _ _ _ one_ne_zero)
  simp only [gaussianPDFReal, Pi.zero_apply, sub_zero, ne_eq, OfNat.ofNat_ne_zero, not_false_eq_true, zero_pow, neg_zero,
    zero_div, Real.exp_zero, mul_one]
  refine inv_strictAnti₀ (by positivity) (Real.sqrt_lt_sqrt (by positivity) ?_)
  have := Real.pi_pos
  push_cast
  nlinarith

/-! ### Score -/

theorem hasDerivAt_normLogpdf_x (x loc scale : ℝ) :
    HasDerivAt (fun u => normLogpdf u loc scale) (-(x - loc) / scale ^ 2) x := by
  have h1 : HasDerivAt (fun u : ℝ => (u - loc) ^ 2) (2 * (x - loc)) x :=
    (((hasDerivAt_id x).sub_const loc).fun_pow 2).congr_deriv (by simp)
  have h2 := ((h1.div_const (scale ^ 2)).const_add (Real.log (2 * Real.pi * scale ^ 2))).div_const (-2)
  exact h2.congr_deriv (by ring)

theorem hasDerivAt_normLogpdf_loc (x : ℝ) {g : ℝ → ℝ} {g' u : ℝ} (hg : HasDerivAt g g' u) (scale : ℝ) :
    HasDerivAt (fun u => normLogpdf x (g u) scale) ((x - g u) / scale ^ 2 * g') u := by
  have h1 : HasDerivAt (fun u : ℝ => (x - g u) ^ 2) (2 * (x - g u) * -g') u :=
    ((hg.const_sub x).fun_pow 2).congr_deriv (by simp)
  have h2 := ((h1.div_const (scale ^ 2)).const_add (Real.log (2 * Real.pi * scale ^ 2))).div_const (-2)
  exact h2.congr_deriv (by ring)

theorem prior_deriv (phi : Fin 2 → ℝ) (i : Fin 2) :
    HasDerivAt (fun u => logPriorPdf (Function.update phi i u)) (-(phi i) / cov i i ^ 2) (phi i) := by
  have h : (fun u => logPriorPdf (Function.update phi i u)) =
      fun u => normLogpdf u 0 (cov i i) + normLogpdf (phi (1 - i)) 0 (cov (1 - i) (1 - i)) := by
    funext u
    rw [logPriorPdf, Fin.sum_univ_two]
    fin_cases i
    · simp
    · simp [add_comm]
  rw [h]
  exact ((hasDerivAt_normLogpdf_x (phi i) 0 (cov i i)).add_const _).congr_deriv (by rw [sub_zero])

theorem lik_deriv {psi xi : ℝ} (hxi : 0 < xi) (phi : Fin 2 → ℝ) (y : ℝ) (i : Fin 2) :
    HasDerivAt (fun u => logLik psi xi y (Function.update phi i u))
      ((y - emission phi psi) / xi * ![phi 0, 1 / psi] i) (phi i) := by
  have hem : HasDerivAt (fun u => emission (Function.update phi i u) psi) (![phi 0, 1 / psi] i) (phi i) := by
    fin_cases i
    · have h1 : HasDerivAt (fun u : ℝ => phi 1 / psi + 0.5 * (u ^ 2 + psi ^ 2)) (0.5 * (2 * phi 0)) (phi 0) := by
        have h0 : HasDerivAt (fun u : ℝ => u ^ 2) (2 * phi 0) (phi 0) :=
          ((hasDerivAt_id (phi 0)).fun_pow 2).congr_deriv (by simp)
        exact ((h0.add_const _).const_mul 0.5).const_add _
      have e : (fun u => emission (Function.update phi 0 u) psi) = fun u => phi 1 / psi + 0.5 * (u ^ 2 + psi ^ 2) := by
        funext u; simp [emission]
      show HasDerivAt (fun u => emission (Function.update phi 0 u) psi) (phi 0) (phi 0)
      rw [e]
      exact h1.congr_deriv (by ring)
    · have h1 : HasDerivAt (fun u : ℝ => u / psi + 0.5 * (phi 0 ^ 2 + psi ^ 2)) (1 / psi) (phi 1) :=
        ((hasDerivAt_id (phi 1)).div_const psi).add_const _
      have e : (fun u => emission (Function.update phi 1 u) psi) = fun u => u / psi + 0.5 * (phi 0 ^ 2 + psi ^ 2) := by
        funext u; simp [emission]
      show HasDerivAt (fun u => emission (Function.update phi 1 u) psi) (1 / psi) (phi 1)
      rw [e]
      exact h1
  have h := hasDerivAt_normLogpdf_loc y hem (Real.sqrt xi)
  rw [Function.update_eq_self] at h
  exact h.congr_deriv (by rw [Real.sq_sqrt hxi.le])

/-- **C46, score.**  `score` is the gradient of the coded log joint density
`(φ₀, φ₁, y) ↦ log_prior_pdf(φ) + log_cond_pdf_likelihood(y, φ)` at every point, in the order `(φ₀, φ₁, y)`. -/
theorem C46_score {psi xi : ℝ} (_hpsi : psi ≠ 0) (hxi : 0 < xi) (z : Fin 3 → ℝ) (i : Fin 3) :
    HasDerivAt (fun u => (fun v : Fin 3 → ℝ => logPriorPdf ![v 0, v 1] + logLik psi xi (v 2) ![v 0, v 1])
      (Function.update z i u)) (score psi xi ![z 0, z 1] (z 2) i) (z i) := by
  have hu : ∀ u, Function.update ![z 0, z 1] 0 u = ![u, z 1] := fun u => by ext k; fin_cases k <;> rfl
  have hu' : ∀ u, Function.update ![z 0, z 1] 1 u = ![z 0, u] := fun u => by ext k; fin_cases k <;> rfl
  fin_cases i
  · have h1 := prior_deriv ![z 0, z 1] 0
    have h2 := lik_deriv (psi := psi) hxi ![z 0, z 1] (z 2) 0
    have e : score psi xi ![z 0, z 1] (z 2) 0 = _ + _ := congrArg₂ (· + ·) h1.deriv h2.deriv
    have h3 := h1.add h2
    simp only [hu] at h3
    show HasDerivAt (fun u => logPriorPdf ![u, z 1] + logLik psi xi (z 2) ![u, z 1])
      (score psi xi ![z 0, z 1] (z 2) 0) (z 0)
    rw [e]; exact h3
  · have h1 := prior_deriv ![z 0, z 1] 1
    have h2 := lik_deriv (psi := psi) hxi ![z 0, z 1] (z 2) 1
    have e : score psi xi ![z 0, z 1] (z 2) 1 = _ + _ := congrArg₂ (· + ·) h1.deriv h2.deriv
    have h3 := h1.add h2
    simp only [hu'] at h3
    show HasDerivAt (fun u => logPriorPdf ![z 0, u] + logLik psi xi (z 2) ![z 0, u])
      (score psi xi ![z 0, z 1] (z 2) 1) (z 1)
    rw [e]; exact h3
  · have h2 := hasDerivAt_normLogpdf_x (z 2) (emission ![z 0, z 1] psi) (Real.sqrt xi)
    have e : score psi xi ![z 0, z 1] (z 2) 2 = 0 + _ := congrArg (0 + ·) h2.deriv
    show HasDerivAt (fun u => logPriorPdf ![z 0, z 1] + logLik psi xi u ![z 0, z 1])
      (score psi xi ![z 0, z 1] (z 2) 2) (z 2)
    rw [e, zero_add]
    exact h2.const_add _

/-- **C46, score.**  In closed form. -/
theorem C46_score_formula {psi xi : ℝ} (_hpsi : psi ≠ 0) (hxi : 0 < xi) (phi : Fin 2 → ℝ) (y : ℝ) :
    score psi xi phi y = ![-phi 0 / 4 + (y - emission phi psi) / xi * phi 0,
      -phi 1 + (y - emission phi psi) / xi / psi, -(y - emission phi psi) / xi] := by
  have h0 : cov 0 0 = 2 := rfl
  have h1 : cov 1 1 = 1 := rfl
  ext i
  fin_cases i
  · refine (congrArg₂ (· + ·) (prior_deriv phi 0).deriv (lik_deriv (psi := psi) hxi phi y 0).deriv).trans ?_
    simp [h0]; norm_num
  · refine (congrArg₂ (· + ·) (prior_deriv phi 1).deriv (lik_deriv (psi := psi) hxi phi y 1).deriv).trans ?_
    simp [h1]; ring
  · refine (congrArg (0 + ·) (hasDerivAt_normLogpdf_x y (emission phi psi) (Real.sqrt xi)).deriv).trans ?_
    simp [Real.sq_sqrt hxi.le]

/-! ### Posterior on a mesh -/

theorem trapezoid_comm (n : ℕ) (x x' : ℕ → ℝ) (e : ℕ → ℕ → ℝ) :
    trapezoid n (fun b => trapezoid n (fun a => e a b) x) x' = trapezoid2 n x' x e := by
  simp only [trapezoid, trapezoid2, Finset.mul_sum, ← Finset.sum_add_distrib]
  rw [Finset.sum_comm]
  refine Finset.sum_congr rfl fun a _ => Finset.sum_congr rfl fun b _ => ?_
  ring

theorem trapezoid2_pos {n : ℕ} (hn : 2 ≤ n) {xs ys : ℕ → ℝ} (hx : StrictMono xs) (hy : StrictMono ys)
    {e : ℕ → ℕ → ℝ} (he : ∀ a b, 0 < e a b) : 0 < trapezoid2 n xs ys e := by
  have hne : (Finset.range (n - 1)).Nonempty := Finset.nonempty_range_iff.2 (by omega)
  refine Finset.sum_pos (fun a _ => Finset.sum_pos (fun b _ => ?_) hne) hne
  have h1 := sub_pos.2 (hx (Nat.lt_succ_self b))
  have h2 := sub_pos.2 (hy (Nat.lt_succ_self a))
  have := he a b
  have := he a (b + 1)
  have := he (a + 1) b
  have := he (a + 1) (b + 1)
  positivity

theorem trapezoid2_div (n : ℕ) (xs ys : ℕ → ℝ) (v : ℕ → ℕ → ℝ) (c : ℝ) :
    trapezoid2 n xs ys (fun a b => v a b / c) = trapezoid2 n xs ys v / c := by
  simp only [trapezoid2, Finset.sum_div]
  refine Finset.sum_congr rfl fun a _ => Finset.sum_congr rfl fun b _ => ?_
  ring

/-- **C46, posterior.**  On a mesh whose two grids have proportional steps (the same grid on both axes, or two equally
spaced grids) the posterior integrates to one under the two-dimensional trapezoidal rule. -/
theorem C46_posterior_partial {n : ℕ} (hn : 2 ≤ n) {xs ys : ℕ → ℝ} (hx : StrictMono xs) (hy : StrictMono ys) {c : ℝ}
    (hc : ∀ i < n - 1, xs (i + 1) - xs i = c * (ys (i + 1) - ys i)) {psi xi : ℝ}
    (_hpsi : psi ≠ 0) (_hxi : 0 < xi) (y : ℝ) :
    trapezoid2 n xs ys (posterior psi xi n (meshgrid xs ys) y) = 1 := by
  have hpos : ∀ a b, 0 < energy psi xi y (meshgrid xs ys a b) := fun a b => Real.exp_pos _
  have hz : trapezoid n (fun b => trapezoid n (fun a => energy psi xi y (meshgrid xs ys a b)) fun b => meshgrid xs ys 0 b 0)
      (fun a => meshgrid xs ys a 0 1) = trapezoid2 n xs ys fun a b => energy psi xi y (meshgrid xs ys a b) := by
    have e1 : (fun b => meshgrid xs ys 0 b 0) = xs := rfl
    have e2 : (fun a => meshgrid xs ys a 0 1) = ys := rfl
    rw [e1, e2, trapezoid_comm]
    simp only [trapezoid2]
    refine Finset.sum_congr rfl fun a ha => Finset.sum_congr rfl fun b hb => ?_
    rw [hc a (Finset.mem_range.1 ha), hc b (Finset.mem_range.1 hb)]
    ring
  simp only [posterior, hz]
  rw [trapezoid2_div, div_self (trapezoid2_pos hn hx hy hpos).ne']

/-- **C46 fails for other meshes.**  The inner rule runs over the second grid with the steps of the first: with the
grids `0, 1, 2` and `0, 1, 3` (and `ψ = ξ = y = 1`) the posterior does not integrate to one. -/
theorem C46_posterior_counterexample :
    let xs : ℕ → ℝ := fun i => i
    let ys : ℕ → ℝ := fun i => if i ≤ 1 then i else 2 * i - 1
    trapezoid2 3 xs ys (posterior 1 1 3 (meshgrid xs ys) 1) ≠ 1 := by
  intro xs ys
  set e : ℕ → ℕ → ℝ := fun a b => energy 1 1 1 (meshgrid xs ys a b) with he
  have hpos : ∀ a b, 0 < e a b := fun a b => Real.exp_pos _
  have x0 : xs 0 = 0 := by simp [xs]
  have x1 : xs 1 = 1 := by simp [xs]
  have x2 : xs 2 = 2 := by simp [xs]
  have y0 : ys 0 = 0 := by simp [ys]
  have y1 : ys 1 = 1 := by simp [ys]
  have y2 : ys 2 = 3 := by simp [ys]; norm_num
  have hz : trapezoid 3 (fun b => trapezoid 3 (fun a => e a b) fun b => meshgrid xs ys 0 b 0)
      (fun a => meshgrid xs ys a 0 1) = trapezoid2 3 ys xs e := trapezoid_comm 3 _ _ e
  have hlt : ∀ p q : Fin 2 → ℝ, logPriorPdf p + logLik 1 1 1 p < logPriorPdf q + logLik 1 1 1 q →
      energy 1 1 1 p < energy 1 1 1 q := fun p q h => Real.exp_lt_exp.2 h
  have hval : ∀ u v : ℝ, logPriorPdf ![u, v] + logLik 1 1 1 ![u, v] =
      (Real.log (2 * Real.pi * 2 ^ 2) + Real.log (2 * Real.pi * 1 ^ 2) + Real.log (2 * Real.pi * 1 ^ 2)) / (-2)
        - u ^ 2 / 8 - v ^ 2 / 2 - (1 - (v + 0.5 * (u ^ 2 + 1))) ^ 2 / 2 := by
    intro u v
    simp [logPriorPdf, logLik, normLogpdf, emission, cov, Fin.sum_univ_two]
    ring
  have h1 : e 1 0 < e 0 1 := hlt _ _ (by simp only [meshgrid, x0, x1, y0, y1, hval]; norm_num)
  have h2 : e 2 0 < e 0 2 := hlt _ _ (by simp only [meshgrid, x0, x2, y0, y2, hval]; norm_num; linarith)
  have h3 : e 2 1 < e 1 2 := hlt _ _ (by simp only [meshgrid, x1, x2, y1, y2, hval]; norm_num; linarith)
  have hz0 : 0 < trapezoid2 3 ys xs e := by
    have : ∀ a b, 0 < e a b := hpos
    simp only [trapezoid2, Finset.sum_range_succ, Finset.sum_range_zero, zero_add, Nat.reduceAdd, Nat.reduceSub,
      x0, x1, x2, y0, y1, y2]
    have := hpos 0 0; have := hpos 0 1; have := hpos 0 2; have := hpos 1 0; have := hpos 1 1; have := hpos 1 2
    have := hpos 2 0; have := hpos 2 1; have := hpos 2 2
    norm_num
    positivity
  intro h
  simp only [posterior] at h
  rw [trapezoid2_div] at h
  change trapezoid2 3 xs ys e / (trapezoid 3 (fun b => trapezoid 3 (fun a => e a b) fun b => meshgrid xs ys 0 b 0)
      (fun a => meshgrid xs ys a 0 1)) = 1 at h
  rw [hz, div_eq_one_iff_eq hz0.ne'] at h
  simp only [trapezoid2, Finset.sum_range_succ, Finset.sum_range_zero, zero_add, Nat.reduceAdd, Nat.reduceSub,
    x0, x1, x2, y0, y1, y2] at h
  linarith

/-! ### The hypotheses can be met -/

example : IsCholFactor !![Real.sqrt 2, 0; 0, 1] cov := by
  refine ⟨fun i j hij => ?_, fun i => ?_, ?_⟩
  · fin_cases i <;> fin_cases j <;> simp at hij ⊢
  · fin_cases i <;> simp
  · ext i j
    fin_cases i <;> fin_cases j <;> simp [Matrix.mul_apply, Fin.sum_univ_two, cov]

/-- Two equally spaced grids with different steps. -/
example : StrictMono (fun i : ℕ => (i : ℝ) - 3) ∧ StrictMono (fun i : ℕ => 2 * (i : ℝ)) ∧
    ∀ i < 9, ((i + 1 : ℕ) : ℝ) - 3 - ((i : ℝ) - 3) = 1 / 2 * (2 * ((i + 1 : ℕ) : ℝ) - 2 * (i : ℝ)) := by
  refine ⟨fun a b h => ?_, fun a b h => ?_, fun i _ => ?_⟩
  · have : (a : ℝ) < b := by exact_mod_cast h
    show (a : ℝ) - 3 < b - 3
    linarith
  · have : (a : ℝ) < b := by exact_mod_cast h
    show 2 * (a : ℝ) < 2 * b
    linarith
  · push_cast; ring

end Props
end Fbs
