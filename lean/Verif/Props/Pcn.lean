import Verif.Model.Smc
import Mathlib.Probability.Distributions.Gaussian.Fernique

/-!
# C22: the preconditioned Crank–Nicolson proposal
-/

open MeasureTheory ProbabilityTheory Complex
open scoped ENNReal

namespace Fbs
namespace Props

open Jax Smc

section Law

variable {W : Type} [NormedAddCommGroup W] [NormedSpace ℝ W] [MeasurableSpace W] [BorelSpace W]
  [SecondCountableTopology W] [CompleteSpace W]

/-- The linear part of `(x, r0, r1) ↦ (x, a x + b r0 + c r1)`. -/
noncomputable def pcnLin (a b c : ℝ) : W × W × W →L[ℝ] W :=
  a • ContinuousLinearMap.fst ℝ W (W × W) +
    (b • ContinuousLinearMap.fst ℝ W W + c • ContinuousLinearMap.snd ℝ W W).comp
      (ContinuousLinearMap.snd ℝ W (W × W))

omit [MeasurableSpace W] [BorelSpace W] [SecondCountableTopology W] [CompleteSpace W] in
theorem pcnLin_apply (a b c : ℝ) (p : W × W × W) :
    pcnLin a b c p = a • p.1 + (b • p.2.1 + c • p.2.2) := by simp [pcnLin]

theorem charFunDual_gauss {μ : Measure W} [IsGaussian μ] (L : StrongDual ℝ W) :
    charFunDual μ L = cexp (L (∫ x, x ∂μ) * I - Var[L; μ] / 2) := by
  have h : L (∫ x, x ∂μ) = ∫ x, L x ∂μ := (ContinuousLinearMap.integral_comp_comm L IsGaussian.integrable_id).symm
  rw [IsGaussian.charFunDual_eq, integral_complex_ofReal, h]

omit [SecondCountableTopology W] [CompleteSpace W] in
theorem var_comb {μ : Measure W} [IsGaussian μ] (L L' : StrongDual ℝ W) (a b : ℝ) :
    Var[(a • L + b • L' : StrongDual ℝ W); μ] = a ^ 2 * Var[L; μ] + 2 * (a * b) * cov[L, L'; μ] + b ^ 2 * Var[L'; μ] := by
  have h1 : ∀ L : StrongDual ℝ W, MemLp L 2 μ := fun L => IsGaussian.memLp_dual μ L 2 (by simp)
  have : ((a • L + b • L' : StrongDual ℝ W) : W → ℝ) = (a • (L : W → ℝ)) + (b • (L' : W → ℝ)) := by
    ext x; simp
  rw [this, variance_add ((h1 L).const_smul a) ((h1 L').const_smul b), variance_smul, variance_smul,
    covariance_smul_left, covariance_smul_right]
  ring

theorem charFun_pcn {μ : Measure W} [IsGaussian μ] (a b c : ℝ) (h : a ^ 2 + b ^ 2 + c ^ 2 = 1)
    (L1 L2 : StrongDual ℝ W) (L : StrongDual ℝ (W × W × W))
    (hL : ∀ p, L p = L1 p.1 + L2 (pcnLin a b c p)) :
    charFunDual (μ.prod (μ.prod μ)) L =
      cexp (((L1 (∫ x, x ∂μ) + (a + b + c) * L2 (∫ x, x ∂μ) : ℝ)) * I -
        (Var[L1; μ] + 2 * a * cov[L1, L2; μ] + Var[L2; μ] : ℝ) / 2) := by
  have e1 : L.comp (.inl ℝ W (W × W)) = (1 : ℝ) • L1 + a • L2 := by
    ext x; simp [hL, pcnLin_apply]
  have e2 : (L.comp (.inr ℝ W (W × W))).comp (.inl ℝ W W) = b • L2 + (0 : ℝ) • L2 := by
    ext x; simp [hL, pcnLin_apply]
  have e3 : (L.comp (.inr ℝ W (W × W))).comp (.inr ℝ W W) = c • L2 + (0 : ℝ) • L2 := by
    ext x; simp [hL, pcnLin_apply]
  rw [charFunDual_prod, charFunDual_prod, e1, e2, e3, charFunDual_gauss, charFunDual_gauss, charFunDual_gauss,
    var_comb, var_comb, var_comb, ← Complex.exp_add, ← Complex.exp_add]
  congr 1
  have : (b : ℂ) ^ 2 + (c : ℂ) ^ 2 = 1 - (a : ℂ) ^ 2 := by
    rw [eq_sub_iff_add_eq]; exact_mod_cast (by linarith)
  simp only [add_apply, smul_apply, smul_eq_mul]
  push_cast
  linear_combination (-(Var[L2; μ] : ℂ) / 2) * this

theorem map_pcn_swap {μ : Measure W} [IsGaussian μ] (a b c : ℝ) (h : a ^ 2 + b ^ 2 + c ^ 2 = 1) (d : W)
    (hd : d = (1 - (a + b + c)) • ∫ x, x ∂μ) :
    (μ.prod (μ.prod μ)).map (fun p => (p.1, pcnLin a b c p + d)) =
      (μ.prod (μ.prod μ)).map (fun p => (pcnLin a b c p + d, p.1)) := by
  have hT : (fun p : W × W × W => (p.1, pcnLin a b c p + d)) =
      (· + ((0, d) : W × W)) ∘ ((ContinuousLinearMap.fst ℝ W (W × W)).prod (pcnLin a b c)) := by
    ext p <;> simp
  have hT' : (fun p : W × W × W => (pcnLin a b c p + d, p.1)) =
      (· + ((d, 0) : W × W)) ∘ ((pcnLin a b c).prod (ContinuousLinearMap.fst ℝ W (W × W))) := by
    ext p <;> simp
  have : ∀ q : W × W, Measurable (· + q) := fun q => by fun_prop
  rw [hT, hT', ← Measure.map_map (this _) (by fun_prop), ← Measure.map_map (this _) (by fun_prop)]
  have := Measure.isProbabilityMeasure_map (μ := μ.prod (μ.prod μ))
    ((ContinuousLinearMap.fst ℝ W (W × W)).prod (pcnLin a b c)).measurable.aemeasurable
  have := Measure.isProbabilityMeasure_map (μ := μ.prod (μ.prod μ))
    ((pcnLin a b c).prod (ContinuousLinearMap.fst ℝ W (W × W))).measurable.aemeasurable
  refine Measure.ext_of_charFunDual (funext fun L => ?_)
  have hs : ∀ q : W × W, L q = L.comp (.inl ℝ W W) q.1 + L.comp (.inr ℝ W W) q.2 := fun q => by
    simp [← map_add]
  rw [charFunDual_map_add_const, charFunDual_map_add_const, charFunDual_map, charFunDual_map,
    charFun_pcn a b c h (L.comp (.inl ℝ W W)) (L.comp (.inr ℝ W W)) _ fun p => hs _,
    charFun_pcn a b c h (L.comp (.inr ℝ W W)) (L.comp (.inl ℝ W W)) _ fun p => by
      rw [add_comm]; exact hs _,
    ← Complex.exp_add, ← Complex.exp_add, hs (0, d), hs (d, 0), hd, covariance_comm]
  congr 1
  simp only [map_zero, map_smul, smul_eq_mul]
  push_cast
  ring

/-- The coefficients of the proposal, from the code. -/
theorem pcn_coeffs {delta : ℝ} (hδ : 0 ≤ delta) :
    (2 / (2 + delta)) ^ 2 + (2 / (2 + delta) * Real.sqrt (delta / 2)) ^ 2 + Real.sqrt (1 - 2 / (2 + delta)) ^ 2 = 1 := by
  have h : 0 ≤ 1 - 2 / (2 + delta) := by
    rw [sub_nonneg, div_le_one (by linarith)]; linarith
  rw [mul_pow, Real.sq_sqrt (by linarith), Real.sq_sqrt h]
  field_simp
  ring

/-- A sampler whose draws have law `μ` (for every key). -/
def Draws (sampler : Key → Rand W) (μ : Measure W) : Prop :=
  ∀ k f, Measurable f → (sampler k).E f = ∫⁻ x, f x ∂μ

omit [CompleteSpace W] in
theorem E_pcnProposal {μ : Measure W} [IsGaussian μ] (key : Key) (delta : ℝ) (x mean : W) {sampler : Key → Rand W}
    (hs : Draws sampler μ) {f : W → ℝ≥0∞} (hf : Measurable f) :
    (pcnProposal key delta x mean sampler).E f =
      ∫⁻ r, f (pcnLin (2 / (2 + delta)) (2 / (2 + delta) * Real.sqrt (delta / 2)) (Real.sqrt (1 - 2 / (2 + delta)))
        (x, r) + (1 - (2 / (2 + delta) + 2 / (2 + delta) * Real.sqrt (delta / 2) + Real.sqrt (1 - 2 / (2 + delta)))) •
          mean) ∂(μ.prod μ) := by
  set β := 2 / (2 + delta)
  set s := Real.sqrt (delta / 2)
  set c := Real.sqrt (1 - β)
  have hg : Measurable fun r : W × W => f (pcnLin β (β * s) c (x, r) + (1 - (β + β * s + c)) • mean) :=
    hf.comp (by fun_prop)
  have he : ∀ r0 r1 : W, β • (x + s • (r0 - mean)) + (1 - β) • mean + c • (r1 - mean) =
      pcnLin β (β * s) c (x, r0, r1) + (1 - (β + β * s + c)) • mean := by
    intro r0 r1
    rw [pcnLin_apply]
    module
  simp only [pcnProposal, Rand.E_bind, Rand.pure_eq, Rand.E_ret]
  rw [lintegral_prod _ hg.aemeasurable]
  have hin : ∀ r0, (sampler (split key 2 1)).E (fun r1 => f (β • (x + s • (r0 - mean)) + (1 - β) • mean + c • (r1 - mean)))
      = ∫⁻ r1, f (pcnLin β (β * s) c (x, r0, r1) + (1 - (β + β * s + c)) • mean) ∂μ := by
    intro r0
    rw [← hs (split key 2 1) (fun r1 => f (pcnLin β (β * s) c (x, r0, r1) + (1 - (β + β * s + c)) • mean))
      (hg.comp measurable_prodMk_left)]
    exact Rand.E_congr _ fun r1 => by rw [he]
  exact (Rand.E_congr _ hin).trans (hs _ _ hg.lintegral_prod_right')

/-- **C22, reversibility.**  If the current value and the sampler's draws have the Gaussian law `μ` with mean `mean`,
the pair (current value, proposal) is exchangeable. -/
theorem C22_exchangeable {μ : Measure W} [IsGaussian μ] (key : Key) {delta : ℝ} (hδ : 0 ≤ delta)
    {sampler : Key → Rand W} (hs : Draws sampler μ) {mean : W} (hmean : mean = ∫ x, x ∂μ)
    {f : W × W → ℝ≥0∞} (hf : Measurable f) :
    ∫⁻ x, (pcnProposal key delta x mean sampler).E (fun y => f (x, y)) ∂μ =
      ∫⁻ x, (pcnProposal key delta x mean sampler).E (fun y => f (y, x)) ∂μ := by
  set β := 2 / (2 + delta)
  set s := Real.sqrt (delta / 2)
  set c := Real.sqrt (1 - β)
  have hm : Measurable fun p : W × W × W => pcnLin β (β * s) c p + (1 - (β + β * s + c)) • mean := by fun_prop
  have h1 : Measurable fun p : W × W × W => (p.1, pcnLin β (β * s) c p + (1 - (β + β * s + c)) • mean) :=
    measurable_fst.prodMk hm
  have h2 : Measurable fun p : W × W × W => (pcnLin β (β * s) c p + (1 - (β + β * s + c)) • mean, p.1) :=
    hm.prodMk measurable_fst
  have key1 := congrArg (fun ν => ∫⁻ q, f q ∂ν) (map_pcn_swap (μ := μ) β (β * s) c (pcn_coeffs hδ)
    ((1 - (β + β * s + c)) • mean) (by rw [hmean]))
  have g1 : Measurable fun p : W × W × W => f (p.1, pcnLin β (β * s) c p + (1 - (β + β * s + c)) • mean) := hf.comp h1
  have g2 : Measurable fun p : W × W × W => f (pcnLin β (β * s) c p + (1 - (β + β * s + c)) • mean, p.1) := hf.comp h2
  rw [lintegral_map hf h1, lintegral_map hf h2, lintegral_prod _ g1.aemeasurable, lintegral_prod _ g2.aemeasurable]
    at key1
  exact (lintegral_congr fun x => E_pcnProposal key delta x mean hs (hf.comp measurable_prodMk_left)).trans
    (key1.trans (lintegral_congr fun x => E_pcnProposal key delta x mean hs (hf.comp measurable_prodMk_right)).symm)

/-- **C22, invariance.**  In particular the proposal has law `μ` again. -/
theorem C22_preserves {μ : Measure W} [IsGaussian μ] (key : Key) {delta : ℝ} (hδ : 0 ≤ delta)
    {sampler : Key → Rand W} (hs : Draws sampler μ) {mean : W} (hmean : mean = ∫ x, x ∂μ)
    {f : W → ℝ≥0∞} (hf : Measurable f) :
    ∫⁻ x, (pcnProposal key delta x mean sampler).E f ∂μ = ∫⁻ x, f x ∂μ := by
  have h := C22_exchangeable key hδ hs hmean (hf.comp measurable_snd)
  simp only [Function.comp] at h
  rw [h]
  refine lintegral_congr fun x => ?_
  rw [E_pcnProposal key delta x mean hs measurable_const]
  simp

/-- **C22, correlation.**  Under the joint law of (current value, proposal) every cross covariance is `2 / (2 + delta)`
times the covariance under `μ`. -/
theorem C22_correlation {μ : Measure W} [IsGaussian μ] (key : Key) {delta : ℝ}
    {sampler : Key → Rand W} (hs : Draws sampler μ) {mean : W} (hmean : mean = ∫ x, x ∂μ) :
    ∃ Γ : Measure (W × W), IsProbabilityMeasure Γ ∧
      (∀ f, Measurable f → ∫⁻ x, (pcnProposal key delta x mean sampler).E (fun y => f (x, y)) ∂μ = ∫⁻ q, f q ∂Γ) ∧
      ∀ L1 L2 : StrongDual ℝ W, ∫ q, L1 (q.1 - mean) * L2 (q.2 - mean) ∂Γ =
        2 / (2 + delta) * ∫ x, L1 (x - mean) * L2 (x - mean) ∂μ := by
  set β := 2 / (2 + delta)
  set s := Real.sqrt (delta / 2)
  set c := Real.sqrt (1 - β)
  have hm : Measurable fun p : W × W × W => pcnLin β (β * s) c p + (1 - (β + β * s + c)) • mean := by fun_prop
  have h1 : Measurable fun p : W × W × W => (p.1, pcnLin β (β * s) c p + (1 - (β + β * s + c)) • mean) :=
    measurable_fst.prodMk hm
  refine ⟨(μ.prod (μ.prod μ)).map fun p => (p.1, pcnLin β (β * s) c p + (1 - (β + β * s + c)) • mean),
    Measure.isProbabilityMeasure_map h1.aemeasurable, fun f hf => ?_, fun L1 L2 => ?_⟩
  · have g1 : Measurable fun p : W × W × W => f (p.1, pcnLin β (β * s) c p + (1 - (β + β * s + c)) • mean) := hf.comp h1
    rw [lintegral_map hf h1, lintegral_prod _ g1.aemeasurable]
    exact lintegral_congr fun x => E_pcnProposal key delta x mean hs (hf.comp measurable_prodMk_left)
  have hL : ∀ L : StrongDual ℝ W, MemLp (fun x => L (x - mean)) 2 μ := fun L => by
    simp only [map_sub]
    exact (IsGaussian.memLp_dual μ L 2 (by simp)).sub (memLp_const (L mean))
  have hz : ∀ L : StrongDual ℝ W, ∫ x, L (x - mean) ∂μ = 0 := fun L => by
    have h : L (∫ x, x ∂μ) = ∫ x, L x ∂μ := (ContinuousLinearMap.integral_comp_comm L IsGaussian.integrable_id).symm
    simp only [map_sub]
    rw [integral_sub (IsGaussian.integrable_dual μ L) (integrable_const _), ← h, hmean]
    simp
  have hi : ∀ L : StrongDual ℝ W, Integrable (fun x => L (x - mean)) μ := fun L => (hL L).integrable (by norm_num)
  have hm2 : ∀ L : StrongDual ℝ W, Measurable fun x => L (x - mean) := fun L => by fun_prop
  have hm3 : Measurable fun q : W × W => L1 (q.1 - mean) * L2 (q.2 - mean) :=
    ((hm2 L1).comp measurable_fst).mul ((hm2 L2).comp measurable_snd)
  rw [integral_map h1.aemeasurable hm3.aestronglyMeasurable]
  have he : ∀ p : W × W × W, L1 (p.1 - mean) * L2 (pcnLin β (β * s) c p + (1 - (β + β * s + c)) • mean - mean) =
      β * (L1 (p.1 - mean) * L2 (p.1 - mean)) +
        L1 (p.1 - mean) * (β * s * L2 (p.2.1 - mean) + c * L2 (p.2.2 - mean)) := by
    intro p
    simp only [pcnLin_apply, map_add, map_sub, map_smul, smul_eq_mul]
    ring
  have hg : Integrable (fun r : W × W => β * s * L2 (r.1 - mean) + c * L2 (r.2 - mean)) (μ.prod μ) :=
    (((hi L2).comp_fst μ).const_mul _).add (((hi L2).comp_snd μ).const_mul _)
  have hg0 : ∫ r : W × W, β * s * L2 (r.1 - mean) + c * L2 (r.2 - mean) ∂(μ.prod μ) = 0 := by
    rw [integral_add (((hi L2).comp_fst μ).const_mul _) (((hi L2).comp_snd μ).const_mul _), integral_const_mul,
      integral_const_mul]
    have e1 : ∫ r : W × W, L2 (r.1 - mean) ∂(μ.prod μ) = 0 := by
      rw [integral_fun_fst (fun x => L2 (x - mean)), hz]; simp
    have e2 : ∫ r : W × W, L2 (r.2 - mean) ∂(μ.prod μ) = 0 := by
      rw [integral_fun_snd (fun x => L2 (x - mean)), hz]; simp
    rw [e1, e2]; simp
  have hLL : Integrable (fun x => L1 (x - mean) * L2 (x - mean)) μ := (hL L1).integrable_mul (hL L2)
  simp only [he]
  rw [integral_add ((hLL.comp_fst (μ.prod μ)).const_mul β) ((hi L1).mul_prod hg),
    integral_prod_mul (fun x => L1 (x - mean)) (fun r : W × W => β * s * L2 (r.1 - mean) + c * L2 (r.2 - mean)), hg0,
    integral_const_mul, integral_fun_fst (fun x => L1 (x - mean) * L2 (x - mean))]
  simp

end Law

/-- **C22, fixed components.**  Whatever linear functional of the path the sampler always holds at its value for the
mean, and which has this value at the current path, keeps it. -/
theorem C22_fixed {W : Type} [AddCommGroup W] [Module ℝ W] {C : Type} [AddCommGroup C] [Module ℝ C] (L : W →ₗ[ℝ] C)
    (key : Key) (delta : ℝ) (x mean : W) (sampler : Key → Rand W)
    (hs : ∀ k r, (sampler k).Returns r → L r = L mean) (hx : L x = L mean) {y : W}
    (h : (pcnProposal key delta x mean sampler).Returns y) : L y = L mean := by
  simp only [pcnProposal, Rand.returns_bind, Rand.pure_eq, Rand.returns_ret] at h
  obtain ⟨r0, h0, r1, h1, rfl⟩ := h
  simp only [map_add, map_smul, map_sub, hs _ _ h0, hs _ _ h1, hx, sub_self, smul_zero, add_zero]
  rw [← add_smul, add_sub_cancel, one_smul]

/-! ### The hypotheses can be met -/

example : Draws (fun k => Rand.sample k Set.univ (gaussianReal 1 4)) (gaussianReal 1 4) := fun _ _ _ => rfl

example : ∫⁻ x, (pcnProposal [] 2 x 1 fun k => Rand.sample k Set.univ (gaussianReal 1 4)).E
      (fun y => ENNReal.ofReal (x ^ 2 * |y|)) ∂(gaussianReal 1 4) =
    ∫⁻ x, (pcnProposal [] 2 x 1 fun k => Rand.sample k Set.univ (gaussianReal 1 4)).E
      (fun y => ENNReal.ofReal (y ^ 2 * |x|)) ∂(gaussianReal 1 4) :=
  C22_exchangeable [] (by norm_num) (fun _ _ _ => rfl) (by simp)
    (f := fun q : ℝ × ℝ => ENNReal.ofReal (q.1 ^ 2 * |q.2|)) (by fun_prop)

/-- Paths of two rows whose first row is fixed. -/
example : ∃ y : Fin 2 → ℝ, (pcnProposal [] 2 ![0, 1] 0 fun k => (fun u => ![0, u]) <$> uniform k).Returns y ∧ y 0 = 0 := by
  refine ⟨_, ⟨[[(2, 0)], [(2, 1)]], ⟨0, by simp, [[(2, 1)]], rfl, 1 / 2, by norm_num, [], rfl, rfl, rfl⟩⟩, ?_⟩
  simp

end Props
end Fbs
