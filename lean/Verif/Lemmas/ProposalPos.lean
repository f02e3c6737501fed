import Verif.Lemmas.Metropolis
import Verif.Props.PmcmcLaw

/-! The path proposals of the pseudo-marginal kernel are positive operators. -/

open MeasureTheory ProbabilityTheory Complex
open scoped ENNReal

namespace Fbs
namespace Props

open Jax Smc

section Const

variable {X : Type} [MeasurableSpace X]

theorem pos_const (P : Measure X) : Pos (Kernel.const X P) P := fun f g hf hg => by
  have e : ∀ {f g : X → ℝ≥0∞}, Measurable f → lagProd (Kernel.const X P) P f g 1 = (∫⁻ x, f x ∂P) * ∫⁻ x, g x ∂P := fun hf => by
    simp only [lagProd, iterInt, Kernel.const_apply]
    rw [lintegral_mul_const _ hf]
  rw [e hf, e hg, e hf, e hg]
  exact two_mul_le

end Const

section Extended

variable {Y Ω : Type} [MeasurableSpace Y] [MeasurableSpace Ω]

/-- A path from `Q`, then a run of the filter on it. -/
noncomputable def extProp (κ : Kernel Y Ω) (Q : Kernel Y Y) : Kernel (Y × Ω) (Y × Ω) :=
  (Q.comap Prod.fst measurable_fst) ⊗ₖ (κ.comap Prod.snd measurable_snd)

variable (P : Measure Y) (κ : Kernel Y Ω) [IsMarkovKernel κ] (Q : Kernel Y Y) [IsMarkovKernel Q]

instance : IsMarkovKernel (extProp κ Q) := by unfold extProp; infer_instance

theorem lintegral_extProp {g : Y × Ω → ℝ≥0∞} (hg : Measurable g) (z : Y × Ω) :
    ∫⁻ z', g z' ∂(extProp κ Q z) = ∫⁻ y', ∫⁻ p', g (y', p') ∂(κ y') ∂(Q z.1) := by
  unfold extProp
  rw [Kernel.lintegral_compProd _ _ _ hg]
  rfl

theorem extProp_rev [SFinite P] (hQ : ∀ f : Y × Y → ℝ≥0∞, Measurable f →
      ∫⁻ y, ∫⁻ y', f (y, y') ∂(Q y) ∂P = ∫⁻ y, ∫⁻ y', f (y', y) ∂(Q y) ∂P)
    {F : (Y × Ω) × (Y × Ω) → ℝ≥0∞} (hF : Measurable F) :
    ∫⁻ z, ∫⁻ z', F (z, z') ∂(extProp κ Q z) ∂(P ⊗ₘ κ) = ∫⁻ z, ∫⁻ z', F (z', z) ∂(extProp κ Q z) ∂(P ⊗ₘ κ) := by
  have hF' : Measurable fun z : (Y × Ω) × (Y × Ω) => F (z.2, z.1) := hF.comp measurable_swap
  rw [Measure.lintegral_compProd (mDouble hF), Measure.lintegral_compProd (mDouble hF')]
  refine Eq.trans ?_ ((extended_reversible P κ Q hQ hF).trans ?_)
  · exact lintegral_congr fun y => lintegral_congr fun p => lintegral_extProp κ Q (hF.comp measurable_prodMk_left) (y, p)
  · exact lintegral_congr fun y => lintegral_congr fun p =>
      (lintegral_extProp κ Q (hF.comp measurable_prodMk_right) (y, p)).symm

theorem extProp_pos [SFinite P] (hQ : Pos Q P) : Pos (extProp κ Q) (P ⊗ₘ κ) := fun f g hf hg => by
  have e : ∀ {f g : Y × Ω → ℝ≥0∞}, Measurable f → Measurable g → lagProd (extProp κ Q) (P ⊗ₘ κ) f g 1
      = lagProd Q P (fun y => ∫⁻ p, f (y, p) ∂(κ y)) (fun y => ∫⁻ p, g (y, p) ∂(κ y)) 1 := fun {f g} hf hg => by
    have hm : Measurable fun z : Y × Ω => f z * ∫⁻ z', g z' ∂(extProp κ Q z) := mMul hf hg.lintegral_kernel
    simp only [lagProd, iterInt]
    rw [Measure.lintegral_compProd hm]
    refine lintegral_congr fun y => ?_
    have hfy : Measurable fun p => f (y, p) := hf.comp measurable_prodMk_left
    simp only [lintegral_extProp κ Q hg]
    rw [lintegral_mul_const _ hfy]
  rw [e hf hg, e hg hf, e hf hf, e hg hg]
  exact hQ _ _ hf.lintegral_kernel_prod_right' hg.lintegral_kernel_prod_right'

end Extended

section Gauss

variable {W : Type} [NormedAddCommGroup W] [NormedSpace ℝ W] [MeasurableSpace W] [BorelSpace W]
  [SecondCountableTopology W] [CompleteSpace W]

/-- The common part `z` and one of the independent parts. -/
noncomputable def halfMap (r s : ℝ) (d : W) (z ξ : W) : W := r • z + s • ξ + d

/-- The pair (current value, proposal) has the law of two half steps from a common point. -/
theorem map_pcn_half {μ : Measure W} [IsGaussian μ] (a b c r s : ℝ) (h : a ^ 2 + b ^ 2 + c ^ 2 = 1) (hr : r ^ 2 = a)
    (hs : s ^ 2 = 1 - a) (d e : W) (hd : d = (1 - (a + b + c)) • ∫ x, x ∂μ) (he : e = (1 - (r + s)) • ∫ x, x ∂μ) :
    (μ.prod (μ.prod μ)).map (fun p => (p.1, pcnLin a b c p + d)) =
      (μ.prod (μ.prod μ)).map (fun p => (halfMap r s e p.1 p.2.1, halfMap r s e p.1 p.2.2)) := by
  have hT : (fun p : W × W × W => (p.1, pcnLin a b c p + d)) =
      (· + ((0, d) : W × W)) ∘ ((ContinuousLinearMap.fst ℝ W (W × W)).prod (pcnLin a b c)) := by
    ext p <;> simp
  have hT' : (fun p : W × W × W => (halfMap r s e p.1 p.2.1, halfMap r s e p.1 p.2.2)) =
      (· + ((e, e) : W × W)) ∘ ((pcnLin r s 0).prod (pcnLin r 0 s)) := by
    ext p <;> simp [halfMap, pcnLin_apply]
  have : ∀ q : W × W, Measurable (· + q) := fun q => by fun_prop
  rw [hT, hT', ← Measure.map_map (this _) (by fun_prop), ← Measure.map_map (this _) (by fun_prop)]
  have := Measure.isProbabilityMeasure_map (μ := μ.prod (μ.prod μ))
    ((ContinuousLinearMap.fst ℝ W (W × W)).prod (pcnLin a b c)).measurable.aemeasurable
  have := Measure.isProbabilityMeasure_map (μ := μ.prod (μ.prod μ))
    ((pcnLin r s 0).prod (pcnLin r 0 s) : W × W × W →L[ℝ] W × W).measurable.aemeasurable
  refine Measure.ext_of_charFunDual (funext fun L => ?_)
  have hL : ∀ q : W × W, L q = L.comp (.inl ℝ W W) q.1 + L.comp (.inr ℝ W W) q.2 := fun q => by
    simp [← map_add]
  set L1 := L.comp (.inl ℝ W W) with hL1
  set L2 := L.comp (.inr ℝ W W) with hL2
  set M := L.comp ((pcnLin r s 0).prod (pcnLin r 0 s) : W × W × W →L[ℝ] W × W) with hM
  have e1 : M.comp (.inl ℝ W (W × W)) = r • L1 + r • L2 := by
    ext x; simp [hM, hL, pcnLin_apply]
  have e2 : (M.comp (.inr ℝ W (W × W))).comp (.inl ℝ W W) = s • L1 + (0 : ℝ) • L2 := by
    ext x; simp [hM, hL, pcnLin_apply]
  have e3 : (M.comp (.inr ℝ W (W × W))).comp (.inr ℝ W W) = (0 : ℝ) • L1 + s • L2 := by
    ext x; simp [hM, hL, pcnLin_apply]
  rw [charFunDual_map_add_const, charFunDual_map_add_const, charFunDual_map, charFunDual_map,
    charFun_pcn a b c h L1 L2 _ fun p => hL _, ← hM, charFunDual_prod, charFunDual_prod, e1, e2, e3, charFunDual_gauss,
    charFunDual_gauss, charFunDual_gauss, var_comb, var_comb, var_comb, ← Complex.exp_add, ← Complex.exp_add, ← Complex.exp_add,
    ← Complex.exp_add, hL (0, d), hL (e, e), hd, he]
  congr 1
  have hr' : (r : ℂ) ^ 2 = a := by exact_mod_cast hr
  have hs' : (s : ℂ) ^ 2 = 1 - a := by exact_mod_cast hs
  simp only [map_zero, map_smul, smul_eq_mul, add_apply, smul_apply]
  push_cast
  linear_combination ((Var[L1; μ] : ℂ) / 2 + cov[L1, L2; μ] + (Var[L2; μ] : ℂ) / 2) * hr' + ((Var[L1; μ] : ℂ) / 2 + (Var[L2; μ] : ℂ) / 2) * hs'

theorem pcn_factor {μ : Measure W} [IsGaussian μ] (key : Key) {delta : ℝ} (hδ : 0 ≤ delta)
    {sampler : Key → Rand W} (hs : Draws sampler μ) {mean : W} (hmean : mean = ∫ x, x ∂μ) :
    ∃ T : W × W → W, Measurable T ∧ ∀ {f g : W → ℝ≥0∞}, Measurable f → Measurable g →
      ∫⁻ x, f x * (pcnProposal key delta x mean sampler).E g ∂μ = ∫⁻ z, (∫⁻ ξ, f (T (z, ξ)) ∂μ) * ∫⁻ ξ, g (T (z, ξ)) ∂μ ∂μ := by
  set β := 2 / (2 + delta) with hβ
  set q := Real.sqrt (delta / 2)
  set c := Real.sqrt (1 - β)
  set r := Real.sqrt β
  have hβ0 : 0 ≤ β := by positivity
  have hβ1 : 0 ≤ 1 - β := by rw [sub_nonneg, hβ, div_le_one (by linarith)]; linarith
  set e := (1 - (r + c)) • mean with he
  set d := (1 - (β + β * q + c)) • mean with hd
  have hT : Measurable fun p : W × W => halfMap r c e p.1 p.2 := by unfold halfMap; fun_prop
  refine ⟨fun p => halfMap r c e p.1 p.2, hT, fun {f g} hf hg => ?_⟩
  have hm : Measurable fun p : W × W × W => pcnLin β (β * q) c p + d := by fun_prop
  have h1 : Measurable fun p : W × W × W => (p.1, pcnLin β (β * q) c p + d) := measurable_fst.prodMk hm
  have h2 : Measurable fun p : W × W × W => (halfMap r c e p.1 p.2.1, halfMap r c e p.1 p.2.2) := by
    unfold halfMap
    fun_prop
  have hF : Measurable fun x : W × W => f x.1 * g x.2 := mMul (hf.comp measurable_fst) (hg.comp measurable_snd)
  have key1 := congrArg (fun ν => ∫⁻ x, f x.1 * g x.2 ∂ν) (map_pcn_half (μ := μ) β (β * q) c r c (pcn_coeffs hδ)
    (Real.sq_sqrt hβ0) (Real.sq_sqrt hβ1) d e (by rw [hd, hmean]) (by rw [he, hmean]))
  rw [lintegral_map hF h1, lintegral_map hF h2] at key1
  have g1 : Measurable fun p : W × W × W => f p.1 * g (pcnLin β (β * q) c p + d) := mMul (hf.comp measurable_fst) (hg.comp hm)
  have g2 : Measurable fun p : W × W × W => f (halfMap r c e p.1 p.2.1) * g (halfMap r c e p.1 p.2.2) := hF.comp h2
  rw [lintegral_prod _ g1.aemeasurable, lintegral_prod _ g2.aemeasurable] at key1
  have l : ∀ x, f x * (pcnProposal key delta x mean sampler).E g = ∫⁻ y, f x * g (pcnLin β (β * q) c (x, y) + d) ∂(μ.prod μ) := fun x => by
    have : Measurable fun y : W × W => g (pcnLin β (β * q) c (x, y) + d) := hg.comp (hm.comp measurable_prodMk_left)
    rw [E_pcnProposal key delta x mean hs hg, lintegral_const_mul _ this]
  simp only [l]
  refine key1.trans (lintegral_congr fun z => ?_)
  have mf : Measurable fun ξ => f (halfMap r c e z ξ) := hf.comp (hT.comp measurable_prodMk_left)
  have mg : Measurable fun ξ => g (halfMap r c e z ξ) := hg.comp (hT.comp measurable_prodMk_left)
  exact lintegral_prod_mul mf.aemeasurable mg.aemeasurable

theorem pcn_pos {μ : Measure W} [IsGaussian μ] (key : Key) {delta : ℝ} (hδ : 0 ≤ delta)
    {sampler : Key → Rand W} (hs : Draws sampler μ) {mean : W} (hmean : mean = ∫ x, x ∂μ) {Q : Kernel W W}
    (hQ : ∀ x f, Measurable f → (pcnProposal key delta x mean sampler).E f = ∫⁻ y, f y ∂(Q x)) : Pos Q μ := fun f g hf hg => by
  obtain ⟨T, hT, h⟩ := pcn_factor key hδ hs hmean
  have e : ∀ {f g : W → ℝ≥0∞}, Measurable f → Measurable g →
      lagProd Q μ f g 1 = ∫⁻ z, (∫⁻ ξ, f (T (z, ξ)) ∂μ) * ∫⁻ ξ, g (T (z, ξ)) ∂μ ∂μ := fun {f g} hf hg => by
    rw [← h hf hg]
    simp only [lagProd, iterInt, hQ _ g hg]
  have m : ∀ {f : W → ℝ≥0∞}, Measurable f → Measurable fun z => ∫⁻ ξ, f (T (z, ξ)) ∂μ := fun hf =>
    (hf.comp hT).lintegral_prod_right'
  rw [e hf hg, e hg hf, e hf hf, e hg hg, ← lintegral_add_left (mMul (m hf) (m hg)), ← lintegral_add_left (mMul (m hf) (m hf))]
  exact lintegral_mono fun z => two_mul_le

end Gauss

end Props
end Fbs
