import Verif.Lemmas.MetropolisOrder
import Verif.Lemmas.ResolventUpper

/-! How much slower the Metropolis–Hastings chain with estimated weights can be. -/

open MeasureTheory ProbabilityTheory
open scoped ENNReal

namespace Fbs
namespace Props

open Jax Smc

section Convex

variable {X : Type} [MeasurableSpace X] {μ : Measure X} [IsProbabilityMeasure μ]

theorem sqDiff_comm (a b : ℝ≥0∞) : sqDiff a b = sqDiff b a := by
  unfold sqDiff
  rw [add_comm]

/-- Jensen for the squared difference. -/
theorem sqDiff_lintegral_le {a : X → ℝ≥0∞} (ha : Measurable a) (b : ℝ≥0∞) :
    sqDiff (∫⁻ x, a x ∂μ) b ≤ ∫⁻ x, sqDiff (a x) b ∂μ := by
  have m1 : Measurable fun x => a x - b := ha.sub measurable_const
  have m2 : Measurable fun x => b - a x := measurable_const.sub ha
  have hb : b = ∫⁻ _, b ∂μ := by simp
  have h1 : (∫⁻ x, a x ∂μ) - b ≤ ∫⁻ x, a x - b ∂μ := by
    conv_lhs => rw [hb]
    exact lintegral_sub_le _ _ measurable_const
  have h2 : b - ∫⁻ x, a x ∂μ ≤ ∫⁻ x, b - a x ∂μ := by
    conv_lhs => rw [hb]
    exact lintegral_sub_le _ _ ha
  unfold sqDiff
  rw [lintegral_add_left (mMul m1 m1)]
  exact add_le_add ((mul_le_mul' h1 h1).trans (sq_lintegral_le m1)) ((mul_le_mul' h2 h2).trans (sq_lintegral_le m2))

end Convex

section Two

variable {Y Ω : Type} [MeasurableSpace Y] [MeasurableSpace Ω] {P : Measure Y} [SFinite P] {κ : Kernel Y Ω} [IsMarkovKernel κ]
  {Q : Kernel Y Y} [IsMarkovKernel Q] {w : Y × Ω → ℝ} {l : Y → ℝ}

/-- Integral over the accepted moves of the chain with estimated weights. -/
theorem accForm_ext_gen (hw : Measurable w) {F : Y × Ω → Y × Ω → ℝ≥0∞} (hF : Measurable fun q : (Y × Ω) × (Y × Ω) => F q.1 q.2) :
    accForm (P ⊗ₘ κ) (extProp κ Q) w F
      = ∫⁻ y, ∫⁻ y', ∫⁻ p, ∫⁻ p', accW (w (y, p)) (w (y', p')) * F (y, p) (y', p') ∂(κ y') ∂(κ y) ∂(Q y) ∂P := by
  have hm : Measurable fun z : (Y × Ω) × (Y × Ω) => accW (w z.1) (w z.2) * F z.1 z.2 :=
    mMul (measurable_accW.comp ((hw.comp measurable_fst).prodMk (hw.comp measurable_snd))) hF
  rw [accForm, Measure.lintegral_compProd (mDouble hm)]
  refine lintegral_congr fun y => ?_
  have e : ∀ p, ∫⁻ z', accW (w (y, p)) (w z') * F (y, p) z' ∂(extProp κ Q (y, p))
      = ∫⁻ y', ∫⁻ p', accW (w (y, p)) (w (y', p')) * F (y, p) (y', p') ∂(κ y') ∂(Q y) := fun p =>
    lintegral_extProp κ Q (hm.comp (measurable_prodMk_left (x := (y, p)))) (y, p)
  simp only [e]
  have m3 : Measurable fun q : (Ω × Y) × Ω => accW (w (y, q.1.1)) (w (q.1.2, q.2)) * F (y, q.1.1) (q.1.2, q.2) :=
    hm.comp (by fun_prop : Measurable fun q : (Ω × Y) × Ω => (((y, q.1.1), (q.1.2, q.2)) : (Y × Ω) × (Y × Ω)))
  have m2 : Measurable fun q : Ω × Y => ∫⁻ p', accW (w (y, q.1)) (w (q.2, p')) * F (y, q.1) (q.2, p') ∂(κ q.2) :=
    m3.lintegral_kernel_prod_right' (κ := κ.comap Prod.snd measurable_snd)
  rw [lintegral_lintegral_swap m2.aemeasurable]

/-- The weight of a path relative to the exact one. -/
noncomputable def relW (w : Y × Ω → ℝ) (l : Y → ℝ) (y : Y) (p : Ω) : ℝ≥0∞ := ENNReal.ofReal (Real.exp (w (y, p) - l y))

/-- Average of `h` over the estimates, in proportion to their weights. -/
noncomputable def projW (κ : Kernel Y Ω) (w : Y × Ω → ℝ) (l : Y → ℝ) (h : Y × Ω → ℝ≥0∞) (y : Y) : ℝ≥0∞ :=
  ∫⁻ p, relW w l y p * h (y, p) ∂(κ y)

omit [MeasurableSpace Y] [MeasurableSpace Ω] in
theorem relW_mul (y : Y) (p : Ω) : ENNReal.ofReal (Real.exp (l y)) * relW w l y p = ENNReal.ofReal (Real.exp (w (y, p))) := by
  rw [relW, ← ENNReal.ofReal_mul (Real.exp_pos _).le, ← Real.exp_add]
  congr 2
  ring

theorem measurable_relW (hw : Measurable w) (hl : Measurable l) : Measurable fun z : Y × Ω => relW w l z.1 z.2 := by
  have : Measurable fun z : Y × Ω => w z - l z.1 := hw.sub (hl.comp measurable_fst)
  exact (Real.measurable_exp.comp this).ennreal_ofReal

theorem measurable_projW (hw : Measurable w) (hl : Measurable l) {h : Y × Ω → ℝ≥0∞} (hh : Measurable h) :
    Measurable (projW κ w l h) := by
  have : Measurable fun z : Y × Ω => relW w l z.1 z.2 * h z := mMul (measurable_relW hw hl) hh
  exact this.lintegral_kernel_prod_right'

omit [MeasurableSpace Y] [MeasurableSpace Ω] in
theorem acc_rel_le {W : ℝ} {y y' : Y} {p p' : Ω} (hp : Real.exp (w (y, p)) ≤ W * Real.exp (l y))
    (hp' : Real.exp (w (y', p')) ≤ W * Real.exp (l y')) :
    accW (l y) (l y') * relW w l y p * relW w l y' p' ≤ ENNReal.ofReal W * accW (w (y, p)) (w (y', p')) := by
  unfold accW relW
  rw [← ENNReal.ofReal_mul (by positivity), ← ENNReal.ofReal_mul (by positivity), mul_comm (ENNReal.ofReal W), ← ENNReal.ofReal_mul (by positivity)]
  refine ENNReal.ofReal_le_ofReal ?_
  have e1 : Real.exp (l y) * Real.exp (w (y, p) - l y) = Real.exp (w (y, p)) := by rw [← Real.exp_add]; congr 1; ring
  have e2 : Real.exp (l y') * Real.exp (w (y', p') - l y') = Real.exp (w (y', p')) := by rw [← Real.exp_add]; congr 1; ring
  have r1 : Real.exp (w (y, p) - l y) ≤ W := by
    rw [Real.exp_sub, div_le_iff₀ (Real.exp_pos _)]
    exact hp
  have r2 : Real.exp (w (y', p') - l y') ≤ W := by
    rw [Real.exp_sub, div_le_iff₀ (Real.exp_pos _)]
    exact hp'
  have p1 := Real.exp_pos (w (y, p) - l y)
  have p2 := Real.exp_pos (w (y', p') - l y')
  rcases min_choice (Real.exp (w (y, p))) (Real.exp (w (y', p'))) with hm | hm <;> rw [hm]
  · calc min (Real.exp (l y)) (Real.exp (l y')) * Real.exp (w (y, p) - l y) * Real.exp (w (y', p') - l y')
        ≤ Real.exp (l y) * Real.exp (w (y, p) - l y) * W := by
          gcongr
          exact min_le_left _ _
      _ = _ := by rw [e1]
  · calc min (Real.exp (l y)) (Real.exp (l y')) * Real.exp (w (y, p) - l y) * Real.exp (w (y', p') - l y')
        ≤ Real.exp (l y') * W * Real.exp (w (y', p') - l y') := by
          gcongr
          exact min_le_right _ _
      _ = _ := by rw [mul_right_comm, e2]

variable (hw : Measurable w) (hlm : Measurable l)
  (hl : ∀ y, ∫⁻ p, ENNReal.ofReal (Real.exp (w (y, p))) ∂(κ y) = ENNReal.ofReal (Real.exp (l y)))

include hw hlm

omit [IsMarkovKernel κ] in
theorem relW_mass (hl : ∀ y, ∫⁻ p, ENNReal.ofReal (Real.exp (w (y, p))) ∂(κ y) = ENNReal.ofReal (Real.exp (l y))) (y : Y) :
    ∫⁻ p, relW w l y p ∂(κ y) = 1 := by
  have h1 : Measurable fun p => relW w l y p := measurable_section (measurable_relW hw hlm) y
  have h0 : ENNReal.ofReal (Real.exp (l y)) ≠ 0 := by simp [Real.exp_pos]
  have := lintegral_const_mul (μ := κ y) (ENNReal.ofReal (Real.exp (l y))) h1
  simp only [relW_mul] at this
  rw [hl] at this
  refine (ENNReal.mul_right_inj h0 ENNReal.ofReal_ne_top).1 ?_
  rw [← this, mul_one]

omit [IsMarkovKernel κ] in
/-- Jensen under the size-biased law of the estimate. -/
theorem biased_prob (hl : ∀ y, ∫⁻ p, ENNReal.ofReal (Real.exp (w (y, p))) ∂(κ y) = ENNReal.ofReal (Real.exp (l y))) (y : Y) :
    ∃ ρ : Measure Ω, IsProbabilityMeasure ρ ∧ ∀ f : Ω → ℝ≥0∞, Measurable f → ∫⁻ p, f p ∂ρ = ∫⁻ p, relW w l y p * f p ∂(κ y) := by
  have h1 : Measurable fun p => relW w l y p := measurable_section (measurable_relW hw hlm) y
  refine ⟨(κ y).withDensity fun p => relW w l y p, ⟨?_⟩, fun f hf => ?_⟩
  · rw [withDensity_apply _ MeasurableSet.univ, Measure.restrict_univ]
    exact relW_mass hw hlm hl y
  · rw [lintegral_withDensity_eq_lintegral_mul _ h1 hf]
    rfl

/-- Integrals against functions of the first coordinate. -/
theorem projW_integral {h : Y × Ω → ℝ≥0∞} (hh : Measurable h) {f : Y → ℝ≥0∞} (hf : Measurable f) :
    ∫⁻ z, ENNReal.ofReal (Real.exp (w z)) * (f z.1 * h z) ∂(P ⊗ₘ κ)
      = ∫⁻ y, ENNReal.ofReal (Real.exp (l y)) * (f y * projW κ w l h y) ∂P := by
  have m1 : Measurable fun z : Y × Ω => ENNReal.ofReal (Real.exp (w z)) * (f z.1 * h z) :=
    mMul (Real.measurable_exp.comp hw).ennreal_ofReal (mMul (hf.comp measurable_fst) hh)
  rw [Measure.lintegral_compProd m1]
  refine lintegral_congr fun y => ?_
  have m2 : Measurable fun p => relW w l y p * h (y, p) :=
    measurable_section (F := fun z : Y × Ω => relW w l z.1 z.2 * h z) (mMul (measurable_relW hw hlm) hh) y
  rw [projW, ← lintegral_const_mul _ m2, ← lintegral_const_mul _ (m2.const_mul _)]
  refine lintegral_congr fun p => ?_
  rw [← relW_mul (l := l)]
  ring

include hl

theorem projW_sq {h : Y × Ω → ℝ≥0∞} (hh : Measurable h) :
    ∫⁻ y, ENNReal.ofReal (Real.exp (l y)) * (projW κ w l h y * projW κ w l h y) ∂P
      ≤ ∫⁻ z, ENNReal.ofReal (Real.exp (w z)) * (h z * h z) ∂(P ⊗ₘ κ) := by
  have m1 : Measurable fun z : Y × Ω => h z * h z := mMul hh hh
  have e := projW_integral (P := P) (κ := κ) hw hlm m1 (f := fun _ => 1) measurable_const
  simp only [one_mul] at e
  rw [e]
  refine lintegral_mono fun y => mul_le_mul_right ?_ _
  obtain ⟨ρ, hρ, hi⟩ := biased_prob hw hlm hl y
  have hs : Measurable fun p => h (y, p) := measurable_section hh y
  have := sq_lintegral_le (μ := ρ) hs
  rw [hi _ hs, hi _ (mMul hs hs)] at this
  exact this

/-- The jumps of the average are at most `W` times the accepted jumps. -/
theorem projW_jumps {W : ℝ} (hW : ∀ y, ∀ᵐ p ∂(κ y), Real.exp (w (y, p)) ≤ W * Real.exp (l y))
    {h : Y × Ω → ℝ≥0∞} (hh : Measurable h) :
    accForm P Q l (fun y y' => sqDiff (projW κ w l h y) (projW κ w l h y'))
      ≤ ENNReal.ofReal W * accForm (P ⊗ₘ κ) (extProp κ Q) w (fun z z' => sqDiff (h z) (h z')) := by
  have hF : Measurable fun q : (Y × Ω) × (Y × Ω) => sqDiff (h q.1) (h q.2) :=
    measurable_sqDiff.comp ((hh.comp measurable_fst).prodMk (hh.comp measurable_snd))
  rw [accForm_ext_gen hw (F := fun z z' => sqDiff (h z) (h z')) hF, accForm, ← lintegral_const_mul' _ _ ENNReal.ofReal_ne_top]
  refine lintegral_mono fun y => ?_
  rw [← lintegral_const_mul' _ _ ENNReal.ofReal_ne_top]
  refine lintegral_mono fun y' => ?_
  simp only [← lintegral_const_mul' _ _ ENNReal.ofReal_ne_top]
  obtain ⟨ρ, hρ, hi⟩ := biased_prob hw hlm hl y
  obtain ⟨ρ', hρ', hi'⟩ := biased_prob hw hlm hl y'
  have hs : ∀ y, Measurable fun p => h (y, p) := fun y => measurable_section hh y
  have hd : ∀ b, Measurable fun p => sqDiff (h (y, p)) b := fun b => measurable_sqDiff.comp ((hs y).prodMk measurable_const)
  have hd' : ∀ a, Measurable fun p' => sqDiff (h (y', p')) a := fun a => measurable_sqDiff.comp ((hs y').prodMk measurable_const)
  have h1 : sqDiff (projW κ w l h y) (projW κ w l h y')
      ≤ ∫⁻ p, relW w l y p * sqDiff (h (y, p)) (projW κ w l h y') ∂(κ y) := by
    have := sqDiff_lintegral_le (μ := ρ) (hs y) (projW κ w l h y')
    rw [hi _ (hs y), hi _ (hd _)] at this
    exact this
  have h2 : ∀ p, sqDiff (h (y, p)) (projW κ w l h y') ≤ ∫⁻ p', relW w l y' p' * sqDiff (h (y, p)) (h (y', p')) ∂(κ y') := fun p => by
    have := sqDiff_lintegral_le (μ := ρ') (hs y') (h (y, p))
    rw [hi' _ (hs y'), hi' _ (hd' _)] at this
    simp only [sqDiff_comm _ (h (y, p))] at this
    exact this
  have ht : accW (l y) (l y') ≠ ∞ := ENNReal.ofReal_ne_top
  have hr : ∀ y p, relW w l y p ≠ ∞ := fun _ _ => ENNReal.ofReal_ne_top
  calc accW (l y) (l y') * sqDiff (projW κ w l h y) (projW κ w l h y')
      ≤ accW (l y) (l y') * ∫⁻ p, relW w l y p * ∫⁻ p', relW w l y' p' * sqDiff (h (y, p)) (h (y', p')) ∂(κ y') ∂(κ y) :=
        mul_le_mul_right (h1.trans (lintegral_mono fun p => mul_le_mul_right (h2 p) _)) _
    _ = ∫⁻ p, ∫⁻ p', accW (l y) (l y') * (relW w l y p * (relW w l y' p' * sqDiff (h (y, p)) (h (y', p')))) ∂(κ y') ∂(κ y) := by
        rw [← lintegral_const_mul' _ _ ht]
        refine lintegral_congr fun p => ?_
        rw [← lintegral_const_mul' _ _ (hr y p), ← lintegral_const_mul' _ _ ht]
    _ ≤ _ := by
        refine lintegral_mono_ae ?_
        filter_upwards [hW y] with p hp
        refine lintegral_mono_ae ?_
        filter_upwards [hW y'] with p' hp'
        rw [← mul_assoc, ← mul_assoc, ← mul_assoc]
        refine mul_le_mul_left ?_ _
        exact acc_rel_le hp hp'

/-- The chain with exact weights accepts at most `W` times as many moves. -/
theorem accForm_upper {W : ℝ} (hW : ∀ y, ∀ᵐ p ∂(κ y), Real.exp (w (y, p)) ≤ W * Real.exp (l y))
    {F : Y → Y → ℝ≥0∞} (hF : Measurable fun q : Y × Y => F q.1 q.2) :
    accForm P Q l F ≤ ENNReal.ofReal W * accForm (P ⊗ₘ κ) (extProp κ Q) w (fun z z' => F z.1 z'.1) := by
  rw [accForm_ext hw hF, accForm, ← lintegral_const_mul' _ _ ENNReal.ofReal_ne_top]
  refine lintegral_mono fun y => ?_
  rw [← lintegral_const_mul' _ _ ENNReal.ofReal_ne_top]
  refine lintegral_mono fun y' => ?_
  rw [← mul_assoc]
  refine mul_le_mul_left ?_ _
  have h1 : ∀ y, Measurable fun p => relW w l y p := fun y => measurable_section (measurable_relW hw hlm) y
  calc accW (l y) (l y') = ∫⁻ p, ∫⁻ p', accW (l y) (l y') * (relW w l y p * relW w l y' p') ∂(κ y') ∂(κ y) := by
        have e : ∀ p, ∫⁻ p', accW (l y) (l y') * (relW w l y p * relW w l y' p') ∂(κ y') = accW (l y) (l y') * relW w l y p := fun p => by
          rw [lintegral_const_mul _ ((h1 y').const_mul _), lintegral_const_mul _ (h1 y'), relW_mass hw hlm hl, mul_one]
        simp only [e]
        rw [lintegral_const_mul _ (h1 y), relW_mass hw hlm hl, mul_one]
    _ ≤ _ := by
        rw [← lintegral_const_mul' _ _ ENNReal.ofReal_ne_top]
        refine lintegral_mono_ae ?_
        filter_upwards [hW y] with p hp
        rw [← lintegral_const_mul' _ _ ENNReal.ofReal_ne_top]
        refine lintegral_mono_ae ?_
        filter_upwards [hW y'] with p' hp'
        rw [← mul_assoc]
        exact acc_rel_le hp hp'

/-- In terms of the lag-one products. -/
theorem projW_mhForm (hQ : ∀ F : Y × Y → ℝ≥0∞, Measurable F →
      ∫⁻ y, ∫⁻ y', F (y, y') ∂(Q y) ∂P = ∫⁻ y, ∫⁻ y', F (y', y) ∂(Q y) ∂P)
    {W : ℝ} (hW : ∀ y, ∀ᵐ p ∂(κ y), Real.exp (w (y, p)) ≤ W * Real.exp (l y))
    {h : Y × Ω → ℝ≥0∞} (hh : Measurable h) :
    (∫⁻ y, ENNReal.ofReal (Real.exp (l y)) * (projW κ w l h y * projW κ w l h y) ∂P)
        + ENNReal.ofReal W * mhForm (P ⊗ₘ κ) (extProp κ Q) w h h
      ≤ ENNReal.ofReal W * (∫⁻ z, ENNReal.ofReal (Real.exp (w z)) * (h z * h z) ∂(P ⊗ₘ κ))
        + mhForm P Q l (projW κ w l h) (projW κ w l h) := by
  have d1 := mhForm_dirichlet hlm hQ (measurable_projW (κ := κ) hw hlm hh)
  have d2 := mhForm_dirichlet hw (fun F hF => extProp_rev P κ Q hQ hF) hh
  have h1 := projW_jumps (P := P) (Q := Q) hw hlm hl hW hh
  refine (ENNReal.mul_le_mul_iff_right two_ne_zero ENNReal.ofNat_ne_top).1 ?_
  rw [mul_add, mul_add, ← d1, mul_left_comm 2, mul_left_comm 2, ← d2, mul_add]
  calc _ ≤ 2 * mhForm P Q l (projW κ w l h) (projW κ w l h) + ENNReal.ofReal W * accForm (P ⊗ₘ κ) (extProp κ Q) w (fun z z' => sqDiff (h z) (h z'))
        + ENNReal.ofReal W * (2 * mhForm (P ⊗ₘ κ) (extProp κ Q) w h h) := by gcongr
    _ = _ := by ring

omit hw hlm in
theorem one_le_of_bound [Nonempty Y] {W : ℝ} (hW : ∀ y, ∀ᵐ p ∂(κ y), Real.exp (w (y, p)) ≤ W * Real.exp (l y)) : 1 ≤ W := by
  obtain ⟨y⟩ := ‹Nonempty Y›
  have h1 : ENNReal.ofReal (Real.exp (l y)) ≤ ENNReal.ofReal (W * Real.exp (l y)) := by
    rw [← hl y]
    refine (lintegral_mono_ae (g := fun _ => ENNReal.ofReal (W * Real.exp (l y))) ?_).trans (by simp)
    filter_upwards [hW y] with p hp
    exact ENNReal.ofReal_le_ofReal hp
  have hp := Real.exp_pos (l y)
  rw [ENNReal.ofReal_le_ofReal_iff'] at h1
  rcases h1 with h1 | h1
  · nlinarith
  · exact absurd h1 (not_le.2 hp)

end Two

end Props
end Fbs
