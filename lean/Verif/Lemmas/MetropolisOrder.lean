import Verif.Lemmas.ProposalPos
import Verif.Lemmas.Resolvent

/-! Metropolis–Hastings with estimated weights against the one with exact weights. -/

open MeasureTheory ProbabilityTheory
open scoped ENNReal

namespace Fbs
namespace Props

open Jax Smc

section One

variable {X : Type} [MeasurableSpace X]

/-- Integral of `F` over the accepted moves. -/
noncomputable def accForm (μ : Measure X) (D : Kernel X X) (w : X → ℝ) (F : X → X → ℝ≥0∞) : ℝ≥0∞ :=
  ∫⁻ z, ∫⁻ z', accW (w z) (w z') * F z z' ∂(D z) ∂μ

/-- The squared difference. -/
noncomputable def sqDiff (a b : ℝ≥0∞) : ℝ≥0∞ := (a - b) * (a - b) + (b - a) * (b - a)

theorem sqDiff_self (a : ℝ≥0∞) : sqDiff a a = 0 := by simp [sqDiff]

theorem sqDiff_le_one {a b : ℝ≥0∞} (ha : a ≤ 1) (hb : b ≤ 1) : sqDiff a b ≤ 1 := by
  rcases le_total a b with h | h
  · simp only [sqDiff, tsub_eq_zero_of_le h, zero_mul, zero_add]
    exact mul_le_one' (tsub_le_self.trans hb) (tsub_le_self.trans hb)
  · simp only [sqDiff, tsub_eq_zero_of_le h, zero_mul, add_zero]
    exact mul_le_one' (tsub_le_self.trans ha) (tsub_le_self.trans ha)

theorem sqDiff_add (a b : ℝ≥0∞) : a * b + a * b + sqDiff a b = a * a + b * b := by
  unfold sqDiff
  by_cases ha : a = ∞
  · subst ha
    by_cases hb : b = ∞
    · simp [hb]
    · by_cases h0 : b = 0 <;> simp [h0, hb]
  by_cases hb : b = ∞
  · subst hb
    simp [ha]
  lift a to NNReal using ha
  lift b to NNReal using hb
  norm_cast
  rw [← NNReal.coe_inj]
  rcases le_total a b with h | h
  · rw [tsub_eq_zero_of_le h]
    push_cast [NNReal.coe_sub h]
    ring
  · rw [tsub_eq_zero_of_le h]
    push_cast [NNReal.coe_sub h]
    ring

theorem measurable_sqDiff : Measurable fun q : ℝ≥0∞ × ℝ≥0∞ => sqDiff q.1 q.2 := by
  unfold sqDiff
  have h1 : Measurable fun q : ℝ≥0∞ × ℝ≥0∞ => q.1 - q.2 := measurable_fst.sub measurable_snd
  have h2 : Measurable fun q : ℝ≥0∞ × ℝ≥0∞ => q.2 - q.1 := measurable_snd.sub measurable_fst
  exact mAdd (mMul h1 h1) (mMul h2 h2)

variable {μ : Measure X} {D : Kernel X X} [IsMarkovKernel D] {w : X → ℝ}

theorem accW_add_rejW (l l' : ℝ) : accW l l' + rejW l l' = ENNReal.ofReal (Real.exp l) := by
  rw [← accW_eq, rejW, ← mul_add, add_tsub_cancel_of_le, mul_one]
  exact ENNReal.ofReal_le_one.2 (min_le_left _ _)

/-- Twice the lag-one product and the squared jumps add up to twice the second moment. -/
theorem mhForm_dirichlet (hw : Measurable w) (hD : ∀ F : X × X → ℝ≥0∞, Measurable F →
      ∫⁻ z, ∫⁻ z', F (z, z') ∂(D z) ∂μ = ∫⁻ z, ∫⁻ z', F (z', z) ∂(D z) ∂μ) {f : X → ℝ≥0∞} (hf : Measurable f) :
    2 * mhForm μ D w f f + accForm μ D w (fun z z' => sqDiff (f z) (f z'))
      = 2 * ∫⁻ z, ENNReal.ofReal (Real.exp (w z)) * (f z * f z) ∂μ := by
  have hww : Measurable fun z : X × X => (w z.1, w z.2) := (hw.comp measurable_fst).prodMk (hw.comp measurable_snd)
  have hf1 : Measurable fun z : X × X => f z.1 := hf.comp measurable_fst
  have hf2 : Measurable fun z : X × X => f z.2 := hf.comp measurable_snd
  have hc : Measurable fun z : X × X => accW (w z.1) (w z.2) := measurable_accW.comp hww
  have hr : Measurable fun z : X × X => rejW (w z.1) (w z.2) := measurable_rejW.comp hww
  have hs : Measurable fun z : X × X => sqDiff (f z.1) (f z.2) := measurable_sqDiff.comp (hf1.prodMk hf2)
  have add2 : ∀ {F G : X × X → ℝ≥0∞}, Measurable F → Measurable G →
      (∫⁻ z, ∫⁻ z', F (z, z') ∂(D z) ∂μ) + ∫⁻ z, ∫⁻ z', G (z, z') ∂(D z) ∂μ = ∫⁻ z, ∫⁻ z', F (z, z') + G (z, z') ∂(D z) ∂μ := by
    intro F G hF hG
    rw [← lintegral_add_left (mDouble hF)]
    refine lintegral_congr fun z => ?_
    have hz : Measurable fun z' => F (z, z') := hF.comp measurable_prodMk_left
    exact (lintegral_add_left hz _).symm
  have m12 : Measurable fun z : X × X => accW (w z.1) (w z.2) * (f z.1 * f z.2) := mMul hc (mMul hf1 hf2)
  have m11 : Measurable fun z : X × X => accW (w z.1) (w z.2) * (f z.1 * f z.1) := mMul hc (mMul hf1 hf1)
  have m22 : Measurable fun z : X × X => accW (w z.1) (w z.2) * (f z.2 * f z.2) := mMul hc (mMul hf2 hf2)
  have ms : Measurable fun z : X × X => accW (w z.1) (w z.2) * sqDiff (f z.1) (f z.2) := mMul hc hs
  have mr : Measurable fun z : X × X => rejW (w z.1) (w z.2) * (f z.1 * f z.1) := mMul hr (mMul hf1 hf1)
  have hT : (∫⁻ z, ∫⁻ z', accW (w z) (w z') * (f z * f z) ∂(D z) ∂μ) + ∫⁻ z, ∫⁻ z', rejW (w z) (w z') * (f z * f z) ∂(D z) ∂μ
      = ∫⁻ z, ENNReal.ofReal (Real.exp (w z)) * (f z * f z) ∂μ := by
    rw [add2 m11 mr]
    refine lintegral_congr fun z => ?_
    simp only [← add_mul, accW_add_rejW]
    simp
  have hA : 2 * (∫⁻ z, ∫⁻ z', accW (w z) (w z') * (f z * f z') ∂(D z) ∂μ) + accForm μ D w (fun z z' => sqDiff (f z) (f z'))
      = 2 * ∫⁻ z, ∫⁻ z', accW (w z) (w z') * (f z * f z) ∂(D z) ∂μ := by
    have hsym : ∫⁻ z, ∫⁻ z', accW (w z) (w z') * (f z * f z) ∂(D z) ∂μ = ∫⁻ z, ∫⁻ z', accW (w z) (w z') * (f z' * f z') ∂(D z) ∂μ := by
      rw [hD _ m11]
      exact lintegral_congr fun z => lintegral_congr fun z' => by rw [accW_comm]
    rw [two_mul, two_mul, accForm, add2 m12 m12, add2 (mAdd m12 m12) ms]
    refine Eq.trans ?_ (congrArg _ hsym.symm)
    refine Eq.trans ?_ (add2 m11 m22).symm
    refine lintegral_congr fun z => lintegral_congr fun z' => ?_
    rw [← mul_add, ← mul_add, sqDiff_add, mul_add]
  rw [mhForm_eq hw hf hf, mul_add, add_right_comm, hA, ← mul_add, hT]

end One

section Two

variable {Y Ω : Type} [MeasurableSpace Y] [MeasurableSpace Ω] {P : Measure Y} [SFinite P] {κ : Kernel Y Ω} [IsMarkovKernel κ]
  {Q : Kernel Y Y} [IsMarkovKernel Q] {w : Y × Ω → ℝ} {l : Y → ℝ}

/-- The accepted moves of the chain with estimated weights, path by path. -/
theorem accForm_ext (hw : Measurable w) {F : Y → Y → ℝ≥0∞} (hF : Measurable fun q : Y × Y => F q.1 q.2) :
    accForm (P ⊗ₘ κ) (extProp κ Q) w (fun z z' => F z.1 z'.1)
      = ∫⁻ y, ∫⁻ y', (∫⁻ p, ∫⁻ p', accW (w (y, p)) (w (y', p')) ∂(κ y') ∂(κ y)) * F y y' ∂(Q y) ∂P := by
  have hm : Measurable fun z : (Y × Ω) × (Y × Ω) => accW (w z.1) (w z.2) * F z.1.1 z.2.1 :=
    mMul (measurable_accW.comp ((hw.comp measurable_fst).prodMk (hw.comp measurable_snd)))
      (hF.comp (by fun_prop : Measurable fun z : (Y × Ω) × (Y × Ω) => (z.1.1, z.2.1)))
  rw [accForm, Measure.lintegral_compProd (mDouble hm)]
  refine lintegral_congr fun y => ?_
  have e : ∀ p, ∫⁻ z', accW (w (y, p)) (w z') * F y z'.1 ∂(extProp κ Q (y, p))
      = ∫⁻ y', ∫⁻ p', accW (w (y, p)) (w (y', p')) * F y y' ∂(κ y') ∂(Q y) := fun p =>
    lintegral_extProp κ Q (hm.comp (measurable_prodMk_left (x := (y, p)))) (y, p)
  simp only [e]
  have m3 : Measurable fun q : (Ω × Y) × Ω => accW (w (y, q.1.1)) (w (q.1.2, q.2)) * F y q.1.2 :=
    hm.comp (by fun_prop : Measurable fun q : (Ω × Y) × Ω => (((y, q.1.1), (q.1.2, q.2)) : (Y × Ω) × (Y × Ω)))
  have m2 : Measurable fun q : Ω × Y => ∫⁻ p', accW (w (y, q.1)) (w (q.2, p')) * F y q.2 ∂(κ q.2) :=
    m3.lintegral_kernel_prod_right' (κ := κ.comap Prod.snd measurable_snd)
  rw [lintegral_lintegral_swap m2.aemeasurable]
  refine lintegral_congr fun y' => ?_
  have a1 : Measurable fun q : Ω × Ω => accW (w (y, q.1)) (w (y', q.2)) :=
    measurable_accW.comp ((hw.comp (by fun_prop : Measurable fun q : Ω × Ω => (y, q.1))).prodMk
      (hw.comp (by fun_prop : Measurable fun q : Ω × Ω => (y', q.2))))
  have a2 : Measurable fun p => ∫⁻ p', accW (w (y, p)) (w (y', p')) ∂(κ y') := a1.lintegral_prod_right'
  rw [← lintegral_mul_const _ a2]
  refine lintegral_congr fun p => ?_
  have a3 : Measurable fun p' => accW (w (y, p)) (w (y', p')) := a1.comp measurable_prodMk_left
  rw [lintegral_mul_const _ a3]

theorem measurable_sec (hw : Measurable w) (y : Y) : Measurable fun p => ENNReal.ofReal (Real.exp (w (y, p))) :=
  (ENNReal.measurable_ofReal.comp Real.measurable_exp).comp (hw.comp measurable_prodMk_left)

theorem inner_le (hl : ∀ y, ∫⁻ p, ENNReal.ofReal (Real.exp (w (y, p))) ∂(κ y) = ENNReal.ofReal (Real.exp (l y)))
    (y y' : Y) : ∫⁻ p, ∫⁻ p', accW (w (y, p)) (w (y', p')) ∂(κ y') ∂(κ y) ≤ accW (l y) (l y') := by
  unfold accW
  simp only [ENNReal.ofReal_min]
  refine le_min ?_ ?_
  · rw [← hl y]
    refine lintegral_mono fun p => (lintegral_mono fun p' => min_le_left _ _).trans ?_
    simp
  · rw [← hl y']
    refine (lintegral_mono fun p => lintegral_mono fun p' => min_le_right _ _).trans ?_
    simp

/-- Estimated weights give fewer accepted moves. -/
theorem accForm_le (hw : Measurable w) (hl : ∀ y, ∫⁻ p, ENNReal.ofReal (Real.exp (w (y, p))) ∂(κ y) = ENNReal.ofReal (Real.exp (l y)))
    {F : Y → Y → ℝ≥0∞} (hF : Measurable fun q : Y × Y => F q.1 q.2) :
    accForm (P ⊗ₘ κ) (extProp κ Q) w (fun z z' => F z.1 z'.1) ≤ accForm P Q l F := by
  rw [accForm_ext hw hF]
  exact lintegral_mono fun y => lintegral_mono fun y' => mul_le_mul_left (inner_le hl y y') _

/-- ... but not many fewer. -/
theorem le_accForm [IsProbabilityMeasure P] (hw : Measurable w) {v : ℝ} (hv : 0 < v)
    (hvar : ∀ y, ∫⁻ p, ENNReal.ofReal ((Real.exp (w (y, p)) - Real.exp (l y)) ^ 2) ∂(κ y) ≤ ENNReal.ofReal v)
    {F : Y → Y → ℝ≥0∞} (hF : Measurable fun q : Y × Y => F q.1 q.2) (hF1 : ∀ y y', F y y' ≤ 1) :
    accForm P Q l F ≤ accForm (P ⊗ₘ κ) (extProp κ Q) w (fun z z' => F z.1 z'.1) + ENNReal.ofReal (2 * √v) := by
  have hs : 0 < √v := Real.sqrt_pos.2 hv
  have habs : ∀ y, ∫⁻ p, ENNReal.ofReal |Real.exp (w (y, p)) - Real.exp (l y)| ∂(κ y) ≤ ENNReal.ofReal √v := fun y => by
    have hwy : Measurable fun p => w (y, p) := hw.comp measurable_prodMk_left
    have m3 : Measurable fun p => ENNReal.ofReal ((Real.exp (w (y, p)) - Real.exp (l y)) ^ 2) := by fun_prop
    calc ∫⁻ p, ENNReal.ofReal |Real.exp (w (y, p)) - Real.exp (l y)| ∂(κ y)
        ≤ ∫⁻ p, ENNReal.ofReal (√v / 2) + ENNReal.ofReal (1 / (2 * √v)) *
            ENNReal.ofReal ((Real.exp (w (y, p)) - Real.exp (l y)) ^ 2) ∂(κ y) := by
          refine lintegral_mono fun p => ?_
          rw [← ENNReal.ofReal_mul (by positivity), ← ENNReal.ofReal_add (by positivity) (by positivity)]
          refine ENNReal.ofReal_le_ofReal ?_
          set x := Real.exp (w (y, p)) - Real.exp (l y)
          have e : √v / 2 + 1 / (2 * √v) * x ^ 2 - |x| = 1 / (2 * √v) * (|x| - √v) ^ 2 := by
            rw [← sq_abs x]; field_simp; ring
          have : 0 ≤ 1 / (2 * √v) * (|x| - √v) ^ 2 := by positivity
          linarith
      _ = ENNReal.ofReal (√v / 2) + ENNReal.ofReal (1 / (2 * √v)) *
            ∫⁻ p, ENNReal.ofReal ((Real.exp (w (y, p)) - Real.exp (l y)) ^ 2) ∂(κ y) := by
          rw [lintegral_add_left measurable_const, lintegral_const_mul _ m3]
          simp
      _ ≤ ENNReal.ofReal (√v / 2) + ENNReal.ofReal (1 / (2 * √v)) * ENNReal.ofReal v := by gcongr; exact hvar y
      _ = ENNReal.ofReal √v := by
          rw [← ENNReal.ofReal_mul (by positivity), ← ENNReal.ofReal_add (by positivity) (by positivity)]
          congr 1
          have := Real.mul_self_sqrt hv.le
          field_simp
          nlinarith
  have hin : ∀ y y', accW (l y) (l y') ≤ (∫⁻ p, ∫⁻ p', accW (w (y, p)) (w (y', p')) ∂(κ y') ∂(κ y)) + ENNReal.ofReal (2 * √v) := by
    intro y y'
    have hwy : ∀ y, Measurable fun p => w (y, p) := fun y => hw.comp measurable_prodMk_left
    have a1 : Measurable fun q : Ω × Ω => accW (w (y, q.1)) (w (y', q.2)) :=
      measurable_accW.comp ((hw.comp (by fun_prop : Measurable fun q : Ω × Ω => (y, q.1))).prodMk
        (hw.comp (by fun_prop : Measurable fun q : Ω × Ω => (y', q.2))))
    have a2 : Measurable fun p => ∫⁻ p', accW (w (y, p)) (w (y', p')) ∂(κ y') := a1.lintegral_prod_right'
    have a3 : ∀ p, Measurable fun p' => accW (w (y, p)) (w (y', p')) := fun p => a1.comp measurable_prodMk_left
    have hp : ∀ p p', accW (l y) (l y') ≤ accW (w (y, p)) (w (y', p')) + (ENNReal.ofReal |Real.exp (w (y, p)) - Real.exp (l y)|
        + ENNReal.ofReal |Real.exp (w (y', p')) - Real.exp (l y')|) := fun p p' => by
      unfold accW
      rw [← ENNReal.ofReal_add (abs_nonneg _) (abs_nonneg _), ← ENNReal.ofReal_add (by positivity) (by positivity)]
      refine ENNReal.ofReal_le_ofReal ?_
      have h1 := neg_abs_le (Real.exp (w (y, p)) - Real.exp (l y))
      have h2 := neg_abs_le (Real.exp (w (y', p')) - Real.exp (l y'))
      have h3 := abs_nonneg (Real.exp (w (y, p)) - Real.exp (l y))
      have h4 := abs_nonneg (Real.exp (w (y', p')) - Real.exp (l y'))
      rcases min_choice (Real.exp (w (y, p))) (Real.exp (w (y', p'))) with h | h <;> rw [h]
      · have := min_le_left (Real.exp (l y)) (Real.exp (l y'))
        linarith
      · have := min_le_right (Real.exp (l y)) (Real.exp (l y'))
        linarith
    calc accW (l y) (l y') = ∫⁻ p, ∫⁻ p', accW (l y) (l y') ∂(κ y') ∂(κ y) := by simp
      _ ≤ ∫⁻ p, ∫⁻ p', accW (w (y, p)) (w (y', p')) + (ENNReal.ofReal |Real.exp (w (y, p)) - Real.exp (l y)|
        + ENNReal.ofReal |Real.exp (w (y', p')) - Real.exp (l y')|) ∂(κ y') ∂(κ y) :=
          lintegral_mono fun p => lintegral_mono fun p' => hp p p'
      _ ≤ ∫⁻ p, (∫⁻ p', accW (w (y, p)) (w (y', p')) ∂(κ y')) + (ENNReal.ofReal |Real.exp (w (y, p)) - Real.exp (l y)|
        + ENNReal.ofReal √v) ∂(κ y) := by
          refine lintegral_mono fun p => ?_
          rw [lintegral_add_left (a3 p), lintegral_add_left measurable_const]
          simp only [lintegral_const, measure_univ, mul_one]
          gcongr
          exact habs y'
      _ = (∫⁻ p, ∫⁻ p', accW (w (y, p)) (w (y', p')) ∂(κ y') ∂(κ y)) + ((∫⁻ p, ENNReal.ofReal |Real.exp (w (y, p)) - Real.exp (l y)| ∂(κ y))
        + ENNReal.ofReal √v) := by
          have hwy' := hwy y
          have : Measurable fun p => ENNReal.ofReal |Real.exp (w (y, p)) - Real.exp (l y)| := by fun_prop
          rw [lintegral_add_left a2, lintegral_add_left this]
          simp
      _ ≤ _ := by
          rw [two_mul, ENNReal.ofReal_add hs.le hs.le]
          gcongr
          exact habs y
  rw [accForm_ext hw hF, accForm]
  have b1 : Measurable fun q : ((Y × Y) × Ω) × Ω => accW (w (q.1.1.1, q.1.2)) (w (q.1.1.2, q.2)) :=
    measurable_accW.comp ((hw.comp (by fun_prop : Measurable fun q : ((Y × Y) × Ω) × Ω => (q.1.1.1, q.1.2))).prodMk
      (hw.comp (by fun_prop : Measurable fun q : ((Y × Y) × Ω) × Ω => (q.1.1.2, q.2))))
  have b2 : Measurable fun q : (Y × Y) × Ω => ∫⁻ p', accW (w (q.1.1, q.2)) (w (q.1.2, p')) ∂(κ q.1.2) :=
    b1.lintegral_kernel_prod_right' (κ := κ.comap (fun q : (Y × Y) × Ω => q.1.2) (by fun_prop))
  have b3 : Measurable fun q : Y × Y => ∫⁻ p, ∫⁻ p', accW (w (q.1, p)) (w (q.2, p')) ∂(κ q.2) ∂(κ q.1) :=
    b2.lintegral_kernel_prod_right' (κ := κ.comap Prod.fst measurable_fst)
  have b4 : Measurable fun q : Y × Y => (∫⁻ p, ∫⁻ p', accW (w (q.1, p)) (w (q.2, p')) ∂(κ q.2) ∂(κ q.1)) * F q.1 q.2 := mMul b3 hF
  calc ∫⁻ y, ∫⁻ y', accW (l y) (l y') * F y y' ∂(Q y) ∂P
      ≤ ∫⁻ y, ∫⁻ y', (∫⁻ p, ∫⁻ p', accW (w (y, p)) (w (y', p')) ∂(κ y') ∂(κ y)) * F y y' + ENNReal.ofReal (2 * √v) ∂(Q y) ∂P := by
        refine lintegral_mono fun y => lintegral_mono fun y' => ?_
        refine (mul_le_mul_left (hin y y') _).trans ?_
        rw [add_mul]
        gcongr
        exact mul_le_of_le_one_right' (hF1 y y')
    _ = _ := by
        have : ∀ y, ∫⁻ y', (∫⁻ p, ∫⁻ p', accW (w (y, p)) (w (y', p')) ∂(κ y') ∂(κ y)) * F y y' + ENNReal.ofReal (2 * √v) ∂(Q y)
            = (∫⁻ y', (∫⁻ p, ∫⁻ p', accW (w (y, p)) (w (y', p')) ∂(κ y') ∂(κ y)) * F y y' ∂(Q y)) + ENNReal.ofReal (2 * √v) := fun y => by
          have b5 : Measurable fun y' => (∫⁻ p, ∫⁻ p', accW (w (y, p)) (w (y', p')) ∂(κ y') ∂(κ y)) * F y y' :=
            b4.comp (measurable_prodMk_left (x := y))
          rw [lintegral_add_left b5]
          simp
        simp only [this]
        have b6 : Measurable fun y => ∫⁻ y', (∫⁻ p, ∫⁻ p', accW (w (y, p)) (w (y', p')) ∂(κ y') ∂(κ y)) * F y y' ∂(Q y) := mDouble b4
        rw [lintegral_add_left b6]
        simp

end Two

end Props
end Fbs
