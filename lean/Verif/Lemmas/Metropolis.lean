import Verif.Lemmas.ReversibleChain
import Verif.Props.Pcn
import Mathlib.MeasureTheory.Measure.Prod
import Mathlib.MeasureTheory.Measure.Lebesgue.Basic

/-! Metropolis–Hastings with a reversible proposal: reversibility, and positivity when the proposal is positive. -/

open MeasureTheory ProbabilityTheory
open scoped ENNReal

namespace Fbs
namespace Props

open Jax Smc

section Form

variable {X : Type} [MeasurableSpace X]

/-- Acceptance probability for log-weights `l` (current) and `l'` (proposed). -/
noncomputable def accProb (l l' : ℝ) : ℝ≥0∞ := ENNReal.ofReal (min 1 (Real.exp (l' - l)))

/-- `⟨f, P g⟩` for the Metropolis–Hastings operator `P` with proposal `D` and log-weight `w`. -/
noncomputable def mhForm (μ : Measure X) (D : Kernel X X) (w : X → ℝ) (f g : X → ℝ≥0∞) : ℝ≥0∞ :=
  ∫⁻ z, ENNReal.ofReal (Real.exp (w z)) *
    (f z * ∫⁻ z', accProb (w z) (w z') * g z' + (1 - accProb (w z) (w z')) * g z ∂(D z)) ∂μ

/-- The weight of the accepted and of the rejected moves. -/
noncomputable def accW (l l' : ℝ) : ℝ≥0∞ := ENNReal.ofReal (min (Real.exp l) (Real.exp l'))

noncomputable def rejW (l l' : ℝ) : ℝ≥0∞ := ENNReal.ofReal (Real.exp l) * (1 - accProb l l')

theorem accW_eq (l l' : ℝ) : ENNReal.ofReal (Real.exp l) * accProb l l' = accW l l' := by
  unfold accProb accW
  rw [← ENNReal.ofReal_mul (Real.exp_pos _).le, mul_min_of_nonneg _ _ (Real.exp_pos _).le, mul_one, ← Real.exp_add]
  congr 3
  ring

theorem accW_comm (l l' : ℝ) : accW l l' = accW l' l := congrArg ENNReal.ofReal (min_comm _ _)

theorem measurable_accW : Measurable fun z : ℝ × ℝ => accW z.1 z.2 := by
  unfold accW
  fun_prop

theorem measurable_accProb : Measurable fun z : ℝ × ℝ => accProb z.1 z.2 := by
  unfold accProb
  fun_prop

theorem measurable_rejW : Measurable fun z : ℝ × ℝ => rejW z.1 z.2 := by
  unfold rejW accProb
  fun_prop

/-- Both moves pass the threshold `t`. -/
noncomputable def above (t l : ℝ) : ℝ≥0∞ := if t < Real.exp l then 1 else 0

theorem measurable_above : Measurable fun z : ℝ × ℝ => above z.1 z.2 :=
  Measurable.ite (measurableSet_lt measurable_fst (Real.measurable_exp.comp measurable_snd)) measurable_const measurable_const

/-- The weight of the accepted moves as a mixture over thresholds. -/
theorem accW_layer (l l' : ℝ) : accW l l' = ∫⁻ t in Set.Ioi (0 : ℝ), above t l * above t l' := by
  have h : ∀ t, above t l * above t l' = (Set.Iio (min (Real.exp l) (Real.exp l'))).indicator 1 t := fun t => by
    unfold above
    by_cases h1 : t < Real.exp l <;> by_cases h2 : t < Real.exp l' <;> simp [h1, h2]
  simp only [h]
  rw [lintegral_indicator_one measurableSet_Iio, Measure.restrict_apply measurableSet_Iio, Set.Iio_inter_Ioi,
    Real.volume_Ioo, sub_zero, accW]

variable {μ : Measure X} {D : Kernel X X} [IsMarkovKernel D] {w : X → ℝ}

theorem mDouble {F : X × X → ℝ≥0∞} (hF : Measurable F) : Measurable fun z => ∫⁻ z', F (z, z') ∂(D z) :=
  hF.lintegral_kernel_prod_right'

theorem mhForm_eq (hw : Measurable w) {f g : X → ℝ≥0∞} (hf : Measurable f) (hg : Measurable g) :
    mhForm μ D w f g = (∫⁻ z, ∫⁻ z', accW (w z) (w z') * (f z * g z') ∂(D z) ∂μ)
      + ∫⁻ z, ∫⁻ z', rejW (w z) (w z') * (f z * g z) ∂(D z) ∂μ := by
  have hww : Measurable fun z : X × X => (w z.1, w z.2) := (hw.comp measurable_fst).prodMk (hw.comp measurable_snd)
  have hf1 : Measurable fun z : X × X => f z.1 := hf.comp measurable_fst
  have hg2 : Measurable fun z : X × X => g z.2 := hg.comp measurable_snd
  have ha : Measurable fun z : X × X => accProb (w z.1) (w z.2) := measurable_accProb.comp hww
  have hc : Measurable fun z : X × X => accW (w z.1) (w z.2) := measurable_accW.comp hww
  have m1 : Measurable fun z : X × X => accW (w z.1) (w z.2) * (f z.1 * g z.2) := mMul hc (mMul hf1 hg2)
  have hd : Measurable fun z => ∫⁻ z', accW (w z) (w z') * (f z * g z') ∂(D z) := mDouble m1
  have key : ∀ z, ENNReal.ofReal (Real.exp (w z)) *
      (f z * ∫⁻ z', accProb (w z) (w z') * g z' + (1 - accProb (w z) (w z')) * g z ∂(D z))
      = (∫⁻ z', accW (w z) (w z') * (f z * g z') ∂(D z)) + ∫⁻ z', rejW (w z) (w z') * (f z * g z) ∂(D z) := by
    intro z
    have m1z : Measurable fun z' => accW (w z) (w z') * (f z * g z') := m1.comp (measurable_prodMk_left (x := z))
    have haz : Measurable fun z' => accProb (w z) (w z') := ha.comp (measurable_prodMk_left (x := z))
    have hbz : Measurable fun z' => 1 - accProb (w z) (w z') := measurable_const.sub haz
    have m2z : Measurable fun z' => accProb (w z) (w z') * g z' + (1 - accProb (w z) (w z')) * g z :=
      mAdd (mMul haz hg) (hbz.mul_const _)
    rw [← mul_assoc, ← lintegral_const_mul _ m2z, ← lintegral_add_left m1z]
    refine lintegral_congr fun z' => ?_
    rw [← accW_eq, rejW]
    generalize accProb (w z) (w z') = a
    generalize 1 - a = b
    ring
  rw [← lintegral_add_left hd]
  exact lintegral_congr key

/-- Reversibility. -/
theorem mhForm_comm (hw : Measurable w) (hD : ∀ F : X × X → ℝ≥0∞, Measurable F →
      ∫⁻ z, ∫⁻ z', F (z, z') ∂(D z) ∂μ = ∫⁻ z, ∫⁻ z', F (z', z) ∂(D z) ∂μ)
    {f g : X → ℝ≥0∞} (hf : Measurable f) (hg : Measurable g) : mhForm μ D w f g = mhForm μ D w g f := by
  have hww : Measurable fun z : X × X => (w z.1, w z.2) := (hw.comp measurable_fst).prodMk (hw.comp measurable_snd)
  have m1 : Measurable fun z : X × X => accW (w z.1) (w z.2) * (f z.1 * g z.2) :=
    (measurable_accW.comp hww).mul ((hf.comp measurable_fst).mul (hg.comp measurable_snd))
  rw [mhForm_eq hw hf hg, mhForm_eq hw hg hf, hD _ m1]
  congr 1
  · refine lintegral_congr fun z => lintegral_congr fun z' => ?_
    show accW (w z') (w z) * (f z' * g z) = _
    rw [accW_comm, mul_comm (f z')]
  · refine lintegral_congr fun z => lintegral_congr fun z' => ?_
    rw [mul_comm (f z)]

/-- Positivity. -/
theorem mhForm_pos [SFinite μ] (hw : Measurable w) (hD : Pos D μ) {f g : X → ℝ≥0∞} (hf : Measurable f) (hg : Measurable g) :
    mhForm μ D w f g + mhForm μ D w g f ≤ mhForm μ D w f f + mhForm μ D w g g := by
  set ν : Measure ℝ := volume.restrict (Set.Ioi 0) with hν
  have hww : Measurable fun z : X × X => (w z.1, w z.2) := (hw.comp measurable_fst).prodMk (hw.comp measurable_snd)
  have hab : Measurable fun q : ℝ × X => above q.1 (w q.2) :=
    measurable_above.comp (measurable_fst.prodMk (hw.comp measurable_snd))
  have habt : ∀ t, Measurable fun z => above t (w z) := fun t => hab.comp measurable_prodMk_left
  -- the accepted moves, threshold by threshold
  have hacc : ∀ {f g : X → ℝ≥0∞}, Measurable f → Measurable g →
      ∫⁻ z, ∫⁻ z', accW (w z) (w z') * (f z * g z') ∂(D z) ∂μ
        = ∫⁻ t, lagProd D μ (fun z => above t (w z) * f z) (fun z => above t (w z) * g z) 1 ∂ν := by
    intro f g hf hg
    have hF : Measurable fun q : (X × X) × ℝ => above q.2 (w q.1.1) * above q.2 (w q.1.2) * (f q.1.1 * g q.1.2) := by
      refine ((hab.comp (measurable_snd.prodMk (measurable_fst.comp measurable_fst))).mul
        (hab.comp (measurable_snd.prodMk (measurable_snd.comp measurable_fst)))).mul
        ((hf.comp (measurable_fst.comp measurable_fst)).mul (hg.comp (measurable_snd.comp measurable_fst)))
    have e1 : ∀ z z', accW (w z) (w z') * (f z * g z')
        = ∫⁻ t, above t (w z) * above t (w z') * (f z * g z') ∂ν := fun z z' => by
      have : Measurable fun t => above t (w z) * above t (w z') :=
        (hab.comp measurable_prodMk_right).mul (hab.comp measurable_prodMk_right)
      rw [accW_layer, lintegral_mul_const _ this]
    simp only [e1]
    have e2 : ∀ z, ∫⁻ z', ∫⁻ t, above t (w z) * above t (w z') * (f z * g z') ∂ν ∂(D z)
        = ∫⁻ t, ∫⁻ z', above t (w z) * above t (w z') * (f z * g z') ∂(D z) ∂ν := fun z => by
      have : Measurable fun q : X × ℝ => above q.2 (w z) * above q.2 (w q.1) * (f z * g q.1) :=
        hF.comp (by fun_prop : Measurable fun q : X × ℝ => (((z, q.1), q.2) : (X × X) × ℝ))
      exact lintegral_lintegral_swap this.aemeasurable
    simp only [e2]
    have hm2 : Measurable fun q : X × ℝ => ∫⁻ z', above q.2 (w q.1) * above q.2 (w z') * (f q.1 * g z') ∂(D q.1) := by
      have h3 : Measurable fun q : (X × ℝ) × X => above q.1.2 (w q.1.1) * above q.1.2 (w q.2) * (f q.1.1 * g q.2) :=
        hF.comp (by fun_prop : Measurable fun q : (X × ℝ) × X => (((q.1.1, q.2), q.1.2) : (X × X) × ℝ))
      exact h3.lintegral_kernel_prod_right' (κ := D.comap Prod.fst measurable_fst)
    rw [lintegral_lintegral_swap hm2.aemeasurable]
    refine lintegral_congr fun t => lintegral_congr fun z => ?_
    have hgt : Measurable fun z' => above t (w z') * g z' := (habt t).mul hg
    show _ = above t (w z) * f z * ∫⁻ z', above t (w z') * g z' ∂(D z)
    rw [← lintegral_const_mul _ hgt]
    exact lintegral_congr fun z' => by ring
  have hlag : ∀ {f g : X → ℝ≥0∞}, Measurable f → Measurable g →
      Measurable fun t => lagProd D μ (fun z => above t (w z) * f z) (fun z => above t (w z) * g z) 1 := by
    intro f g hf hg
    have h1 : Measurable fun q : (ℝ × X) × X => above q.1.1 (w q.2) * g q.2 :=
      (hab.comp (by fun_prop : Measurable fun q : (ℝ × X) × X => (q.1.1, q.2))).mul (hg.comp measurable_snd)
    have h2 : Measurable fun q : ℝ × X => ∫⁻ z', above q.1 (w z') * g z' ∂(D q.2) :=
      h1.lintegral_kernel_prod_right' (κ := D.comap Prod.snd measurable_snd)
    have h3 : Measurable fun q : ℝ × X => above q.1 (w q.2) * f q.2 * ∫⁻ z', above q.1 (w z') * g z' ∂(D q.2) :=
      (hab.mul (hf.comp measurable_snd)).mul h2
    exact h3.lintegral_prod_right'
  have hA : ∀ {f g}, Measurable f → Measurable g → (∫⁻ z, ∫⁻ z', accW (w z) (w z') * (f z * g z') ∂(D z) ∂μ)
        + ∫⁻ z, ∫⁻ z', accW (w z) (w z') * (g z * f z') ∂(D z) ∂μ
      ≤ (∫⁻ z, ∫⁻ z', accW (w z) (w z') * (f z * f z') ∂(D z) ∂μ)
        + ∫⁻ z, ∫⁻ z', accW (w z) (w z') * (g z * g z') ∂(D z) ∂μ := by
    intro f g hf hg
    rw [hacc hf hg, hacc hg hf, hacc hf hf, hacc hg hg, ← lintegral_add_left (hlag hf hg), ← lintegral_add_left (hlag hf hf)]
    exact lintegral_mono fun t => hD _ _ ((habt t).mul hf) ((habt t).mul hg)
  -- the rejected moves
  have hR : (∫⁻ z, ∫⁻ z', rejW (w z) (w z') * (f z * g z) ∂(D z) ∂μ) + ∫⁻ z, ∫⁻ z', rejW (w z) (w z') * (g z * f z) ∂(D z) ∂μ
      ≤ (∫⁻ z, ∫⁻ z', rejW (w z) (w z') * (f z * f z) ∂(D z) ∂μ) + ∫⁻ z, ∫⁻ z', rejW (w z) (w z') * (g z * g z) ∂(D z) ∂μ := by
    have hm : ∀ {f g : X → ℝ≥0∞}, Measurable f → Measurable g →
        Measurable fun z : X × X => rejW (w z.1) (w z.2) * (f z.1 * g z.1) := fun hf hg =>
      (measurable_rejW.comp hww).mul ((hf.comp measurable_fst).mul (hg.comp measurable_fst))
    have hs : ∀ {f g : X → ℝ≥0∞}, Measurable f → Measurable g → ∀ z, Measurable fun z' =>
        rejW (w z) (w z') * (f z * g z) := fun hf hg z => (hm hf hg).comp measurable_prodMk_left
    rw [← lintegral_add_left (mDouble (hm hf hg)), ← lintegral_add_left (mDouble (hm hf hf))]
    refine lintegral_mono fun z => ?_
    simp only
    rw [← lintegral_add_left (hs hf hg z), ← lintegral_add_left (hs hf hf z)]
    refine lintegral_mono fun z' => ?_
    simp only [← mul_add]
    exact mul_le_mul_right two_mul_le _
  rw [mhForm_eq hw hf hg, mhForm_eq hw hg hf, mhForm_eq hw hf hf, mhForm_eq hw hg hg, add_add_add_comm, add_add_add_comm (∫⁻ z, ∫⁻ z', accW (w z) (w z') * (f z * f z') ∂(D z) ∂μ)]
  exact add_le_add (hA hf hg) hR

end Form

end Props
end Fbs
