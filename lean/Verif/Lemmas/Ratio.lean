import Verif.Lemmas.PairBound
import Mathlib.Probability.Independence.Basic
import Mathlib.Probability.Independence.Integration

/-!
# A lower bound for the average of a ratio of sums of independent variables
-/

open MeasureTheory ProbabilityTheory
open scoped ENNReal

namespace Fbs
namespace Csmc

variable {N : ℕ} {U : Type} [MeasurableSpace U]

/-- The tangent of the reciprocal, without subtraction. -/
theorem two_inv_le {D m : ℝ≥0∞} (h0 : m ≠ 0) (h1 : m ≠ ∞) : 2 * m⁻¹ ≤ D⁻¹ + m⁻¹ * m⁻¹ * D := by
  rcases eq_or_ne D 0 with rfl | hD0
  · simp
  rcases eq_or_ne D ∞ with rfl | hD1
  · rw [ENNReal.mul_top (mul_ne_zero (ENNReal.inv_ne_zero.2 h1) (ENNReal.inv_ne_zero.2 h1))]
    simp
  lift D to NNReal using hD1
  lift m to NNReal using h1
  have hm : m ≠ 0 := by simpa using h0
  have hD : D ≠ 0 := by simpa using hD0
  rw [← ENNReal.coe_inv hm, ← ENNReal.coe_inv hD, ← ENNReal.coe_mul, ← ENNReal.coe_mul, ← ENNReal.coe_add,
    show (2 : ℝ≥0∞) = ((2 : NNReal) : ℝ≥0∞) by simp, ← ENNReal.coe_mul, ENNReal.coe_le_coe]
  have hm' : (0 : ℝ) < m := by positivity
  have hD' : (0 : ℝ) < D := by positivity
  rw [← NNReal.coe_le_coe]
  push_cast
  have : (D : ℝ)⁻¹ + (m : ℝ)⁻¹ * (m : ℝ)⁻¹ * D - 2 * (m : ℝ)⁻¹ = D * ((D : ℝ)⁻¹ - (m : ℝ)⁻¹) ^ 2 := by
    field_simp
    ring
  nlinarith [mul_nonneg hD'.le (sq_nonneg ((D : ℝ)⁻¹ - (m : ℝ)⁻¹))]

theorem lintegral_pi_pair (μ : Fin N → Measure U) [∀ i, IsProbabilityMeasure (μ i)] {k l : Fin N} (hkl : k ≠ l)
    {f h : U → ℝ≥0∞} (hf : Measurable f) (hh : Measurable h) :
    ∫⁻ y, f (y k) * h (y l) ∂(Measure.pi μ) = (∫⁻ u, f u ∂(μ k)) * ∫⁻ u, h u ∂(μ l) := by
  have hi : iIndepFun (fun i (y : Fin N → U) => y i) (Measure.pi μ) :=
    iIndepFun_pi (X := fun _ u => u) fun _ => aemeasurable_id
  have h1 := (hi.indepFun hkl).comp hf hh
  have h2 := lintegral_mul_eq_lintegral_mul_lintegral_of_indepFun (hf.comp (measurable_pi_apply k))
    (hh.comp (measurable_pi_apply l)) h1
  refine h2.trans ?_
  congr 1
  · exact (measurePreserving_eval μ k).lintegral_comp hf
  · exact (measurePreserving_eval μ l).lintegral_comp hh

/-- The average of a ratio of sums of independent variables, from below. -/
theorem ratio_ge (μ : Fin N → Measure U) [∀ i, IsProbabilityMeasure (μ i)] (j : Fin N) {f h : Fin N → U → ℝ≥0∞}
    (hf : ∀ k, Measurable (f k)) (hh : ∀ k, Measurable (h k)) {d H m : ℝ≥0∞} (hd : d ≤ H) (hH : ∀ k u, h k u ≤ H)
    (hm0 : m ≠ 0) (hm1 : m ≠ ∞) :
    2 * m⁻¹ * ∑ k ∈ Finset.univ.erase j, ∫⁻ u, f k u ∂(μ k)
      ≤ ∫⁻ y, (∑ k ∈ Finset.univ.erase j, f k (y k)) * (d + ∑ l ∈ Finset.univ.erase j, h l (y l))⁻¹ ∂(Measure.pi μ)
        + m⁻¹ * m⁻¹ * (2 * H * ∑ k ∈ Finset.univ.erase j, ∫⁻ u, f k u ∂(μ k)
          + ∑ k ∈ Finset.univ.erase j, ∑ l ∈ Finset.univ.erase j,
            if l = k then 0 else (∫⁻ u, f k u ∂(μ k)) * ∫⁻ u, h l u ∂(μ l)) := by
  have mf : ∀ k, Measurable fun y : Fin N → U => f k (y k) := fun k => (hf k).comp (measurable_pi_apply k)
  have mh : ∀ k, Measurable fun y : Fin N → U => h k (y k) := fun k => (hh k).comp (measurable_pi_apply k)
  have If : ∀ k, ∫⁻ y, f k (y k) ∂(Measure.pi μ) = ∫⁻ u, f k u ∂(μ k) := fun k =>
    (measurePreserving_eval μ k).lintegral_comp (hf k)
  have mX : Measurable fun y : Fin N → U => ∑ k ∈ Finset.univ.erase j, f k (y k) :=
    Finset.measurable_sum _ fun k _ => mf k
  have mD : Measurable fun y : Fin N → U => d + ∑ l ∈ Finset.univ.erase j, h l (y l) :=
    measurable_const.add (Finset.measurable_sum _ fun k _ => mh k)
  have hX : ∫⁻ y, ∑ k ∈ Finset.univ.erase j, f k (y k) ∂(Measure.pi μ)
      = ∑ k ∈ Finset.univ.erase j, ∫⁻ u, f k u ∂(μ k) := by
    rw [lintegral_finsetSum _ fun k _ => mf k]
    exact Finset.sum_congr rfl fun k _ => If k
  -- the square term
  have hXD : ∫⁻ y, (∑ k ∈ Finset.univ.erase j, f k (y k)) * (d + ∑ l ∈ Finset.univ.erase j, h l (y l)) ∂(Measure.pi μ)
      ≤ 2 * H * ∑ k ∈ Finset.univ.erase j, ∫⁻ u, f k u ∂(μ k)
          + ∑ k ∈ Finset.univ.erase j, ∑ l ∈ Finset.univ.erase j,
            if l = k then 0 else (∫⁻ u, f k u ∂(μ k)) * ∫⁻ u, h l u ∂(μ l) := by
    have hp : ∀ y : Fin N → U, (∑ k ∈ Finset.univ.erase j, f k (y k)) * (d + ∑ l ∈ Finset.univ.erase j, h l (y l))
        ≤ ∑ k ∈ Finset.univ.erase j, (2 * H * f k (y k) + ∑ l ∈ Finset.univ.erase j,
            if l = k then 0 else f k (y k) * h l (y l)) := by
      intro y
      rw [Finset.sum_mul]
      refine Finset.sum_le_sum fun k hk => ?_
      have hs : ∑ l ∈ Finset.univ.erase j, h l (y l)
          ≤ H + ∑ l ∈ Finset.univ.erase j, if l = k then 0 else h l (y l) := by
        rw [← Finset.add_sum_erase _ _ hk, ← Finset.add_sum_erase _ (fun l => if l = k then 0 else h l (y l)) hk,
          if_pos rfl, zero_add]
        refine add_le_add (hH _ _) (Finset.sum_le_sum fun l hl => ?_)
        rw [if_neg (Finset.ne_of_mem_erase hl)]
      have hm : ∑ l ∈ Finset.univ.erase j, (if l = k then 0 else f k (y k) * h l (y l))
          = f k (y k) * ∑ l ∈ Finset.univ.erase j, if l = k then 0 else h l (y l) := by
        rw [Finset.mul_sum]
        exact Finset.sum_congr rfl fun l _ => by split_ifs <;> simp
      rw [hm]
      calc f k (y k) * (d + ∑ l ∈ Finset.univ.erase j, h l (y l))
          ≤ f k (y k) * (H + (H + ∑ l ∈ Finset.univ.erase j, if l = k then 0 else h l (y l))) := by gcongr
        _ = _ := by ring
    refine (lintegral_mono hp).trans (le_of_eq ?_)
    have mp : ∀ k l, Measurable fun y : Fin N → U => if l = k then 0 else f k (y k) * h l (y l) := fun k l => by
      split_ifs
      · exact measurable_const
      · exact (mf k).mul (mh l)
    have ms : ∀ k, Measurable fun y : Fin N → U => 2 * H * f k (y k) + ∑ l ∈ Finset.univ.erase j,
        if l = k then 0 else f k (y k) * h l (y l) := fun k =>
      ((mf k).const_mul _).add (Finset.measurable_sum _ fun l _ => mp k l)
    rw [lintegral_finsetSum _ fun k _ => ms k, Finset.mul_sum, ← Finset.sum_add_distrib]
    refine Finset.sum_congr rfl fun k _ => ?_
    rw [lintegral_add_left ((mf k).const_mul _), lintegral_const_mul _ (mf k), If,
      lintegral_finsetSum _ fun l _ => mp k l]
    congr 1
    refine Finset.sum_congr rfl fun l _ => ?_
    by_cases hl : l = k
    · simp [hl]
    · simp only [if_neg hl]
      exact lintegral_pi_pair μ (Ne.symm hl) (hf k) (hh l)
  calc 2 * m⁻¹ * ∑ k ∈ Finset.univ.erase j, ∫⁻ u, f k u ∂(μ k)
      = ∫⁻ y, 2 * m⁻¹ * ∑ k ∈ Finset.univ.erase j, f k (y k) ∂(Measure.pi μ) := by
        rw [lintegral_const_mul _ mX, hX]
    _ ≤ ∫⁻ y, ((∑ k ∈ Finset.univ.erase j, f k (y k)) * (d + ∑ l ∈ Finset.univ.erase j, h l (y l))⁻¹
          + m⁻¹ * m⁻¹ * ((∑ k ∈ Finset.univ.erase j, f k (y k)) * (d + ∑ l ∈ Finset.univ.erase j, h l (y l))))
          ∂(Measure.pi μ) := by
        refine lintegral_mono fun y => ?_
        calc 2 * m⁻¹ * ∑ k ∈ Finset.univ.erase j, f k (y k)
            ≤ ((d + ∑ l ∈ Finset.univ.erase j, h l (y l))⁻¹
              + m⁻¹ * m⁻¹ * (d + ∑ l ∈ Finset.univ.erase j, h l (y l))) * ∑ k ∈ Finset.univ.erase j, f k (y k) := by
              gcongr
              exact two_inv_le hm0 hm1
          _ = _ := by ring
    _ ≤ _ := by
        have m1 : Measurable fun y : Fin N → U => (∑ k ∈ Finset.univ.erase j, f k (y k)) *
          (d + ∑ l ∈ Finset.univ.erase j, h l (y l))⁻¹ := mX.mul mD.inv
        have m2 : Measurable fun y : Fin N → U => (∑ k ∈ Finset.univ.erase j, f k (y k)) *
          (d + ∑ l ∈ Finset.univ.erase j, h l (y l)) := mX.mul mD
        rw [lintegral_add_left m1, lintegral_const_mul _ m2]
        gcongr

end Csmc
end Fbs
