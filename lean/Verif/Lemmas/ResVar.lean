import Verif.Spec.ResVar
import Verif.Props.Consistency
import Mathlib.Probability.Moments.Variance
import Mathlib.Algebra.Order.Chebyshev

/-!
# The mean square error of schemes with independent indices
-/

open MeasureTheory ProbabilityTheory
open scoped ENNReal

namespace Fbs
namespace Props

open Jax Spec Smc

variable {N : ℕ}

theorem weightVar_eq {w : Fin N → ℝ} (hw : Weights w) (c : Fin N → ℝ) :
    weightVar w c = ∑ i, w i * c i ^ 2 - (∑ i, w i * c i) ^ 2 := by
  unfold weightVar
  set μ := ∑ j, w j * c j
  have : ∀ i, w i * (c i - μ) ^ 2 = w i * c i ^ 2 - 2 * μ * (w i * c i) + w i * μ ^ 2 := fun i => by ring
  simp only [this, Finset.sum_add_distrib, Finset.sum_sub_distrib, ← Finset.mul_sum, ← Finset.sum_mul, hw.sum_one]
  ring

/-- Independent indices: the mean square error is the sum of the variances of the single indices. -/
theorem err_of_prod [NeZero N] {res : Smc.Resampling N} (hres : UnbiasedSums res) {w : Fin N → ℝ} (hw : Weights w) (key : Key)
    {p : Fin N → Fin N → ℝ≥0∞} (hp : ∀ m, ∑ a, p m a = 1)
    (h : ∀ F : (Fin N → Fin N) → ℝ≥0∞, (∀ (σ : Equiv.Perm (Fin N)) A, F (A ∘ σ) = F A) →
      (res w key).E F = ∑ A, (∏ m, p m (A m)) * F A) (c : Fin N → ℝ) :
    ∃ s : ℝ, resampleErr res w key c = ENNReal.ofReal s ∧ s ≤ weightVar w c / N ∧
      ((∀ m a, p m a = ENNReal.ofReal (w a)) → s = weightVar w c / N) := by
  have hN : (0 : ℝ) < N := by exact_mod_cast Nat.pos_of_ne_zero (NeZero.ne N)
  let μ : Fin N → Measure (Fin N) := fun m => ∑ a, p m a • Measure.dirac a
  have hμ : ∀ m a, μ m {a} = p m a := fun m a => by
    simp [μ, Measure.finsetSum_apply, Set.indicator_apply]
  have hprob : ∀ m, IsProbabilityMeasure (μ m) := fun m => ⟨by
    simp [μ, Measure.finsetSum_apply, hp m]⟩
  have hpi : ∀ F : (Fin N → Fin N) → ℝ≥0∞, ∑ A, (∏ m, p m (A m)) * F A = ∫⁻ A, F A ∂(Measure.pi μ) := by
    intro F
    rw [lintegral_fintype]
    refine Finset.sum_congr rfl fun A _ => ?_
    rw [Measure.pi_singleton, mul_comm]
    simp only [hμ]
  have hpt : ∀ m a, p m a ≠ ∞ := fun m a => ne_top_of_le_ne_top ENNReal.one_ne_top
    ((Finset.single_le_sum (fun _ _ => bot_le) (Finset.mem_univ a)).trans (hp m).le)
  -- the expected number of copies
  have hmass : ∀ a, ∑ m, (p m a).toReal = N * w a := by
    intro a
    have h1 := hres w key hw fun i => if i = a then 1 else 0
    rw [h _ fun σ A => Equiv.sum_comp σ fun j => if A j = a then (1 : ℝ≥0∞) else 0, hpi] at h1
    have h2 := lintegral_pi_sum μ (fun _ => 1) (h := fun i => if i = a then 1 else 0) (measurable_of_finite _)
    simp only [one_mul] at h2
    rw [h2] at h1
    have h3 : ∀ m, ∫⁻ x, (if x = a then 1 else 0) ∂(μ m) = p m a := fun m => by
      rw [lintegral_fintype]
      simp [hμ]
    simp only [h3, mul_ite, mul_one, mul_zero, Finset.sum_ite_eq', Finset.mem_univ, if_true] at h1
    rw [← ENNReal.toReal_sum fun m _ => hpt m a, h1, ENNReal.toReal_mul, ENNReal.toReal_ofReal (hw.nonneg a)]
    simp
  have hint : ∀ m (f : Fin N → ℝ), ∫ x, f x ∂(μ m) = ∑ a, (p m a).toReal * f a := fun m f => by
    rw [integral_fintype Integrable.of_finite]
    simp [Measure.real, hμ]
  have hsum : ∀ f : Fin N → ℝ, ∑ m, ∫ x, f x ∂(μ m) = N * ∑ a, w a * f a := fun f => by
    simp only [hint]
    rw [Finset.sum_comm, Finset.mul_sum]
    refine Finset.sum_congr rfl fun a _ => ?_
    rw [← Finset.sum_mul, hmass, mul_assoc]
  set M := ∑ i, w i * c i with hM
  have hX : ∀ m, MemLp c 2 (μ m) := fun m => MemLp.of_discrete
  have hvar := variance_sum_pi (μ := μ) (X := fun _ => c) hX
  have hE : ∫ A, (∑ j, fun ω : Fin N → Fin N => c (ω j)) A ∂(Measure.pi μ) = N * M := by
    simp only [Finset.sum_apply]
    rw [integral_finsetSum _ fun i _ => Integrable.of_finite, ← hsum c]
    refine Finset.sum_congr rfl fun i _ => ?_
    have he := (measurePreserving_eval μ i).map_eq
    rw [← he, integral_map (measurable_pi_apply i).aemeasurable (measurable_of_finite c).aestronglyMeasurable]
  refine ⟨(∑ m, Var[c; μ m]) / N ^ 2, ?_, ?_, ?_⟩
  · rw [resampleErr, h _ fun σ A => by
      rw [show ∑ j, c ((A ∘ σ) j) = ∑ j, c (A j) from Equiv.sum_comp σ fun j => c (A j)], hpi, ← hvar,
      variance_eq_integral (by fun_prop), hE, ← integral_div,
      ofReal_integral_eq_lintegral_ofReal Integrable.of_finite (Filter.Eventually.of_forall fun A => by positivity)]
    refine lintegral_congr fun A => ?_
    congr 1
    simp only [Finset.sum_apply]
    rw [← hM]
    field_simp
  · have h1 : ∀ m, Var[c; μ m] = ∫ x, c x ^ 2 ∂(μ m) - (∫ x, c x ∂(μ m)) ^ 2 := fun m => by
      rw [variance_eq_sub (hX m)]; rfl
    have h2 := sq_sum_le_card_mul_sum_sq (s := Finset.univ) (f := fun m => ∫ x, c x ∂(μ m))
    rw [hsum c, Finset.card_univ, Fintype.card_fin] at h2
    simp only [h1, Finset.sum_sub_distrib, hsum fun x => c x ^ 2]
    rw [weightVar_eq hw, div_le_div_iff₀ (by positivity) hN]
    nlinarith
  · intro hpw
    have h1 : ∀ m, Var[c; μ m] = weightVar w c := fun m => by
      rw [variance_eq_sub (hX m), weightVar_eq hw]
      have h2 : ∀ f : Fin N → ℝ, ∫ x, f x ∂(μ m) = ∑ a, w a * f a := fun f => by
        rw [hint]
        exact Finset.sum_congr rfl fun a _ => by rw [hpw, ENNReal.toReal_ofReal (hw.nonneg a)]
      rw [h2 c]
      congr 1
      exact h2 fun x => c x ^ 2
    simp only [h1, Finset.sum_const, Finset.card_univ, Fintype.card_fin, nsmul_eq_mul]
    field_simp

end Props
end Fbs
