import Verif.Lemmas.ResolventUpper
import Verif.Lemmas.MetropolisOrder

/-! A reversible chain that dominates a multiple of another: its asymptotic variance lies between that of the other chain and the
inverse of the multiple times it. -/

open MeasureTheory ProbabilityTheory
open scoped ENNReal

namespace Fbs
namespace Props

open Jax Chains

variable {τ : Type} [MeasurableSpace τ] {κ η : Kernel τ τ} {π : Measure τ}

/-- A lag-one product of the form `∫ A(f) A(g) / D` is reversible and positive. -/
theorem rev_pos_of_form {Q : Type} [MeasurableSpace Q] {Λ : Measure Q} {A : (τ → ℝ≥0∞) → Q → ℝ≥0∞} {D : Q → ℝ≥0∞}
    (hA : ∀ f, Measurable f → Measurable (A f)) (hD : Measurable D)
    (h : ∀ f g, Measurable f → Measurable g → lagProd κ π f g 1 = ∫⁻ q, A f q * (A g q * (D q)⁻¹) ∂Λ) :
    Rev κ π ∧ Pos κ π := by
  have hm : ∀ f g, Measurable f → Measurable g → Measurable fun q => A f q * (A g q * (D q)⁻¹) := fun f g hf hg =>
    (hA f hf).mul ((hA g hg).mul hD.inv)
  refine ⟨fun f g hf hg => ?_, fun f g hf hg => ?_⟩
  · rw [h f g hf hg, h g f hg hf]
    exact lintegral_congr fun q => mul_left_comm _ _ _
  · rw [h f g hf hg, h g f hg hf, h f f hf hf, h g g hg hg, ← lintegral_add_left (hm f g hf hg),
      ← lintegral_add_left (hm f f hf hf)]
    refine lintegral_mono fun q => ?_
    simp only [← mul_assoc, ← add_mul]
    exact mul_le_mul' two_mul_le le_rfl

/-- Lag one and the expected squared jump add up to the variance term. -/
theorem rev_dirichlet [IsMarkovKernel κ] (hrev : Rev κ π) {f : τ → ℝ≥0∞} (hf : Measurable f) :
    lagProd κ π f f 1 + lagProd κ π f f 1 + ∫⁻ x, ∫⁻ y, sqDiff (f x) (f y) ∂(κ x) ∂π
      = (∫⁻ x, f x * f x ∂π) + ∫⁻ x, f x * f x ∂π := by
  have hff : Measurable fun x => f x * f x := mMul hf hf
  have hl : ∀ x, f x * ∫⁻ y, f y ∂(κ x) = ∫⁻ y, f x * f y ∂(κ x) := fun x => (lintegral_const_mul _ hf).symm
  have hm1 : Measurable fun x => f x * ∫⁻ y, f y ∂(κ x) := hf.mul hf.lintegral_kernel
  have e1 : lagProd κ π f f 1 = ∫⁻ x, f x * ∫⁻ y, f y ∂(κ x) ∂π := rfl
  have e2 : ∫⁻ x, ∫⁻ y, f y * f y ∂(κ x) ∂π = ∫⁻ x, f x * f x ∂π := by
    have h := hrev (fun _ => 1) (fun x => f x * f x) measurable_const hff
    simp only [lagProd, iterInt, one_mul, lintegral_one, measure_univ, mul_one] at h
    exact h
  rw [e1, ← lintegral_add_left hm1, ← lintegral_add_left (mAdd hm1 hm1)]
  have e3 : ∀ x, f x * ∫⁻ y, f y ∂(κ x) + f x * ∫⁻ y, f y ∂(κ x) + ∫⁻ y, sqDiff (f x) (f y) ∂(κ x)
      = f x * f x + ∫⁻ y, f y * f y ∂(κ x) := fun x => by
    have hxy : Measurable fun y => f x * f y := hf.const_mul _
    rw [hl x, ← lintegral_add_left hxy, ← lintegral_add_left (mAdd hxy hxy), lintegral_congr fun y => sqDiff_add (f x) (f y),
      lintegral_add_left measurable_const]
    simp
  rw [lintegral_congr e3, lintegral_add_left hff, e2]

/-- A chain that dominates `ε` times the other has a lag-one product within `1 - ε` of it. -/
theorem lag_one_le_of_dominates [IsMarkovKernel κ] [IsMarkovKernel η] (hκ : Rev κ π) (hη : Rev η π) {ε : ℝ≥0∞} (hεt : ε ≠ ∞)
    (hdom : ∀ x, ε • κ x ≤ η x) {f : τ → ℝ≥0∞} (hf : Measurable f) (h2 : ∫⁻ x, f x * f x ∂π ≠ ∞) :
    ε * (∫⁻ x, f x * f x ∂π) + lagProd η π f f 1 ≤ (∫⁻ x, f x * f x ∂π) + ε * lagProd κ π f f 1 := by
  set T := ∫⁻ x, f x * f x ∂π with hT
  set a := lagProd κ π f f 1 with ha
  set b := lagProd η π f f 1 with hb
  set D := ∫⁻ x, ∫⁻ y, sqDiff (f x) (f y) ∂(κ x) ∂π with hD
  have h1 : a + a + D = T + T := rev_dirichlet hκ hf
  have h2' : b + b + ∫⁻ x, ∫⁻ y, sqDiff (f x) (f y) ∂(η x) ∂π = T + T := rev_dirichlet hη hf
  have h3 : ε * D ≤ ∫⁻ x, ∫⁻ y, sqDiff (f x) (f y) ∂(η x) ∂π := by
    rw [hD, ← lintegral_const_mul' _ _ hεt]
    refine lintegral_mono fun x => ?_
    rw [← smul_eq_mul, ← lintegral_smul_measure]
    exact lintegral_mono' (hdom x) le_rfl
  have h4 : b + b + ε * D ≤ T + T := (add_le_add le_rfl h3).trans h2'.le
  have hDt : ε * D ≠ ∞ := ENNReal.mul_ne_top hεt (ne_top_of_le_ne_top (ENNReal.add_ne_top.2 ⟨h2, h2⟩) (h1 ▸ le_add_self))
  have h5 : (ε * T + b) + (ε * T + b) ≤ (T + ε * a) + (T + ε * a) := by
    calc (ε * T + b) + (ε * T + b) = ε * (T + T) + (b + b) := by ring
      _ = ε * a + ε * a + (b + b + ε * D) := by rw [← h1]; ring
      _ ≤ ε * a + ε * a + (T + T) := add_le_add le_rfl h4
      _ = (T + ε * a) + (T + ε * a) := by ring
  rw [← two_mul, ← two_mul] at h5
  exact (ENNReal.mul_le_mul_iff_right (by simp) (by simp)).1 h5

/-- The sandwich of the asymptotic variances. -/
theorem sandwich [IsFiniteMeasure π] [IsMarkovKernel κ] [IsMarkovKernel η] (hκ : Rev κ π) (hκp : Pos κ π) (hη : Rev η π)
    (hηp : Pos η π) (hlow : ∀ f, Measurable f → ∫⁻ x, f x * f x ∂π ≠ ∞ → lagProd κ π f f 1 ≤ lagProd η π f f 1) {ε : ℝ≥0∞} (hε : ε ≤ 1)
    (hdom : ∀ x, ε • κ x ≤ η x) {f : τ → ℝ≥0∞} (hf : Measurable f) (h2 : ∫⁻ x, f x * f x ∂π ≠ ∞) :
    (∑' k, (π Set.univ * lagProd κ π f f k - (∫⁻ x, f x ∂π) * ∫⁻ x, f x ∂π)
        ≤ ∑' k, (π Set.univ * lagProd η π f f k - (∫⁻ x, f x ∂π) * ∫⁻ x, f x ∂π))
      ∧ ε * ∑' k, (π Set.univ * lagProd η π f f k - (∫⁻ x, f x ∂π) * ∫⁻ x, f x ∂π)
        ≤ ∑' k, (π Set.univ * lagProd κ π f f k - (∫⁻ x, f x ∂π) * ∫⁻ x, f x ∂π) := by
  have hZ : π Set.univ ≠ ∞ := measure_ne_top _ _
  have hI : (∫⁻ x, f x ∂π) * ∫⁻ x, f x ∂π ≠ ∞ := ENNReal.mul_ne_top (fin_of_sq h2) (fin_of_sq h2)
  have hcA := cov_nonneg_fin hκ hκp hf h2
  have hcB := cov_nonneg_fin hη hηp hf h2
  have htA : ∀ k, π Set.univ * lagProd κ π f f k ≠ ∞ := fun k =>
    ENNReal.mul_ne_top hZ (ne_top_of_le_ne_top h2 (lagProd_le hκ hf k))
  have htB : ∀ k, π Set.univ * lagProd η π f f k ≠ ∞ := fun k =>
    ENNReal.mul_ne_top hZ (ne_top_of_le_ne_top h2 (lagProd_le hη hf k))
  constructor
  · refine asymptotic_le hI hcA hcB htA fun r hr => ?_
    simp only [mul_left_comm _ (π Set.univ), ENNReal.tsum_mul_left]
    exact mul_le_mul' le_rfl (discounted_le (p := id) hκ hη measurable_id (fun _ _ => rfl) hlow hf h2 hr)
  · rcases eq_or_ne ε 0 with rfl | h0
    · simp
    have hεt : ε ≠ ∞ := ne_top_of_le_ne_top ENNReal.one_ne_top hε
    have key : ∑' k, (π Set.univ * lagProd η π f f k - (∫⁻ x, f x ∂π) * ∫⁻ x, f x ∂π)
        ≤ ε⁻¹ * ∑' k, (π Set.univ * lagProd κ π f f k - (∫⁻ x, f x ∂π) * ∫⁻ x, f x ∂π) := by
      refine asymptotic_upper hI (ENNReal.inv_ne_top.2 h0) hcA hcB htB fun r hr => ?_
      simp only [mul_left_comm _ (π Set.univ), ENNReal.tsum_mul_left]
      have h := discounted_upper (p := id) hκ hκp hη hηp measurable_id (fun _ _ => rfl) (W := ε⁻¹) (ENNReal.one_le_inv.2 hε)
        (ENNReal.inv_ne_top.2 h0) (fun h hh hh2 => ⟨h, hh, fun _ _ => rfl, le_rfl, ?_⟩) hf h2 hr
      · simp only [mul_left_comm _ (π Set.univ)] at h
        exact h
      · have h1 := mul_le_mul' (le_refl ε⁻¹) (lag_one_le_of_dominates hκ hη hεt hdom hh hh2)
        rw [mul_add, mul_add, ← mul_assoc, ← mul_assoc ε⁻¹ ε, ENNReal.inv_mul_cancel h0 hεt, one_mul, one_mul] at h1
        exact h1
    calc ε * _ ≤ ε * (ε⁻¹ * _) := mul_le_mul' le_rfl key
      _ = _ := by rw [← mul_assoc, ENNReal.mul_inv_cancel h0 hεt, one_mul]

end Props
end Fbs
