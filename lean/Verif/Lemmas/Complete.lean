import Mathlib.Probability.Moments.ComplexMGF
import Mathlib.Probability.Distributions.Gaussian.Real
import Mathlib.Analysis.Analytic.Uniqueness

/-!
# A normal law is determined by its exponential moments near zero
-/

open MeasureTheory ProbabilityTheory Set Filter Topology
open scoped ENNReal

namespace Fbs
namespace Complete

theorem strip_preconnected (a b : ℝ) : IsPreconnected {z : ℂ | z.re ∈ Ioo a b} :=
  ((convex_Ioo a b).linear_preimage Complex.reLm).isPreconnected

/-- Exponential moments at a set of points accumulating at zero from both sides determine a measure. -/
theorem eq_gaussian {ν : Measure ℝ} {D : Set ℝ} (hpos : ∀ ε > 0, ∃ t ∈ D, 0 < t ∧ t < ε) (hneg : ∃ t ∈ D, t < 0)
    (hD : ∀ t ∈ D, ∫⁻ s, ENNReal.ofReal (Real.exp (t * s)) ∂ν = ENNReal.ofReal (Real.exp (t ^ 2))) :
    ν = gaussianReal 0 2 := by
  obtain ⟨b, hbD, hb0, -⟩ := hpos 1 one_pos
  obtain ⟨a, haD, ha0⟩ := hneg
  have hint : ∀ t ∈ D, Integrable (fun s => Real.exp (t * s)) ν := fun t ht => by
    refine ⟨by fun_prop, ?_⟩
    rw [hasFiniteIntegral_iff_ofReal (ae_of_all _ fun s => (Real.exp_pos _).le), hD t ht]
    exact ENNReal.ofReal_lt_top
  have hmgf : ∀ t ∈ D, mgf id ν t = mgf id (gaussianReal 0 2) t := fun t ht => by
    rw [mgf_id_gaussianReal]
    show ∫ s, Real.exp (t * s) ∂ν = _
    rw [integral_eq_lintegral_of_nonneg_ae (ae_of_all _ fun s => (Real.exp_pos _).le) (by fun_prop), hD t ht,
      ENNReal.toReal_ofReal (Real.exp_pos _).le]
    congr 1
    norm_num
  have hab : Icc a b ⊆ integrableExpSet id ν :=
    convex_integrableExpSet.ordConnected.out (hint a haD) (hint b hbD)
  have h0 : (0 : ℝ) ∈ integrableExpSet id ν := hab ⟨ha0.le, hb0.le⟩
  have : IsFiniteMeasure ν := by
    have h : Integrable (fun _ : ℝ => (1 : ℝ)) ν := by simpa [integrableExpSet] using h0
    exact (integrable_const_iff_isFiniteMeasure one_ne_zero).1 h
  have hio : Ioo a b ⊆ interior (integrableExpSet id ν) := interior_maximal (Ioo_subset_Icc_self.trans hab) isOpen_Ioo
  have hg : ∀ t, t ∈ interior (integrableExpSet id (gaussianReal 0 2)) := fun t => by
    rw [integrableExpSet_id_gaussianReal, interior_univ]
    trivial
  have e := AnalyticOnNhd.eqOn_of_preconnected_of_frequently_eq (f := complexMGF id ν) (g := complexMGF id (gaussianReal 0 2))
    (U := {z : ℂ | z.re ∈ Ioo a b}) (fun z hz => analyticAt_complexMGF (hio hz)) (fun z _ => analyticAt_complexMGF (hg _))
    (strip_preconnected a b) (z₀ := 0) (by simpa using ⟨ha0, hb0⟩) (by
      have hf : ∃ᶠ t : ℝ in 𝓝[≠] 0, t ∈ D := by
        rw [frequently_nhdsWithin_iff, Metric.nhds_basis_ball.frequently_iff]
        intro ε hε
        obtain ⟨t, ht, h1, h2⟩ := hpos ε hε
        exact ⟨t, by simpa [abs_of_pos h1] using h2, ht, h1.ne'⟩
      have ht : Tendsto (fun t : ℝ => (t : ℂ)) (𝓝[≠] 0) (𝓝[≠] 0) := by
        refine tendsto_nhdsWithin_of_tendsto_nhds_of_eventually_within _ ?_ ?_
        · exact (Complex.continuous_ofReal.tendsto' 0 0 (by simp)).mono_left nhdsWithin_le_nhds
        · filter_upwards [self_mem_nhdsWithin] with t ht
          simpa using ht
      refine ht.frequently (hf.mono fun t ht => ?_)
      rw [complexMGF_ofReal, complexMGF_ofReal, hmgf t ht])
  refine Measure.ext_of_charFun (funext fun t => ?_)
  rw [← complexMGF_id_mul_I, ← complexMGF_id_mul_I]
  exact e (by simpa using ⟨ha0, hb0⟩)

end Complete
end Fbs
