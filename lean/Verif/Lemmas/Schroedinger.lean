import Mathlib.InformationTheory.KullbackLeibler.Basic

/-!
# A law with density `exp (f(A) + g(B))` minimises the divergence among laws with its marginals of `A` and `B`
-/

open MeasureTheory InformationTheory
open scoped ENNReal

namespace Fbs
namespace Schroedinger

variable {Ω X Y : Type*} [MeasurableSpace Ω] [MeasurableSpace X] [MeasurableSpace Y]

/-- The measure `W` reweighted by `exp (f(A) + g(B))`. -/
noncomputable def tilt (W : Measure Ω) (A : Ω → X) (B : Ω → Y) (f : X → ℝ) (g : Y → ℝ) : Measure Ω :=
  W.withDensity fun ω => ENNReal.ofReal (Real.exp (f (A ω) + g (B ω)))

variable {W P : Measure Ω} {A : Ω → X} {B : Ω → Y} {f : X → ℝ} {g : Y → ℝ}

theorem measurable_tilt (hA : Measurable A) (hB : Measurable B) (hf : Measurable f) (hg : Measurable g) :
    Measurable fun ω => ENNReal.ofReal (Real.exp (f (A ω) + g (B ω))) :=
  (((hf.comp hA).add (hg.comp hB)).exp).ennreal_ofReal

omit [MeasurableSpace X] [MeasurableSpace Y] in
theorem tilt_ac : tilt W A B f g ≪ W := withDensity_absolutelyContinuous _ _

theorem ac_tilt (hA : Measurable A) (hB : Measurable B) (hf : Measurable f) (hg : Measurable g) :
    W ≪ tilt W A B f g :=
  withDensity_absolutelyContinuous' (measurable_tilt hA hB hf hg).aemeasurable
    (Filter.Eventually.of_forall fun ω => by simpa using Real.exp_pos _)

/-- The log density ratios differ by `f(A) + g(B)`. -/
theorem llr_tilt [IsProbabilityMeasure W] [IsProbabilityMeasure P] [IsProbabilityMeasure (tilt W A B f g)]
    (hA : Measurable A) (hB : Measurable B) (hf : Measurable f) (hg : Measurable g) (hP : P ≪ W) :
    llr P W =ᵐ[P] fun ω => llr P (tilt W A B f g) ω + (f (A ω) + g (B ω)) := by
  have hac := ac_tilt (W := W) hA hB hf hg
  have h1 := hP.ae_le (Measure.rnDeriv_mul_rnDeriv (κ := W) (hP.trans hac))
  have h2 := hP.ae_le (Measure.rnDeriv_withDensity W (measurable_tilt hA hB hf hg))
  have h3 := Measure.rnDeriv_pos (hP.trans hac)
  have h4 := (hP.trans hac).ae_le (Measure.rnDeriv_ne_top P (tilt W A B f g))
  filter_upwards [h1, h2, h3, h4] with ω e1 e2 e3 e4
  change _ * (tilt W A B f g).rnDeriv W ω = _ at e1
  change (tilt W A B f g).rnDeriv W ω = _ at e2
  rw [llr, llr, ← e1, e2, ENNReal.toReal_mul, ENNReal.toReal_ofReal (Real.exp_pos _).le,
    Real.log_mul (ENNReal.toReal_pos e3.ne' e4).ne' (Real.exp_pos _).ne', Real.log_exp]

theorem integral_marginals {μ : Measure X} {ν : Measure Y} (hA : Measurable A) (hB : Measurable B)
    (hPA : P.map A = μ) (hPB : P.map B = ν) (hfi : Integrable f μ) (hgi : Integrable g ν) :
    Integrable (fun ω => f (A ω) + g (B ω)) P ∧
      ∫ ω, f (A ω) + g (B ω) ∂P = ∫ x, f x ∂μ + ∫ y, g y ∂ν := by
  subst hPA hPB
  have h1 : Integrable (fun ω => f (A ω)) P := hfi.comp_measurable hA
  have h2 : Integrable (fun ω => g (B ω)) P := hgi.comp_measurable hB
  refine ⟨h1.add h2, ?_⟩
  rw [integral_add h1 h2, integral_map hA.aemeasurable hfi.1, integral_map hB.aemeasurable hgi.1]

theorem klDiv_eq_ofReal [IsProbabilityMeasure W] [IsProbabilityMeasure P] (h : P ≪ W) (hi : Integrable (llr P W) P) :
    klDiv P W = ENNReal.ofReal (∫ ω, llr P W ω ∂P) ∧ 0 ≤ ∫ ω, llr P W ω ∂P := by
  have h1 := klDiv_of_ac_of_integrable h hi
  have h2 := integral_llr_add_sub_measure_univ_nonneg h hi
  simp only [probReal_univ, add_sub_cancel_right] at h1 h2
  exact ⟨h1, h2⟩

/-- Divergence of the tilted law. -/
theorem klDiv_tilt {μ : Measure X} {ν : Measure Y} [IsProbabilityMeasure W]
    [IsProbabilityMeasure (tilt W A B f g)]
    (hA : Measurable A) (hB : Measurable B) (hf : Measurable f) (hg : Measurable g)
    (hTA : (tilt W A B f g).map A = μ) (hTB : (tilt W A B f g).map B = ν)
    (hfi : Integrable f μ) (hgi : Integrable g ν) :
    klDiv (tilt W A B f g) W = ENNReal.ofReal (∫ x, f x ∂μ + ∫ y, g y ∂ν) ∧ 0 ≤ ∫ x, f x ∂μ + ∫ y, g y ∂ν := by
  obtain ⟨h1, h2⟩ := integral_marginals hA hB hTA hTB hfi hgi
  have h3 : llr (tilt W A B f g) W =ᵐ[tilt W A B f g] fun ω => f (A ω) + g (B ω) := by
    filter_upwards [llr_tilt (f := f) (g := g) hA hB hf hg (tilt_ac (W := W)), llr_self (tilt W A B f g)] with ω e1 e2
    rw [e1, e2]; simp
  have h4 := klDiv_eq_ofReal (tilt_ac (W := W)) ((integrable_congr h3).2 h1)
  rwa [integral_congr_ae h3, h2] at h4

/-- **Pythagoras' identity** for the divergence. -/
theorem klDiv_pythagoras {μ : Measure X} {ν : Measure Y} [IsProbabilityMeasure W] [IsProbabilityMeasure P]
    [IsProbabilityMeasure (tilt W A B f g)]
    (hA : Measurable A) (hB : Measurable B) (hf : Measurable f) (hg : Measurable g)
    (hTA : (tilt W A B f g).map A = μ) (hTB : (tilt W A B f g).map B = ν)
    (hPA : P.map A = μ) (hPB : P.map B = ν) (hfi : Integrable f μ) (hgi : Integrable g ν) :
    klDiv P W = klDiv P (tilt W A B f g) + klDiv (tilt W A B f g) W := by
  by_cases hP : P ≪ W
  · have hac := ac_tilt (W := W) hA hB hf hg
    have hl := llr_tilt (W := W) (P := P) hA hB hf hg hP
    obtain ⟨h1, h2⟩ := integral_marginals hA hB hPA hPB hfi hgi
    obtain ⟨h3, h4⟩ := klDiv_tilt hA hB hf hg hTA hTB hfi hgi
    by_cases hi : Integrable (llr P (tilt W A B f g)) P
    · obtain ⟨h5, h6⟩ := klDiv_eq_ofReal (hP.trans hac) hi
      obtain ⟨h7, -⟩ := klDiv_eq_ofReal hP ((integrable_congr hl).2 (hi.add h1))
      rw [h7, h5, h3, ← ENNReal.ofReal_add h6 h4, integral_congr_ae hl, integral_add hi h1, h2]
    · have : ¬ Integrable (llr P W) P := fun h => hi (by
        refine (integrable_congr ?_).2 (h.sub h1)
        filter_upwards [hl] with ω e
        simp [e])
      rw [klDiv_of_not_integrable hi, klDiv_of_not_integrable this, top_add]
  · have : ¬ P ≪ tilt W A B f g := fun h => hP (h.trans tilt_ac)
    rw [klDiv_of_not_ac hP, klDiv_of_not_ac this, top_add]

end Schroedinger
end Fbs
