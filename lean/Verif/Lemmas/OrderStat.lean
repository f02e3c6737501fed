import Verif.Lemmas.Search
import Verif.Model.Resampling
import Mathlib.Probability.Distributions.Exponential
import Mathlib.MeasureTheory.Integral.Pi
import Mathlib.LinearAlgebra.Matrix.Block
import Mathlib.Data.Fin.Tuple.Sort

/-! Order statistics: normalised exponential spacings are distributed as sorted uniforms. -/

open MeasureTheory ProbabilityTheory
open scoped ENNReal

namespace Fbs
namespace OrderStat

open Jax

variable {n : ℕ}

/-! ### Exponential draws -/

/-- `-log` of a uniform draw is exponential. -/
theorem map_neg_log : unifMeasure.map (fun u => -Real.log u) = expMeasure 1 := by
  have : IsProbabilityMeasure (expMeasure 1) := isProbabilityMeasure_expMeasure one_pos
  have hm : Measurable fun u : ℝ => -Real.log u := Real.measurable_log.neg
  have : IsProbabilityMeasure (unifMeasure.map fun u => -Real.log u) := Measure.isProbabilityMeasure_map hm.aemeasurable
  refine Measure.ext_of_Iic _ _ fun a => ?_
  rw [Measure.map_apply hm measurableSet_Iic]
  have hR : expMeasure 1 (Set.Iic a) = ENNReal.ofReal (if 0 ≤ a then 1 - Real.exp (-(1 * a)) else 0) := by
    unfold expMeasure gammaMeasure
    rw [withDensity_apply _ measurableSet_Iic]
    exact lintegral_exponentialPDF_eq_antiDeriv one_pos a
  rw [hR]
  unfold unifMeasure
  rw [Measure.restrict_apply (hm measurableSet_Iic)]
  have hae : ((fun u : ℝ => -Real.log u) ⁻¹' Set.Iic a ∩ Set.Ico 0 1 : Set ℝ)
      =ᵐ[volume] (Set.Ico (Real.exp (-a)) 1 : Set ℝ) := by
    have hnull : ∀ᵐ u : ℝ, u ≠ 0 := by rw [ae_iff]; simp
    filter_upwards [hnull] with u hu
    apply propext
    show u ∈ ((fun u : ℝ => -Real.log u) ⁻¹' Set.Iic a ∩ Set.Ico 0 1 : Set ℝ) ↔ u ∈ Set.Ico (Real.exp (-a)) 1
    simp only [Set.mem_inter_iff, Set.mem_preimage, Set.mem_Iic, Set.mem_Ico]
    constructor
    · rintro ⟨h1, h2, h3⟩
      have h0 : 0 < u := lt_of_le_of_ne h2 (Ne.symm hu)
      exact ⟨(Real.le_log_iff_exp_le h0).1 (by linarith), h3⟩
    · rintro ⟨h1, h2⟩
      have h0 : 0 < u := lt_of_lt_of_le (Real.exp_pos _) h1
      exact ⟨by linarith [(Real.le_log_iff_exp_le h0).2 h1], h0.le, h2⟩
  rw [measure_congr hae, Real.volume_Ico]
  split_ifs with h
  · simp
  · have : 1 - Real.exp (-a) ≤ 0 := by
      have : (1 : ℝ) ≤ Real.exp (-a) := Real.one_le_exp (by linarith)
      linarith
    rw [ENNReal.ofReal_of_nonpos this, ENNReal.ofReal_zero]

/-- The density of independent exponential draws. -/
noncomputable def expDens {m : ℕ} (x : Fin m → ℝ) : ℝ≥0∞ := by
  classical exact if ∀ i, 0 < x i then ENNReal.ofReal (Real.exp (-∑ i, x i)) else 0

theorem integrable_exp : Integrable (exponentialPDFReal 1) := by
  refine ⟨(stronglyMeasurable_exponentialPDFReal 1).aestronglyMeasurable, ?_⟩
  rw [hasFiniteIntegral_iff_ofReal (Filter.Eventually.of_forall fun x => exponentialPDFReal_nonneg one_pos x)]
  have := lintegral_exponentialPDF_eq_one one_pos
  unfold exponentialPDF at this
  rw [this]
  exact ENNReal.one_lt_top

theorem pi_exp {m : ℕ} : (Measure.pi fun _ : Fin m => expMeasure 1) = (volume : Measure (Fin m → ℝ)).withDensity expDens := by
  have : IsProbabilityMeasure (expMeasure 1) := isProbabilityMeasure_expMeasure one_pos
  have hpi : (Measure.pi fun _ : Fin m => expMeasure 1) = (volume : Measure (Fin m → ℝ)).withDensity
      fun x => ENNReal.ofReal (∏ i, exponentialPDFReal 1 (x i)) := by
    refine (Measure.pi_eq fun s hs => ?_)
    rw [withDensity_apply _ (MeasurableSet.univ_pi hs)]
    have hvol : (volume : Measure (Fin m → ℝ)).restrict (Set.univ.pi s) = Measure.pi fun i => volume.restrict (s i) := by
      rw [volume_pi, Measure.restrict_pi_pi]
    rw [hvol, ← ofReal_integral_eq_lintegral_ofReal]
    · rw [integral_fintype_prod_eq_prod (fun _ => exponentialPDFReal 1),
        ENNReal.ofReal_prod_of_nonneg fun i _ => integral_nonneg fun x => exponentialPDFReal_nonneg one_pos _]
      refine Finset.prod_congr rfl fun i _ => ?_
      rw [ofReal_integral_eq_lintegral_ofReal integrable_exp.integrableOn
        (Filter.Eventually.of_forall fun x => exponentialPDFReal_nonneg one_pos _)]
      unfold expMeasure gammaMeasure
      rw [withDensity_apply _ (hs i)]
      rfl
    · exact Integrable.fintype_prod (f := fun _ => exponentialPDFReal 1) fun i => integrable_exp.integrableOn
    · exact Filter.Eventually.of_forall fun x => Finset.prod_nonneg fun i _ => exponentialPDFReal_nonneg one_pos _
  rw [hpi]
  refine withDensity_congr_ae ?_
  have hne : ∀ᵐ x : Fin m → ℝ, ∀ i, x i ≠ 0 := by
    rw [ae_all_iff]
    intro i
    have h1 : ∀ᵐ u : ℝ, u ≠ 0 := by rw [ae_iff]; simp
    exact (Measure.quasiMeasurePreserving_eval (μ := fun _ : Fin m => (volume : Measure ℝ)) i).ae h1
  filter_upwards [hne] with x hx
  unfold expDens
  split_ifs with h
  · congr 1
    rw [← Finset.sum_neg_distrib, Real.exp_sum]
    refine Finset.prod_congr rfl fun i _ => ?_
    unfold exponentialPDFReal gammaPDFReal
    rw [if_pos (h i).le]
    simp
  · push Not at h
    obtain ⟨i, hi⟩ := h
    rw [Finset.prod_eq_zero (Finset.mem_univ i), ENNReal.ofReal_zero]
    unfold exponentialPDFReal gammaPDFReal
    rw [if_neg (not_le.2 (lt_of_le_of_ne hi (hx i)))]

/-! ### Partial sums -/

/-- The matrix of partial sums. -/
def sumMatrix (m : ℕ) : Matrix (Fin m) (Fin m) ℝ := Matrix.of fun i j => if j ≤ i then 1 else 0

theorem sumMatrix_mulVec {m : ℕ} (x : Fin m → ℝ) : Matrix.toLin' (sumMatrix m) x = cumsum x := by
  funext i
  rw [Matrix.toLin'_apply]
  unfold Matrix.mulVec dotProduct sumMatrix cumsum
  simp only [Matrix.of_apply, ite_mul, one_mul, zero_mul]
  rw [← Finset.sum_filter]
  congr 1
  ext j
  simp

theorem det_sumMatrix (m : ℕ) : (sumMatrix m).det = 1 := by
  rw [Matrix.det_of_isLowerTriangular]
  · simp [sumMatrix]
  · intro i j hij
    simp only [sumMatrix, Matrix.of_apply]
    rw [if_neg]
    simpa using hij

theorem measurePreserving_cumsum (m : ℕ) :
    MeasurePreserving (cumsum : (Fin m → ℝ) → Fin m → ℝ) volume volume := by
  have h : (cumsum : (Fin m → ℝ) → Fin m → ℝ) = Matrix.toLin' (sumMatrix m) :=
    funext fun x => (sumMatrix_mulVec x).symm
  refine ⟨?_, ?_⟩
  · rw [h]
    exact (LinearMap.continuous_of_finiteDimensional _).measurable
  · rw [h, Real.map_matrix_volume_pi_eq_smul_volume_pi (by rw [det_sumMatrix]; exact one_ne_zero), det_sumMatrix]
    simp

theorem cumsum_succ (x : Fin (n + 1) → ℝ) (i : Fin n) : cumsum x i.succ = cumsum x i.castSucc + x i.succ := by
  rw [cumsum_eq]
  congr 1

theorem cumsum_zero (x : Fin (n + 1) → ℝ) : cumsum x 0 = x 0 := by
  unfold cumsum
  have : Finset.Iic (0 : Fin (n + 1)) = {0} := by ext j; simp
  rw [this]; simp

theorem cumsum_last (x : Fin (n + 1) → ℝ) : cumsum x (Fin.last n) = ∑ i, x i := by
  unfold cumsum
  congr 1
  ext j
  simp [Fin.le_last]

theorem pos_iff_cumsum (x : Fin (n + 1) → ℝ) : (∀ i, 0 < x i) ↔ 0 < cumsum x 0 ∧ StrictMono (cumsum x) := by
  rw [Fin.strictMono_iff_lt_succ, cumsum_zero]
  simp only [cumsum_succ]
  constructor
  · intro h
    exact ⟨h 0, fun i => by linarith [h i.succ]⟩
  · rintro ⟨h0, h1⟩ i
    refine Fin.cases h0 (fun j => ?_) i
    have := h1 j
    linarith

/-- Ordered points of the open unit cube. -/
def simplex (n : ℕ) : Set (Fin n → ℝ) := {v | (∀ i, 0 < v i ∧ v i < 1) ∧ StrictMono v}

theorem measurableSet_simplex (n : ℕ) : MeasurableSet (simplex n) := by
  have h : simplex n = (⋂ i, {v : Fin n → ℝ | 0 < v i}) ∩ (⋂ i, {v : Fin n → ℝ | v i < 1})
      ∩ ⋂ i, ⋂ j, {v : Fin n → ℝ | i < j → v i < v j} := by
    ext v
    simp only [simplex, Set.mem_ofPred_eq, Set.mem_inter_iff, Set.mem_iInter, StrictMono]
    constructor
    · rintro ⟨h1, h2⟩
      exact ⟨⟨fun i => (h1 i).1, fun i => (h1 i).2⟩, fun i j => @h2 i j⟩
    · rintro ⟨⟨h1, h2⟩, h3⟩
      exact ⟨fun i => ⟨h1 i, h2 i⟩, fun i j => h3 i j⟩
  rw [h]
  refine ((MeasurableSet.iInter fun i => ?_).inter (MeasurableSet.iInter fun i => ?_)).inter
    (MeasurableSet.iInter fun i => MeasurableSet.iInter fun j => ?_)
  · exact measurableSet_lt measurable_const (measurable_pi_apply i)
  · exact measurableSet_lt (measurable_pi_apply i) measurable_const
  · by_cases hij : i < j
    · simp only [hij, true_implies]
      exact measurableSet_lt (measurable_pi_apply i) (measurable_pi_apply j)
    · simp [hij]

/-- The density of the partial sums. -/
noncomputable def sumDens (s : Fin (n + 1) → ℝ) : ℝ≥0∞ := by
  classical exact if 0 < s 0 ∧ StrictMono s then ENNReal.ofReal (Real.exp (-s (Fin.last n))) else 0

theorem expDens_eq (x : Fin (n + 1) → ℝ) : expDens x = sumDens (cumsum x) := by
  unfold expDens sumDens
  rw [cumsum_last]
  by_cases h : ∀ i, 0 < x i
  · rw [if_pos h, if_pos ((pos_iff_cumsum x).1 h)]
  · rw [if_neg h, if_neg (fun h' => h ((pos_iff_cumsum x).2 h'))]

theorem snoc_ordered (t : ℝ) (ht : 0 < t) (v : Fin n → ℝ) :
    (0 < (Fin.last n).insertNth (α := fun _ => ℝ) t (t • v) 0
      ∧ StrictMono ((Fin.last n).insertNth (α := fun _ => ℝ) t (t • v))) ↔ v ∈ simplex n := by
  rw [Fin.insertNth_last']
  have hc : ∀ i : Fin n, Fin.snoc (α := fun _ => ℝ) (t • v) t i.castSucc = t * v i := by
    intro i; rw [Fin.snoc_castSucc]; rfl
  have hl : Fin.snoc (α := fun _ => ℝ) (t • v) t (Fin.last n) = t := Fin.snoc_last _ _
  constructor
  · rintro ⟨h0, hs⟩
    have hpos : ∀ j, 0 < Fin.snoc (α := fun _ => ℝ) (t • v) t j := fun j =>
      lt_of_lt_of_le h0 (hs.monotone (Fin.zero_le j))
    refine ⟨fun i => ⟨?_, ?_⟩, fun i j hij => ?_⟩
    · have := hpos i.castSucc
      rw [hc] at this
      exact (mul_pos_iff_of_pos_left ht).1 this
    · have := hs (Fin.castSucc_lt_last i)
      rw [hc, hl] at this
      nlinarith
    · have := hs (Fin.castSucc_lt_castSucc_iff.2 hij)
      rw [hc, hc] at this
      exact lt_of_mul_lt_mul_left this ht.le
  · rintro ⟨h1, h2⟩
    have hs : StrictMono (Fin.snoc (α := fun _ => ℝ) (t • v) t) := by
      intro i j hij
      induction j using Fin.lastCases with
      | last =>
        induction i using Fin.lastCases with
        | last => exact absurd hij (lt_irrefl _)
        | cast i => rw [hc, hl]; nlinarith [(h1 i).2]
      | cast j =>
        induction i using Fin.lastCases with
        | last => exact absurd (hij.trans (Fin.castSucc_lt_last j)) (lt_irrefl _)
        | cast i =>
          rw [hc, hc]
          exact mul_lt_mul_of_pos_left (h2 (Fin.castSucc_lt_castSucc_iff.1 hij)) ht
    refine ⟨?_, hs⟩
    induction (0 : Fin (n + 1)) using Fin.lastCases with
    | last => rw [hl]; exact ht
    | cast i => rw [hc]; exact mul_pos ht (h1 i).1

theorem measurable_sumDens : Measurable (sumDens (n := n)) := by
  unfold sumDens
  refine Measurable.ite ?_ (by fun_prop) measurable_const
  have h : {s : Fin (n + 1) → ℝ | 0 < s 0 ∧ StrictMono s}
      = {s | 0 < s 0} ∩ ⋂ i, ⋂ j, {s : Fin (n + 1) → ℝ | i < j → s i < s j} := by
    ext s
    simp only [Set.mem_ofPred_eq, Set.mem_inter_iff, Set.mem_iInter, StrictMono]
  rw [h]
  refine (measurableSet_lt measurable_const (measurable_pi_apply _)).inter
    (MeasurableSet.iInter fun i => MeasurableSet.iInter fun j => ?_)
  by_cases hij : i < j
  · simp only [hij, true_implies]
    exact measurableSet_lt (measurable_pi_apply i) (measurable_pi_apply j)
  · simp [hij]

theorem lintegral_smul {t : ℝ} (ht : 0 < t) (K : (Fin n → ℝ) → ℝ≥0∞) (hK : Measurable K) :
    ∫⁻ v, K v = ENNReal.ofReal (t ^ n) * ∫⁻ v, K (t • v) := by
  have hm : Measurable fun v : Fin n → ℝ => t • v := measurable_const_smul t
  rw [← lintegral_map hK hm, Measure.map_addHaar_smul _ ht.ne', lintegral_smul_measure, Module.finrank_fin_fun,
    smul_eq_mul, ← mul_assoc, ← ENNReal.ofReal_mul (by positivity), abs_of_pos (by positivity),
    mul_inv_cancel₀ (by positivity), ENNReal.ofReal_one, one_mul]

theorem lintegral_gamma (n : ℕ) :
    ∫⁻ t in Set.Ioi (0 : ℝ), ENNReal.ofReal (t ^ n * Real.exp (-t)) = (n.factorial : ℝ≥0∞) := by
  have h := lintegral_gammaPDF_eq_one (a := (n : ℝ) + 1) (r := 1) (by positivity) one_pos
  have hf : (0 : ℝ) < n.factorial := by positivity
  have e : ∫⁻ t, gammaPDF ((n : ℝ) + 1) 1 t
      = ∫⁻ t in Set.Ioi (0 : ℝ), ENNReal.ofReal ((n.factorial : ℝ)⁻¹) * ENNReal.ofReal (t ^ n * Real.exp (-t)) := by
    rw [← lintegral_indicator measurableSet_Ioi]
    refine lintegral_congr_ae ?_
    have hnull : ∀ᵐ u : ℝ, u ≠ 0 := by rw [ae_iff]; simp
    filter_upwards [hnull] with t ht
    unfold gammaPDF gammaPDFReal
    by_cases h0 : 0 ≤ t
    · rw [if_pos h0, Set.indicator_of_mem (Set.mem_Ioi.2 (lt_of_le_of_ne h0 (Ne.symm ht))),
        ← ENNReal.ofReal_mul (by positivity), Real.Gamma_nat_eq_factorial]
      congr 1
      simp only [Real.one_rpow, add_sub_cancel_right, Real.rpow_natCast, one_mul, one_div]
      ring
    · rw [if_neg h0, Set.indicator_of_notMem (by simp only [Set.mem_Ioi, not_lt]; exact (not_le.1 h0).le),
        ENNReal.ofReal_zero]
  rw [e, lintegral_const_mul' _ _ ENNReal.ofReal_ne_top] at h
  have hi : ENNReal.ofReal ((n.factorial : ℝ)⁻¹) = (n.factorial : ℝ≥0∞)⁻¹ := by
    rw [ENNReal.ofReal_inv_of_pos hf, ENNReal.ofReal_natCast]
  rw [hi] at h
  have h0 : (n.factorial : ℝ≥0∞) ≠ 0 := by exact_mod_cast n.factorial_ne_zero
  have h1 : (n.factorial : ℝ≥0∞) ≠ ∞ := ENNReal.natCast_ne_top _
  calc _ = (n.factorial : ℝ≥0∞) * ((n.factorial : ℝ≥0∞)⁻¹ * ∫⁻ t in Set.Ioi (0 : ℝ), ENNReal.ofReal (t ^ n * Real.exp (-t))) := by
        rw [← mul_assoc, ENNReal.mul_inv_cancel h0 h1, one_mul]
    _ = _ := by rw [h, mul_one]

/-- Normalised partial sums of exponential draws are uniform on the ordered simplex. -/
theorem lintegral_sortedUniforms (G : (Fin n → ℝ) → ℝ≥0∞) (hG : Measurable G) :
    ∫⁻ us, G (Resampling.sortedUniforms us) ∂(Measure.pi fun _ : Fin (n + 1) => unifMeasure)
      = n.factorial * ∫⁻ v in simplex n, G v := by
  have hexp : IsProbabilityMeasure (expMeasure 1) := isProbabilityMeasure_expMeasure one_pos
  let Q : (Fin (n + 1) → ℝ) → ℝ≥0∞ := fun s => G fun i => s i.castSucc / s (Fin.last n)
  have hQ : Measurable Q := by
    refine hG.comp (measurable_pi_lambda _ fun i => ?_)
    exact (measurable_pi_apply _).div (measurable_pi_apply _)
  have hcs : Measurable (cumsum : (Fin (n + 1) → ℝ) → _) := (measurePreserving_cumsum (n + 1)).measurable
  have hQc : Measurable fun x => Q (cumsum x) := hQ.comp hcs
  have hlog : Measurable fun (us : Fin (n + 1) → ℝ) (j : Fin (n + 1)) => -Real.log (us j) :=
    measurable_pi_lambda _ fun j => (Real.measurable_log.comp (measurable_pi_apply j)).neg
  have h1 : ∫⁻ us, G (Resampling.sortedUniforms us) ∂(Measure.pi fun _ : Fin (n + 1) => unifMeasure)
      = ∫⁻ x, Q (cumsum x) ∂(Measure.pi fun _ : Fin (n + 1) => expMeasure 1) := by
    have hm : (Measure.pi fun _ : Fin (n + 1) => expMeasure 1)
        = (Measure.pi fun _ : Fin (n + 1) => unifMeasure).map fun us j => -Real.log (us j) := by
      have hi : ∀ i : Fin (n + 1), SigmaFinite (unifMeasure.map fun u => -Real.log u) := by
        intro _; rw [map_neg_log]; infer_instance
      rw [Measure.pi_map_pi (μ := fun _ : Fin (n + 1) => unifMeasure) (f := fun _ u => -Real.log u)
        fun _ => Real.measurable_log.neg.aemeasurable]
      simp only [map_neg_log]
    rw [hm, lintegral_map hQc hlog]
    rfl
  have hD := measurable_sumDens (n := n)
  rw [h1, pi_exp]
  have hed : Measurable (expDens (m := n + 1)) := by
    have : expDens (m := n + 1) = fun x => sumDens (cumsum x) := funext expDens_eq
    rw [this]; exact hD.comp hcs
  rw [lintegral_withDensity_eq_lintegral_mul _ hed hQc]
  have h2 : ∫⁻ x, (expDens (m := n + 1) * fun x => Q (cumsum x)) x = ∫⁻ s, sumDens s * Q s := by
    have := (measurePreserving_cumsum (n + 1)).lintegral_comp (hD.mul hQ)
    refine Eq.trans ?_ this
    refine lintegral_congr fun x => ?_
    rw [Pi.mul_apply, expDens_eq]
    rfl
  rw [h2]
  let R : (Fin (n + 1) → ℝ) → ℝ≥0∞ := fun s => sumDens s * Q s
  have hR : Measurable R := hD.mul hQ
  have h3 := ((volume_preserving_piFinSuccAbove (fun _ : Fin (n + 1) => ℝ) (Fin.last n)).symm).lintegral_comp
    hR
  refine h3.symm.trans ?_
  have hmeas : Measurable fun p : ℝ × (Fin n → ℝ) =>
      R ((MeasurableEquiv.piFinSuccAbove (fun _ : Fin (n + 1) => ℝ) (Fin.last n)).symm p) :=
    hR.comp (MeasurableEquiv.measurable _)
  rw [Measure.volume_eq_prod, lintegral_prod _ hmeas.aemeasurable]
  have h4 : ∀ t : ℝ, t ∈ Set.Ioi (0 : ℝ) → ∫⁻ v : Fin n → ℝ,
      R ((MeasurableEquiv.piFinSuccAbove (fun _ : Fin (n + 1) => ℝ) (Fin.last n)).symm (t, v))
      = ENNReal.ofReal (t ^ n * Real.exp (-t)) * ∫⁻ v in simplex n, G v := by
    intro t ht
    have ht' : 0 < t := ht
    have hKm : Measurable fun v : Fin n → ℝ =>
        R ((MeasurableEquiv.piFinSuccAbove (fun _ : Fin (n + 1) => ℝ) (Fin.last n)).symm (t, v)) :=
      hmeas.comp measurable_prodMk_left
    rw [lintegral_smul ht' _ hKm, ENNReal.ofReal_mul (by positivity), mul_assoc,
      ← lintegral_indicator (measurableSet_simplex n)]
    congr 1
    rw [← lintegral_const_mul' _ _ ENNReal.ofReal_ne_top]
    refine lintegral_congr fun v => ?_
    show sumDens ((Fin.last n).insertNth (α := fun _ => ℝ) t (t • v)) * Q ((Fin.last n).insertNth (α := fun _ => ℝ) t (t • v)) = _
    have hQv : Q ((Fin.last n).insertNth (α := fun _ => ℝ) t (t • v)) = G v := by
      simp only [Q]
      congr 1
      funext i
      rw [Fin.insertNth_last', Fin.snoc_castSucc, Fin.snoc_last, Pi.smul_apply, smul_eq_mul,
        mul_div_cancel_left₀ _ ht'.ne']
    rw [hQv]
    unfold sumDens
    by_cases hv : v ∈ simplex n
    · rw [if_pos ((snoc_ordered t ht' v).2 hv), Set.indicator_of_mem hv]
      congr 3
      rw [Fin.insertNth_last', Fin.snoc_last]
    · rw [if_neg (fun h => hv ((snoc_ordered t ht' v).1 h)), Set.indicator_of_notMem hv, zero_mul, mul_zero]
  have h5 : ∀ t : ℝ, t ∉ Set.Ioi (0 : ℝ) → ∫⁻ v : Fin n → ℝ,
      R ((MeasurableEquiv.piFinSuccAbove (fun _ : Fin (n + 1) => ℝ) (Fin.last n)).symm (t, v)) = 0 := by
    intro t ht
    rw [← lintegral_zero]
    refine lintegral_congr fun v => ?_
    show sumDens ((Fin.last n).insertNth (α := fun _ => ℝ) t v) * _ = 0
    unfold sumDens
    rw [if_neg, zero_mul]
    rintro ⟨h0, hs⟩
    have := lt_of_lt_of_le h0 (hs.monotone (Fin.zero_le (Fin.last n)))
    rw [Fin.insertNth_last', Fin.snoc_last] at this
    exact ht this
  have h6 : ∀ t : ℝ, ∫⁻ v : Fin n → ℝ,
      R ((MeasurableEquiv.piFinSuccAbove (fun _ : Fin (n + 1) => ℝ) (Fin.last n)).symm (t, v))
      = (Set.Ioi (0 : ℝ)).indicator (fun t => ENNReal.ofReal (t ^ n * Real.exp (-t)) * ∫⁻ v in simplex n, G v) t := by
    intro t
    by_cases ht : t ∈ Set.Ioi (0 : ℝ)
    · rw [h4 t ht, Set.indicator_of_mem ht]
    · rw [h5 t ht, Set.indicator_of_notMem ht]
  rw [lintegral_congr h6, lintegral_indicator measurableSet_Ioi, lintegral_mul_const _ (by fun_prop), lintegral_gamma]

/-! ### Symmetric functions -/

theorem measurePreserving_perm (σ : Equiv.Perm (Fin n)) :
    MeasurePreserving (fun v : Fin n → ℝ => v ∘ σ) volume volume := by
  have h := volume_measurePreserving_piCongrLeft (fun _ : Fin n => ℝ) σ⁻¹
  convert h using 1
  funext v i
  show v (σ i) = (Equiv.piCongrLeft (fun _ : Fin n => ℝ) σ⁻¹) v i
  have := Equiv.piCongrLeft_apply_apply (fun _ : Fin n => ℝ) σ⁻¹ v (σ i)
  simpa using this.symm

theorem ae_injective : ∀ᵐ v : Fin n → ℝ, Function.Injective v := by
  have h : ∀ i j : Fin n, i ≠ j → ∀ᵐ v : Fin n → ℝ, v i ≠ v j := by
    intro i j hij
    let S : Submodule ℝ (Fin n → ℝ) := LinearMap.ker ((LinearMap.proj i : (Fin n → ℝ) →ₗ[ℝ] ℝ) - LinearMap.proj j)
    have hS : S ≠ ⊤ := by
      intro h
      have : (Pi.single i 1 : Fin n → ℝ) ∈ S := by rw [h]; trivial
      simp [S, hij.symm] at this
    have := Measure.addHaar_submodule (volume : Measure (Fin n → ℝ)) S hS
    rw [ae_iff]
    convert this using 2
    ext v
    simp [S, sub_eq_zero]
  have h' : ∀ᵐ v : Fin n → ℝ, ∀ i j : Fin n, i ≠ j → v i ≠ v j := by
    rw [ae_all_iff]; intro i
    rw [ae_all_iff]; intro j
    by_cases hij : i = j
    · exact Filter.Eventually.of_forall fun v h => absurd hij h
    · filter_upwards [h i j hij] with v hv _ using hv
  filter_upwards [h'] with v hv
  intro i j e
  by_contra hne
  exact hv i j hne e

theorem sorted_unique {v : Fin n → ℝ} {σ τ : Equiv.Perm (Fin n)} (hσ : StrictMono (v ∘ σ)) (hτ : StrictMono (v ∘ τ)) :
    σ = τ := by
  have hr : v ∘ σ = v ∘ τ := by
    refine (hσ.range_inj hτ).1 ?_
    rw [σ.surjective.range_comp, τ.surjective.range_comp]
  have hinj : Function.Injective v := by
    intro i j h
    have := hσ.injective (a₁ := σ.symm i) (a₂ := σ.symm j) (by simpa using h)
    exact σ.symm.injective this
  ext i
  exact congrArg _ (hinj (congrFun hr i))

/-- A symmetric integral over the cube is `n!` times the integral over the ordered simplex. -/
theorem lintegral_symmetric (F : (Fin n → ℝ) → ℝ≥0∞) (hF : Measurable F)
    (hsym : ∀ (σ : Equiv.Perm (Fin n)) v, F (v ∘ σ) = F v) :
    ∫⁻ u, F u ∂(Measure.pi fun _ : Fin n => unifMeasure) = n.factorial * ∫⁻ v in simplex n, F v := by
  classical
  have hpi : (Measure.pi fun _ : Fin n => unifMeasure)
      = (volume : Measure (Fin n → ℝ)).restrict (Set.univ.pi fun _ => Set.Ico 0 1) := by
    rw [volume_pi, Measure.restrict_pi_pi]; rfl
  have hcube : MeasurableSet (Set.univ.pi fun _ : Fin n => Set.Ico (0 : ℝ) 1) :=
    MeasurableSet.univ_pi fun _ => measurableSet_Ico
  rw [hpi, ← lintegral_indicator hcube, ← lintegral_indicator (measurableSet_simplex n)]
  have hne : ∀ᵐ x : Fin n → ℝ, ∀ i, x i ≠ 0 := by
    rw [ae_all_iff]
    intro i
    have h1 : ∀ᵐ u : ℝ, u ≠ 0 := by rw [ae_iff]; simp
    exact (Measure.quasiMeasurePreserving_eval (μ := fun _ : Fin n => (volume : Measure ℝ)) i).ae h1
  have h1 : ∫⁻ u, (Set.univ.pi fun _ : Fin n => Set.Ico (0 : ℝ) 1).indicator F u
      = ∫⁻ u, ∑ σ : Equiv.Perm (Fin n), (simplex n).indicator F (u ∘ σ) := by
    refine lintegral_congr_ae ?_
    filter_upwards [ae_injective, hne] with u hu h0
    by_cases hc : u ∈ Set.univ.pi fun _ : Fin n => Set.Ico (0 : ℝ) 1
    · rw [Set.indicator_of_mem hc]
      have hs : StrictMono (u ∘ Tuple.sort u) :=
        (Tuple.monotone_sort u).strictMono_of_injective (hu.comp (Tuple.sort u).injective)
      rw [Finset.sum_eq_single (Tuple.sort u)]
      · rw [Set.indicator_of_mem, hsym]
        refine ⟨fun i => ⟨lt_of_le_of_ne (hc _ trivial).1 (Ne.symm (h0 _)), (hc _ trivial).2⟩, hs⟩
      · intro τ _ hτ
        rw [Set.indicator_of_notMem]
        exact fun h => hτ (sorted_unique h.2 hs)
      · exact fun h => absurd (Finset.mem_univ _) h
    · rw [Set.indicator_of_notMem hc, Finset.sum_eq_zero]
      intro σ _
      rw [Set.indicator_of_notMem]
      intro h
      apply hc
      intro i _
      have := h.1 (σ.symm i)
      simp only [Function.comp_apply, Equiv.apply_symm_apply] at this
      exact ⟨this.1.le, this.2⟩
  have hI : Measurable ((simplex n).indicator F) := hF.indicator (measurableSet_simplex n)
  have hIσ : ∀ σ : Equiv.Perm (Fin n), Measurable fun u : Fin n → ℝ => (simplex n).indicator F (u ∘ σ) :=
    fun σ => hI.comp (measurePreserving_perm σ).measurable
  rw [h1, lintegral_finsetSum _ fun σ _ => hIσ σ]
  have h2 : ∀ σ : Equiv.Perm (Fin n), ∫⁻ u, (simplex n).indicator F (u ∘ σ) = ∫⁻ v, (simplex n).indicator F v :=
    fun σ => (measurePreserving_perm σ).lintegral_comp hI
  simp only [h2]
  rw [Finset.sum_const, Finset.card_univ, Fintype.card_perm, Fintype.card_fin, nsmul_eq_mul]

/-- Symmetric functionals of `sortedUniforms` have the law of independent uniforms. -/
theorem sortedUniforms_symmetric (F : (Fin n → ℝ) → ℝ≥0∞) (hF : Measurable F)
    (hsym : ∀ (σ : Equiv.Perm (Fin n)) v, F (v ∘ σ) = F v) :
    ∫⁻ us, F (Resampling.sortedUniforms us) ∂(Measure.pi fun _ : Fin (n + 1) => unifMeasure)
      = ∫⁻ u, F u ∂(Measure.pi fun _ : Fin n => unifMeasure) := by
  rw [lintegral_sortedUniforms F hF, lintegral_symmetric F hF hsym]

end OrderStat
end Fbs
