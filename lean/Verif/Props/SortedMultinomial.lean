import Verif.Lemmas.OrderStat
import Verif.Props.Filters

/-!
# C56: the sorted multinomial scheme is multinomial resampling, sorted
-/

open MeasureTheory
open scoped ENNReal

namespace Fbs
namespace Props

open Jax Spec Smc

variable {n : ℕ}

/-- One `searchsorted` query at a uniform draw selects index `i` with probability `w i`. -/
theorem unif_searchsorted [NeZero n] {w : Fin n → ℝ} (h : Weights w) (i : Fin n) :
    unifMeasure {u | clipIdx n (searchsorted (cumsum w) u) = i} = ENNReal.ofReal (w i) := by
  have hm : MeasurableSet {u | clipIdx n (searchsorted (cumsum w) u) = i} :=
    (measurable_clipIdx.comp (measurable_searchsorted _)) (measurableSet_singleton i)
  have hT : total w = 1 := Weights.total_eq h
  unfold unifMeasure
  rw [Measure.restrict_apply hm]
  have hae : ({u | clipIdx n (searchsorted (cumsum w) u) = i} ∩ Set.Ico 0 1 : Set ℝ)
      =ᵐ[volume] (Set.Ioc (presum w i) (cumsum w i) : Set ℝ) := by
    have h0 : ∀ᵐ u : ℝ, u ≠ 0 := by rw [ae_iff]; simp
    have h1 : ∀ᵐ u : ℝ, u ≠ 1 := by rw [ae_iff]; simp
    filter_upwards [h0, h1] with u hu0 hu1
    apply propext
    show u ∈ ({u | clipIdx n (searchsorted (cumsum w) u) = i} ∩ Set.Ico 0 1 : Set ℝ) ↔ u ∈ Set.Ioc (presum w i) (cumsum w i)
    constructor
    · rintro ⟨hi, hu⟩
      have hpos : 0 < u := lt_of_le_of_ne hu.1 (Ne.symm hu0)
      exact (clip_searchsorted_eq_iff h.nonneg hpos (by rw [hT]; exact hu.2.le) i).1 hi
    · rintro ⟨ha, hb⟩
      have hpos : 0 < u := lt_of_le_of_lt (presum_nonneg h.nonneg i) ha
      have hle : u ≤ 1 := by rw [← hT]; exact hb.trans (cumsum_le_total h.nonneg i)
      exact ⟨(clip_searchsorted_eq_iff h.nonneg hpos (by rw [hT]; exact hle) i).2 ⟨ha, hb⟩, hpos.le,
        lt_of_le_of_ne hle hu1⟩
  rw [measure_congr hae, Real.volume_Ioc, cumsum_eq]
  congr 1
  ring

theorem measurable_queries [NeZero n] (w : Fin n → ℝ) :
    Measurable fun (u : Fin n → ℝ) (i : Fin n) => clipIdx n (searchsorted (cumsum w) (u i)) :=
  measurable_pi_lambda _ fun i =>
    (measurable_clipIdx.comp (measurable_searchsorted _)).comp (measurable_pi_apply i)

/-- **C56 (symmetric functionals).** For every functional that does not depend on the order of the indices
(copy counts, averages over the resampled particles, ...), the sorted scheme behaves as `n` independent draws
with probabilities `w`. -/
theorem C56_multinomial_symmetric [NeZero n] {w : Fin n → ℝ} (h : Weights w) (key : Key)
    (F : (Fin n → Fin n) → ℝ≥0∞) (hF : ∀ (σ : Equiv.Perm (Fin n)) A, F (A ∘ σ) = F A) :
    (Resampling.multinomial w key).E F = ∑ A : Fin n → Fin n, (∏ m, ENNReal.ofReal (w (A m))) * F A := by
  unfold Resampling.multinomial uniforms
  rw [Rand.E_map, Rand.E_sample]
  let G : (Fin n → ℝ) → ℝ≥0∞ := fun u => F fun i => clipIdx n (searchsorted (cumsum w) (u i))
  have hG : Measurable G := (measurable_of_finite F).comp (measurable_queries w)
  have hs : ∀ (σ : Equiv.Perm (Fin n)) v, G (v ∘ σ) = G v := fun σ v =>
    hF σ fun i => clipIdx n (searchsorted (cumsum w) (v i))
  refine (OrderStat.sortedUniforms_symmetric G hG hs).trans ?_
  simp only [G]
  rw [lintegral_comp_fintype (measurable_queries w)]
  refine Finset.sum_congr rfl fun A _ => ?_
  congr 1
  have hset : {u : Fin n → ℝ | (fun i => clipIdx n (searchsorted (cumsum w) (u i))) = A}
      = Set.univ.pi fun i => {u | clipIdx n (searchsorted (cumsum w) u) = A i} := by
    ext u; simp [funext_iff]
  rw [hset, Measure.pi_pi]
  simp only [unif_searchsorted h]

/-- **C56 (law).** The index array has the law of `n` independent draws with probabilities `w`, put into
non-decreasing order. -/
theorem C56_multinomial_law [NeZero n] {w : Fin n → ℝ} (h : Weights w) (key : Key)
    (F : (Fin n → Fin n) → ℝ≥0∞) :
    (Resampling.multinomial w key).E F
      = ∑ A : Fin n → Fin n, (∏ m, ENNReal.ofReal (w (A m))) * F (A ∘ Tuple.sort A) := by
  rw [← C56_multinomial_symmetric h key (fun A => F (A ∘ Tuple.sort A))
    fun σ A => by rw [Tuple.comp_perm_comp_sort_eq_comp_sort]]
  unfold Resampling.multinomial uniforms
  rw [Rand.E_map, Rand.E_sample, Rand.E_map, Rand.E_sample]
  refine lintegral_congr_ae ?_
  have hne : ∀ᵐ u : Fin (n + 1) → ℝ ∂(Measure.pi fun _ => unifMeasure), ∀ i, u i ∈ Set.Ioo (0 : ℝ) 1 := by
    rw [ae_all_iff]
    intro i
    have h1 : ∀ᵐ u ∂unifMeasure, u ∈ Set.Ioo (0 : ℝ) 1 := by
      unfold unifMeasure
      have h0 : ∀ᵐ u ∂(volume.restrict (Set.Ico (0 : ℝ) 1)), u ≠ 0 :=
        ae_restrict_of_ae (by rw [ae_iff]; simp)
      filter_upwards [h0, ae_restrict_mem measurableSet_Ico] with u hu hm
      exact ⟨lt_of_le_of_ne hm.1 (Ne.symm hu), hm.2⟩
    exact (Measure.quasiMeasurePreserving_eval (μ := fun _ : Fin (n + 1) => unifMeasure) i).ae h1
  filter_upwards [hne] with us hus
  have hmono := C04_multinomial_sorted w hus
  rw [Tuple.sort_eq_refl_iff_monotone.2 hmono]
  rfl

/-- **C56 (unbiased).** The sorted multinomial scheme is unbiased. -/
theorem C56_multinomial_unbiased [NeZero n] (key : Key) :
    Unbiased (n := n) fun w => Resampling.multinomial w key := by
  intro w h a
  rw [C56_multinomial_symmetric h key (fun A => (copies A a : ℝ≥0∞))]
  · have hsum : ∑ a, ENNReal.ofReal (w a) = 1 := by
      rw [← ENNReal.ofReal_sum_of_nonneg fun m _ => h.nonneg m, h.sum_one]; simp
    rw [sum_prod_copies (κ := fun _ a => ENNReal.ofReal (w a)) (fun _ => hsum)]
    simp
  · intro σ A
    simp only [copies_eq_sum, Function.comp_apply]
    exact Equiv.sum_comp σ fun m => if A m = a then (1 : ℝ≥0∞) else 0

/-- **C56 (agreement of the two implementations).** On symmetric functionals the sorted scheme of
`fbs.samplers.resampling` and the unconditional multinomial scheme of the csmc package agree. -/
theorem C56_agrees_with_csmc [NeZero n] {w : Fin n → ℝ} (h : Weights w) (key key' : Key) (i j : Fin n)
    (F : (Fin n → Fin n) → ℝ≥0∞) (hF : ∀ (σ : Equiv.Perm (Fin n)) A, F (A ∘ σ) = F A) :
    (Resampling.multinomial w key).E F = (CsmcResampling.multinomial key' w i j false).E F := by
  rw [C56_multinomial_symmetric h key F hF, E_csmc_multinomial h]
  simp

/-- **C56 (zero weights).** With draws in `(0,1)` the sorted scheme never selects a particle of weight zero. -/
theorem C56_positive_weight [NeZero n] {w : Fin n → ℝ} (h : Weights w) {us : Fin (n + 1) → ℝ}
    (hu : ∀ i, us i ∈ Set.Ioo (0 : ℝ) 1) (m : Fin n) :
    0 < w (clipIdx n (searchsorted (cumsum w) (Resampling.sortedUniforms us m))) := by
  have hpos : ∀ j, 0 < -Real.log (us j) := fun j => by
    have := Real.log_neg (hu j).1 (hu j).2
    linarith
  have hle := (C04_sorted_uniforms hu).2 m
  have h0 : 0 < Resampling.sortedUniforms us m := by
    unfold Resampling.sortedUniforms
    have hc : ∀ i : Fin (n + 1), 0 < cumsum (fun j => -Real.log (us j)) i := fun i =>
      Finset.sum_pos (fun j _ => hpos j) ⟨i, by simp⟩
    exact div_pos (hc _) (hc _)
  obtain ⟨h1, h2⟩ := (clip_searchsorted_eq_iff h.nonneg h0 (by rw [Weights.total_eq h]; exact hle.2) _).1 rfl
  rw [cumsum_eq] at h2
  linarith

/-- **C56 (use in the filters).** The scheme meets the hypothesis of C17 and C18. -/
theorem sums_sorted_multinomial [NeZero n] : UnbiasedSums (N := n) Resampling.multinomial :=
  unbiasedSums_of _ (fun w _ _ => hasLaw_map (f := fun us i =>
      clipIdx n (searchsorted (cumsum w) (Resampling.sortedUniforms us i)))
    (by
      have hS : Measurable (Resampling.sortedUniforms (n := n)) := ?_
      · exact (measurable_queries w).comp hS
      refine measurable_pi_lambda _ fun i => ?_
      unfold Resampling.sortedUniforms
      have hcs := (OrderStat.measurePreserving_cumsum (n + 1)).measurable
      have hlog : Measurable fun (us : Fin (n + 1) → ℝ) (j : Fin (n + 1)) => -Real.log (us j) :=
        measurable_pi_lambda _ fun j => (Real.measurable_log.comp (measurable_pi_apply j)).neg
      have hz : ∀ k, Measurable fun us : Fin (n + 1) → ℝ => cumsum (fun j => -Real.log (us j)) k :=
        fun k => (measurable_pi_apply k).comp (hcs.comp hlog)
      exact (hz i.castSucc).div (hz (Fin.last n))))
    C56_multinomial_unbiased

/-- The hypotheses are satisfiable by unequal weights with a zero. -/
example : Weights (![1 / 4, 3 / 4, 0] : Fin 3 → ℝ) :=
  ⟨fun i => by fin_cases i <;> norm_num, by simp [Fin.sum_univ_three]; norm_num⟩

example (key : Key) : (bootstrapFilter (smcFuns exampleModel 3) Resampling.multinomial (0, [1, 2]) (0, [1, 2])
    key true true).E (fun out => ENNReal.ofReal (Real.exp (-out.nell)))
      = exampleModel.filterInt (0, [1, 2]) (0, [1, 2]) (fun _ => 1) :=
  C17_likelihood_unbiased (0, [1, 2]) (0, [1, 2]) (implements_smcFuns exampleModel 3 0) sums_sorted_multinomial rfl
    key true true

end Props
end Fbs
