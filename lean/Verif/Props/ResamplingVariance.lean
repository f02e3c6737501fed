import Verif.Lemmas.ResVar

/-!
# C95: the mean square error of the resampling schemes compared
-/

open MeasureTheory
open scoped ENNReal

namespace Fbs
namespace Props

open Jax Spec Smc

variable {N : ℕ}

/-- **C95, multinomial (csmc).** The mean over the selected particles misses the weighted mean by exactly the
variance under the weights over the number of particles, for every function and every normalised weights. -/
theorem C95_csmc_multinomial [NeZero N] (i j : Fin N) {w : Fin N → ℝ} (hw : Weights w) (key : Key) (c : Fin N → ℝ) :
    resampleErr (fun w k => CsmcResampling.multinomial k w i j false) w key c
      = ENNReal.ofReal (weightVar w c / N) := by
  obtain ⟨s, hs, -, he⟩ := err_of_prod (sums_multinomial i j) hw key (p := fun _ a => ENNReal.ofReal (w a))
    (fun _ => sum_ofReal_weights hw) (fun F _ => law_multinomial i j hw key F) c
  rw [hs, he fun _ _ => rfl]

/-- **C95, multinomial (filters).** The sorting does not change the error. -/
theorem C95_multinomial [NeZero N] {w : Fin N → ℝ} (hw : Weights w) (key : Key) (c : Fin N → ℝ) :
    resampleErr Resampling.multinomial w key c = ENNReal.ofReal (weightVar w c / N) := by
  obtain ⟨s, hs, -, he⟩ := err_of_prod sums_sorted_multinomial hw key (p := fun _ a => ENNReal.ofReal (w a))
    (fun _ => sum_ofReal_weights hw) (fun F hF => C56_multinomial_symmetric hw key F hF) c
  rw [hs, he fun _ _ => rfl]

/-- **C95, stratified.** Never worse than multinomial. -/
theorem C95_stratified_le [NeZero N] {w : Fin N → ℝ} (hw : Weights w) (key : Key) (c : Fin N → ℝ) :
    resampleErr Resampling.stratified w key c ≤ resampleErr Resampling.multinomial w key c := by
  obtain ⟨s, hs, hle, -⟩ := err_of_prod sums_stratified hw key
    (p := fun m a => unifMeasure {u | clipIdx N (searchsorted (cumsum w) (((m : ℕ) + u) / N)) = a})
    (fun m => by
      have hmeas : Measurable fun u : ℝ => clipIdx N (searchsorted (cumsum w) (((m : ℕ) + u) / N)) :=
        measurable_clipIdx.comp ((measurable_searchsorted _).comp ((measurable_id.const_add _).div_const _))
      have := lintegral_comp_fintype (μ := unifMeasure) hmeas fun _ => 1
      simpa using this.symm)
    (fun F _ => law_stratified w key F) c
  rw [hs, C95_multinomial hw]
  exact ENNReal.ofReal_le_ofReal hle

/-- **C95, killing.** Never worse than multinomial. -/
theorem C95_killing_le [NeZero N] {w : Fin N → ℝ} (hw : Weights w) (key : Key) (c : Fin N → ℝ) :
    resampleErr Resampling.killing w key c ≤ resampleErr Resampling.multinomial w key c := by
  obtain ⟨s, hs, hle, -⟩ := err_of_prod sums_killing hw key (p := killMass w)
    (sum_killMass hw.nonneg (Weights.total_pos hw)) (fun F _ => E_killing hw key F) c
  rw [hs, C95_multinomial hw]
  exact ENNReal.ofReal_le_ofReal hle

/-- **C95, systematic.** For every even number `N = 2n` of particles there are weights and a function with values
in `{0,1}` for which the error of systematic resampling is `1/16`, that of multinomial resampling `3/(16N)`:
worse by the factor `N/3`, so strictly worse from four particles on. -/
theorem C95_systematic_worse {n : ℕ} [NeZero (2 * n)] :
    ∃ w c : Fin (2 * n) → ℝ, Weights w ∧ (∀ i, c i = 0 ∨ c i = 1) ∧ ∀ key,
      resampleErr Resampling.systematic w key c = ENNReal.ofReal (1 / 16) ∧
      resampleErr Resampling.multinomial w key c = ENNReal.ofReal (3 / (16 * (2 * n : ℕ))) ∧
      (2 ≤ n → resampleErr Resampling.multinomial w key c < resampleErr Resampling.systematic w key c) := by
  have hn : 0 < n := by have := NeZero.ne (2 * n); omega
  obtain ⟨w, c, hw, hc, hM, hu⟩ := C79_systematic_error hn
  have hn' : (0 : ℝ) < n := by exact_mod_cast hn
  refine ⟨w, c, hw, hc, fun key => ?_⟩
  have h1 : resampleErr Resampling.systematic w key c = ENNReal.ofReal (1 / 16) := by
    unfold resampleErr Resampling.systematic uniform
    rw [Rand.E_map, Rand.E_sample]
    have ha : ∀ᵐ u ∂unifMeasure, u ∈ Set.Ico (0 : ℝ) 1 := ae_restrict_mem measurableSet_Ico
    have hb : ∀ᵐ u ∂unifMeasure, u ≠ (0 : ℝ) := by
      apply ae_restrict_of_ae
      rw [ae_iff]; simp
    rw [lintegral_congr_ae (g := fun _ => ENNReal.ofReal (1 / 16))]
    · simp
    · filter_upwards [ha, hb] with u hu1 hu0
      have := hu u ⟨lt_of_le_of_ne hu1.1 (Ne.symm hu0), hu1.2⟩
      rw [← sq_abs, this]
      norm_num
  have h2 : weightVar w c = 3 / 16 := by
    have : ∀ i, w i * c i ^ 2 = w i * c i := fun i => by rcases hc i with h | h <;> rw [h] <;> norm_num
    rw [weightVar_eq hw]
    simp only [this, hM]
    norm_num
  have h3 : resampleErr Resampling.multinomial w key c = ENNReal.ofReal (3 / (16 * (2 * n : ℕ))) := by
    rw [C95_multinomial hw, h2, div_div]
  refine ⟨h1, h3, fun h2n => ?_⟩
  have : (2 : ℝ) ≤ n := by exact_mod_cast h2n
  rw [h1, h3, ENNReal.ofReal_lt_ofReal_iff (by norm_num), div_lt_div_iff₀ (by push_cast; positivity) (by norm_num)]
  push_cast
  linarith

/-- **C95, the gap.** On equal weights killing makes no error at all; the multinomial scheme still has its full
variance. -/
theorem C95_killing_uniform [NeZero N] (key : Key) (c : Fin N → ℝ) :
    resampleErr Resampling.killing (fun _ => 1 / (N : ℝ)) key c = 0 ∧
    resampleErr Resampling.multinomial (fun _ => 1 / (N : ℝ)) key c
      = ENNReal.ofReal ((∑ i, (c i - (∑ j, c j) / N) ^ 2) / N ^ 2) := by
  have hN : (0 : ℝ) < N := by exact_mod_cast Nat.pos_of_ne_zero (NeZero.ne N)
  have hw : Weights (fun _ : Fin N => 1 / (N : ℝ)) := ⟨fun _ => by positivity, by
    simp only [Finset.sum_const, Finset.card_univ, Fintype.card_fin, nsmul_eq_mul]; field_simp⟩
  refine ⟨?_, ?_⟩
  · have hmax : vmax (fun _ : Fin N => 1 / (N : ℝ)) = 1 / N :=
      le_antisymm (Finset.sup'_le _ _ fun i _ => le_rfl) (vmax_ge (fun _ : Fin N => 1 / (N : ℝ)) 0)
    have hk : ∀ m a : Fin N, killMass (fun _ => 1 / (N : ℝ)) m a = if a = m then 1 else 0 := fun m a => by
      unfold killMass
      rw [hmax, div_self (by positivity)]
      simp
    rw [resampleErr, E_killing hw]
    refine Finset.sum_eq_zero fun A _ => ?_
    by_cases hA : ∀ m, A m = m
    · simp only [hA, ← Finset.mul_sum]
      rw [show (∑ j, c j) / (N : ℝ) - 1 / N * ∑ j, c j = 0 by ring]
      simp
    · push Not at hA
      obtain ⟨m, hm⟩ := hA
      rw [Finset.prod_eq_zero (Finset.mem_univ m) (by rw [hk, if_neg hm]), zero_mul]
  · rw [C95_multinomial hw]
    unfold weightVar
    simp only [← Finset.mul_sum]
    congr 1
    rw [show 1 / (N : ℝ) * ∑ j, c j = (∑ j, c j) / N by ring]
    field_simp

/-- Weights `3/4, 1/4` and the indicator of the first particle: the multinomial error is `3/32`. -/
example : resampleErr (N := 2) Resampling.multinomial ![3/4, 1/4] [] ![1, 0] = ENNReal.ofReal (3 / 32) := by
  rw [C95_multinomial ⟨by intro i; fin_cases i <;> norm_num, by norm_num [Fin.sum_univ_two]⟩]
  norm_num [weightVar, Fin.sum_univ_two]

example : resampleErr (N := 2) Resampling.stratified ![3/4, 1/4] [] ![1, 0] ≤ ENNReal.ofReal (3 / 32) := by
  have hw : Weights (n := 2) ![3/4, 1/4] := ⟨by intro i; fin_cases i <;> norm_num, by norm_num [Fin.sum_univ_two]⟩
  refine (C95_stratified_le hw [] _).trans ?_
  rw [C95_multinomial hw]
  norm_num [weightVar, Fin.sum_univ_two]

example : resampleErr (N := 2) Resampling.killing ![3/4, 1/4] [] ![1, 0] ≤ ENNReal.ofReal (3 / 32) := by
  have hw : Weights (n := 2) ![3/4, 1/4] := ⟨by intro i; fin_cases i <;> norm_num, by norm_num [Fin.sum_univ_two]⟩
  refine (C95_killing_le hw [] _).trans ?_
  rw [C95_multinomial hw]
  norm_num [weightVar, Fin.sum_univ_two]

end Props
end Fbs
