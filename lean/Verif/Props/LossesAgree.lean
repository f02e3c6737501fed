import Verif.Props.Losses
import Mathlib.Probability.Distributions.Gaussian.Real

/-!
# C39: the Ornstein–Uhlenbeck loss and the memory-saving loss against the general loss
-/

open MeasureTheory ProbabilityTheory
open scoped ENNReal NNReal

namespace Fbs
namespace Props

open Linear Spec Jax Losses

section Ou
variable {ι : Type} [Fintype ι] {n : ℕ}

/-- **C39, given times.**  When the times start at zero the Ornstein–Uhlenbeck loss of given paths is the general
`'score'` loss of the constant SDE, and the paths are simulated by the same program. -/
theorem C39_given_times_partial (a b : ℝ) (nn : (Fin n → ι → ℝ) → ℝ → Fin n → ι → ℝ) (ts : Arr1 ℝ) (h0 : ts.1 = 0)
    (key : Key) (x0s : Fin n → ι → ℝ) :
    (∀ paths, ouScoreValue a b nn ts paths = scoreValue (.const a b) nn ts paths) ∧
    (vmapR fun j : Fin n => simulatePathOu a b (split key n j) (x0s j) ts) = fwdPaths (.const a b) key x0s ts := by
  refine ⟨fun paths => ?_, ?_⟩
  · have hd : ∀ t, discretiseOu a b t = discretise (.const a b) t 0 := fun t => by
      rw [← (C32_discretise a b t 0 0 0).1, sub_zero]
    have hc : ∀ x t x0, condScoreOu a b x t x0 = condScore (.const a b) x t x0 0 := fun x t x0 => by
      rw [← (C32_discretise a b t 0 x x0).2, sub_zero]
    simp only [ouScoreValue, scoreValue, h0, hd, hc]
  · simp only [fwdPaths, C32_paths]

/-- **C39.**  With initial time zero and fixed times the two loss programs are equal, draw by draw, for every network,
data set and terminal time. -/
theorem C39_ou_partial (a b : ℝ) (nn : (Fin n → ι → ℝ) → ℝ → Fin n → ι → ℝ) (T : ℝ) (nsteps : ℕ) (key : Key)
    (x0s : Fin n → ι → ℝ) :
    (Except.ok <$> ouLossFn a b nn 0 T nsteps false key x0s : Rand (Except String ℝ)) =
      lossFn (.const a b) nn 0 T nsteps false "score" key x0s := by
  have h : ∀ ts : Arr1 ℝ, ts.1 = 0 → (Except.ok <$> (do
      let paths ← vmapR fun j : Fin n => simulatePathOu a b (split (split key 2 1) n j) (x0s j) ts
      pure (ouScoreValue a b nn ts paths)) : Rand (Except String ℝ)) = (do
      let paths ← fwdPaths (.const a b) (split key 2 1) x0s ts
      pure (lossValue (.const a b) nn "score" ts paths)) := by
    intro ts hts
    obtain ⟨h1, h2⟩ := C39_given_times_partial a b nn ts hts (split key 2 1) x0s
    rw [h2]
    simp only [h1, map_bind, map_pure, lossValue, if_true]
  simp only [ouLossFn, lossFn, times, Bool.false_eq_true, if_false, pure_bind]
  exact h _ rfl

end Ou

section Counterexample

theorem lintegral_sq_gaussian (v : ℝ≥0) : ∫⁻ x, ENNReal.ofReal (x ^ 2) ∂(gaussianReal 0 v) = v := by
  have hi : Integrable (fun x : ℝ => x ^ 2) (gaussianReal 0 v) := (memLp_id_gaussianReal 2).integrable_sq
  rw [← ofReal_integral_eq_lintegral_ofReal hi (Filter.Eventually.of_forall fun x => sq_nonneg x)]
  have h := variance_eq_integral (μ := gaussianReal 0 v) (X := id) measurable_id.aemeasurable
  rw [variance_id_gaussianReal] at h
  simp only [id, integral_id_gaussianReal, sub_zero] at h
  rw [← h]; simp

/-- Expected value of a quadratic function of the end of a path of one step from zero. -/
theorem E_one_step (key : Key) (F c : ℝ) (hc : 0 ≤ c) :
    (fwdPaths (ι := Unit) (n := 1) (.const (-1) 1) key (fun _ _ => 0) (1, [2])).E
      (fun paths => ENNReal.ofReal (c * ((paths 0).getD 1 0 () - F * (paths 0).getD 0 0 ()) ^ 2)) =
    ENNReal.ofReal c * ENNReal.ofReal (discretise (.const (-1) 1) 2 1).2 := by
  have hd : Defined (.const (-1) 1) := by norm_num [Defined]
  have hQ : 0 < (discretise (.const (-1) 1) 2 1).2 :=
    (C29_bounds (sde := .const (-1) 1) (s := 1) (t := 2) ⟨by norm_num, by norm_num⟩ ⟨by norm_num, by norm_num⟩
      (by norm_num)).2.1
  have hg : GridOk (.const (-1) 1) 1 [2] := ⟨hQ.le, trivial⟩
  have h := E_path_sum hd (split key 1 0) (fun _ : Unit => (0 : ℝ)) (1, [2]) hg
    (fun _ x0 x => ENNReal.ofReal (c * (x () - F * x0 ()) ^ 2)) fun _ _ => by fun_prop
  have h' := E_vmapR_sum (n := 1) (p := fun j : Fin 1 => simulatePath (.const (-1) 1) (split key 1 j)
    (fun _ : Unit => (0 : ℝ)) (1, [2])) (fun j => isProb_simulatePath ..)
    fun _ p => ENNReal.ofReal (c * (p.getD 1 0 () - F * p.getD 0 0 ()) ^ 2)
  simp only [Finset.univ_unique, Fin.default_eq_zero, Finset.sum_singleton] at h'
  simp only [List.length_singleton, Finset.range_one, Finset.sum_singleton, zero_add] at h
  rw [fwdPaths, h']
  refine h.trans ?_
  simp only [timeAt, Arr1.toList, List.getD_cons_succ, List.getD_cons_zero, transLaw, mul_zero, sub_zero]
  rw [lintegral_congr fun x => ENNReal.ofReal_mul hc, lintegral_const_mul _ (by fun_prop)]
  congr 1
  have hp := (measurePreserving_eval (fun _ : Unit => gaussianReal 0 (discretise (.const (-1) 1) 2 1).2.toNNReal)
    ()).lintegral_comp (f := fun x : ℝ => ENNReal.ofReal (x ^ 2)) (by fun_prop)
  refine Eq.trans hp ?_
  rw [lintegral_sq_gaussian]; rfl

/-- **C39 fails for other initial times.**  With `t0 = 1` the Ornstein–Uhlenbeck loss evaluates the conditional score
and the scale as if the process had started at time zero: for the zero network and one sample at zero the expected
losses of the two programs differ. -/
theorem C39_t0_counterexample (key : Key) :
    let nn : (Fin 1 → Unit → ℝ) → ℝ → Fin 1 → Unit → ℝ := fun _ _ _ _ => 0
    let x0s : Fin 1 → Unit → ℝ := fun _ _ => 0
    (Except.ok <$> ouLossFn (-1) 1 nn 1 2 1 false key x0s : Rand (Except String ℝ)).E okValue <
      (lossFn (.const (-1) 1) nn 1 2 1 false "score" key x0s).E okValue := by
  intro nn x0s
  have hQ : ∀ s t : ℝ, s < t → 0 < (discretise (.const (-1) 1) t s).2 := fun s t h =>
    (C29_bounds (sde := .const (-1) 1) (s := s) (t := t) ⟨by norm_num, by norm_num⟩ ⟨by norm_num, by norm_num⟩ h).2.1
  have hQ1 := hQ 1 2 (by norm_num)
  have hQ2 := hQ 0 2 (by norm_num)
  have hts : ((1 : ℝ), (Simulators.linspace 1 2 (1 + 1)).tail) = (1, [2]) := by
    simp [Simulators.linspace, List.range_succ]
    try norm_num
  have hv : ∀ F Q : ℝ, 0 < Q → ∀ x y : ℝ, (0 - -(y - F * x) / Q) ^ 2 * Q = Q⁻¹ * (y - F * x) ^ 2 := by
    intro F Q hQ x y; field_simp; ring
  have h1 : ∀ paths : Fin 1 → List (Unit → ℝ), okValue (lossValue (.const (-1) 1) nn "score" (1, [2]) paths) =
      ENNReal.ofReal ((discretise (.const (-1) 1) 2 1).2⁻¹ *
        ((paths 0).getD 1 0 () - (discretise (.const (-1) 1) 2 1).1 * (paths 0).getD 0 0 ()) ^ 2) := by
    intro paths
    rw [← hv _ _ hQ1]
    simp [okValue, lossValue, scoreValue, meanCols, Dsb.mean, slice, timeAt, Arr1.toList, condScore, nn, Except.toOption]
  have h2 : ∀ paths : Fin 1 → List (Unit → ℝ), okValue (.ok (ouScoreValue (-1) 1 nn (1, [2]) paths)) =
      ENNReal.ofReal ((discretise (.const (-1) 1) 2 0).2⁻¹ *
        ((paths 0).getD 1 0 () - (discretise (.const (-1) 1) 2 0).1 * (paths 0).getD 0 0 ()) ^ 2) := by
    intro paths
    rw [← hv _ _ hQ2]
    simp [okValue, ouScoreValue, meanCols, Dsb.mean, slice, timeAt, Arr1.toList, condScoreOu, discretiseOu, discretise,
      nn, Except.toOption]
  simp only [ouLossFn, lossFn, times, Bool.false_eq_true, if_false, Rand.E_map, Rand.E_bind, Rand.pure_eq,
    Rand.E_ret, hts, C32_paths, h1, h2]
  have e1 := E_one_step (split key 2 1) (discretise (.const (-1) 1) 2 1).1 _ (inv_pos.2 hQ1).le
  have e2 := E_one_step (split key 2 1) (discretise (.const (-1) 1) 2 0).1 _ (inv_pos.2 hQ2).le
  refine (Eq.trans_lt e2 ?_).trans_eq e1.symm
  rw [← ENNReal.ofReal_mul (inv_pos.2 hQ2).le, ← ENNReal.ofReal_mul (inv_pos.2 hQ1).le, inv_mul_cancel₀ hQ1.ne']
  refine (ENNReal.ofReal_lt_ofReal_iff one_pos).2 ?_
  rw [inv_mul_lt_one₀ hQ2]
  simp only [discretise]
  have : Real.exp (2 * -1 * (2 - 0)) < Real.exp (2 * -1 * (2 - 1)) := Real.exp_lt_exp.2 (by norm_num)
  revert this
  generalize Real.exp (2 * -1 * (2 - 0)) = u
  generalize Real.exp (2 * -1 * (2 - 1)) = v
  intro h
  have e : ∀ w : ℝ, (1 : ℝ) ^ 2 / (2 * -1) * (w - 1) = (1 - w) / 2 := fun w => by ring
  rw [e, e]; linarith

end Counterexample

section SaveMem

/-- **C39 fails for the memory-saving variant.**  Images (states with at least two axes) and vectors alike: unless the
first state dimension is the number of samples, and at most two, `save_mem=True` raises for the loss types `'ipf'` and
`'ipf-score'`, while `save_mem=False` returns a value for every data set. -/
theorem C39_save_mem_counterexample {lossType : String} (h : lossType = "ipf" ∨ lossType = "ipf-score") :
    (∀ n d rest, d ≠ n ∨ 2 < d → ∃ e, saveMemShapes lossType n (d :: rest) = .error e) ∧
    (∀ n, ∃ e, saveMemShapes lossType n [] = .error e) ∧
    (∀ {ι : Type} [Fintype ι] {n : ℕ} (sde : SDE) nn ts (paths : Fin n → List (ι → ℝ)),
      ∃ v, lossValue sde nn lossType ts paths = .ok v) := by
  have h1 : lossType ≠ "score" := by rcases h with rfl | rfl <;> decide
  refine ⟨fun n d rest hd => ?_, fun n => ?_, fun sde nn ts paths => ?_⟩
  · by_cases hdn : d = n
    · exact ⟨"TypeError", by simp [saveMemShapes, h1, h, hdn]; rcases hd with hd | hd <;> [exact absurd hdn hd; exact hdn ▸ hd]⟩
    · exact ⟨"ValueError", by simp [saveMemShapes, h1, h, hdn]⟩
  · exact ⟨"IndexError", by simp [saveMemShapes, h1, h]⟩
  · rcases h with rfl | rfl
    · exact ⟨_, by simp [lossValue]; rfl⟩
    · exact ⟨_, by simp [lossValue]; rfl⟩

/-- **C39, memory-saving variant.**  For `'score'` both variants return a value, and both reject the same unknown loss
types. -/
theorem C39_save_mem_types_partial {ι : Type} [Fintype ι] {n : ℕ} (lossType : String)
    (h : lossType ≠ "ipf" ∧ lossType ≠ "ipf-score") (shape : List ℕ) (sde : SDE)
    (nn : (Fin n → ι → ℝ) → ℝ → Fin n → ι → ℝ) (ts : Arr1 ℝ) (paths : Fin n → List (ι → ℝ)) :
    (∃ e, saveMemShapes lossType n shape = .error e) ↔ (∃ e, lossValue sde nn lossType ts paths = .error e) := by
  by_cases h1 : lossType = "score" <;> simp [saveMemShapes, lossValue, h, h1]

end SaveMem

/-! ### The hypotheses can be met -/

example : ((0 : ℝ), [1, 2]).1 = 0 ∧ saveMemShapes "ipf" 8 [28, 28, 1] = .error "ValueError" ∧
    saveMemShapes "score" 8 [28, 28, 1] = .ok () := ⟨rfl, rfl, rfl⟩

end Props
end Fbs
