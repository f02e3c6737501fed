import Verif.Spec.Resampling
import Verif.Lemmas.Killing

/-!
# C01, C05, C06: killing and conditional resampling
-/

open MeasureTheory
open scoped ENNReal

namespace Fbs
namespace Props

open Jax Spec

variable {n : ℕ}

theorem Weights.total_eq {w : Fin n → ℝ} (h : Weights w) : total w = 1 := h.sum_one

theorem Weights.total_pos {w : Fin n → ℝ} (h : Weights w) : 0 < total w := by
  rw [Weights.total_eq h]; exact one_pos

theorem cat_normalised {w : Fin n → ℝ} (h : Weights w) (i : Fin n) :
    cat w i = ENNReal.ofReal (w i) := by
  simp [cat, Weights.total_eq h]

/-- The clamped remainder of the rotation probabilities is never clamped, and the probabilities
are `(1 - w_m / w_max)/N` off `i` and `(1 + (1 - w_i)/w_max)/N` at `i`. -/
theorem jProb_apply [NeZero n] {w : Fin n → ℝ} (h : Weights w) (i m : Fin n) :
    CsmcResampling.jProb w i m
      = if m = i then (1 + (1 - w i) / vmax w) / n else (1 - w m / vmax w) / n := by
  have hM := vmax_pos h.nonneg (Weights.total_pos h)
  have hn : (0 : ℝ) < n := by exact_mod_cast Nat.pos_of_ne_zero (NeZero.ne n)
  unfold CsmcResampling.jProb atSet
  by_cases hm : m = i
  · subst hm
    simp only [Function.update_self, if_true]
    have hsum : ∑ k, Function.update (fun k => (1 - w k / vmax w) / (n : ℝ)) m 0 k
        = 1 - (1 + (1 - w m) / vmax w) / n := by
      rw [Finset.sum_update_of_mem (Finset.mem_univ m), zero_add,
        Finset.sum_sdiff_eq_sub (Finset.subset_univ _), Finset.sum_singleton, ← Finset.sum_div,
        Finset.sum_sub_distrib, ← Finset.sum_div, h.sum_one]
      simp
      field_simp
      ring
    rw [hsum]
    rw [max_eq_left]
    · ring
    · have hw1 : w m ≤ 1 := by
        rw [← h.sum_one]; exact Finset.single_le_sum (fun i _ => h.nonneg i) (Finset.mem_univ m)
      have : 0 ≤ (1 - w m) / vmax w := div_nonneg (by linarith) hM.le
      have : 0 ≤ (1 + (1 - w m) / vmax w) / n := div_nonneg (by linarith) hn.le
      linarith
  · simp [hm]

theorem jProb_weights [NeZero n] {w : Fin n → ℝ} (h : Weights w) (i : Fin n) :
    Weights (CsmcResampling.jProb w i) := by
  have hM := vmax_pos h.nonneg (Weights.total_pos h)
  have hn : (0 : ℝ) < n := by exact_mod_cast Nat.pos_of_ne_zero (NeZero.ne n)
  refine ⟨fun m => ?_, ?_⟩
  · rw [jProb_apply h]
    split_ifs
    · have hw1 : w i ≤ 1 := by
        rw [← h.sum_one]; exact Finset.single_le_sum (fun i _ => h.nonneg i) (Finset.mem_univ i)
      have : 0 ≤ (1 - w i) / vmax w := div_nonneg (by linarith) hM.le
      exact div_nonneg (by linarith) hn.le
    · have h1 : w m / vmax w ≤ 1 := (div_le_one hM).2 (vmax_ge w m)
      exact div_nonneg (by linarith) hn.le
  · have : ∀ m, CsmcResampling.jProb w i m
        = (1 - w m / vmax w) / n + (if m = i then 1 / (n * vmax w) else 0) := by
      intro m
      rw [jProb_apply h]
      split_ifs with hm
      · subst hm; field_simp; ring
      · ring
    simp only [this]
    rw [Finset.sum_add_distrib, ← Finset.sum_div, Finset.sum_sub_distrib, ← Finset.sum_div, h.sum_one,
      Finset.sum_ite_eq', if_pos (Finset.mem_univ _)]
    simp
    field_simp
    ring

/-- Bayes rule for the rotation index. -/
theorem rotation_bayes [NeZero n] {w : Fin n → ℝ} (h : Weights w) (i J : Fin n) :
    ENNReal.ofReal (w i) * ENNReal.ofReal (CsmcResampling.jProb w i J)
      = (n : ℝ≥0∞)⁻¹ * killMass w J i := by
  have hM := vmax_pos h.nonneg (Weights.total_pos h)
  have hn : (0 : ℝ) < n := by exact_mod_cast Nat.pos_of_ne_zero (NeZero.ne n)
  have h1 : w J / vmax w ≤ 1 := (div_le_one hM).2 (vmax_ge w J)
  have h0 : 0 ≤ w J / vmax w := div_nonneg (h.nonneg J) hM.le
  have hninv : (n : ℝ≥0∞)⁻¹ = ENNReal.ofReal ((n : ℝ)⁻¹) := by
    rw [ENNReal.ofReal_inv_of_pos hn, ENNReal.ofReal_natCast]
  unfold killMass
  rw [cat_normalised h, ← ENNReal.ofReal_mul (h.nonneg i), ← ENNReal.ofReal_mul (by linarith), hninv,
    jProb_apply h]
  by_cases hJ : J = i
  · subst hJ
    simp only [if_true]
    rw [← ENNReal.ofReal_add h0 (mul_nonneg (by linarith) (h.nonneg J)),
      ← ENNReal.ofReal_mul (by positivity)]
    congr 1
    field_simp
    ring
  · have : ¬ i = J := fun e => hJ e.symm
    simp only [hJ, this, if_false, zero_add]
    rw [← ENNReal.ofReal_mul (by positivity)]
    congr 1
    field_simp

theorem E_uniformShift [NeZero n] (k : Key) (F : Fin n → ℝ≥0∞) :
    (uniformShift k).E F = ∑ s, (n : ℝ≥0∞)⁻¹ * F s := by
  unfold uniformShift
  rw [Rand.E_sample, lintegral_smul_measure, lintegral_count, tsum_fintype, smul_eq_mul,
    Finset.mul_sum]

theorem E_killing [NeZero n] {w : Fin n → ℝ} (h : Weights w) (k : Key)
    (F : (Fin n → Fin n) → ℝ≥0∞) :
    (Resampling.killing w k).E F = ∑ A, (∏ m, killMass w m (A m)) * F A :=
  E_killingIdx h.nonneg (Weights.total_pos h) _ _ F

theorem E_csmc_killing_cond [NeZero n] {w : Fin n → ℝ} (h : Weights w) (k : Key) (i j : Fin n)
    (F : (Fin n → Fin n) → ℝ≥0∞) :
    (CsmcResampling.killing k w i j true).E F
      = ∑ J, ENNReal.ofReal (CsmcResampling.jProb w i J) *
          ∑ A, (∏ m, killMass w m (A m)) *
            F (roll (Function.update A J i) ((j : ℤ) - (J : ℤ))) := by
  have hj := jProb_weights h i
  have := E_killingIdx h.nonneg (Weights.total_pos h) (split k 3 0) (split k 3 1)
    (fun idx => (choice (split k 3 2) (CsmcResampling.jProb w i)).E fun J =>
      F (atSet (roll idx ((j : ℤ) - (J : ℤ))) j i))
  have e : (CsmcResampling.killing k w i j true).E F = (uniforms (split k 3 0) n >>= fun u =>
      choices (split k 3 1) w n >>= fun c => Rand.ret (Resampling.killingIdx w u c)).E
      (fun idx => (choice (split k 3 2) (CsmcResampling.jProb w i)).E fun J =>
      F (atSet (roll idx ((j : ℤ) - (J : ℤ))) j i)) := by
    unfold CsmcResampling.killing
    simp only [Rand.E_bind, if_true, Rand.pure_eq, Rand.E_ret]
  rw [e, this]
  simp only [E_choice hj.nonneg (Weights.total_pos hj), cat_normalised hj, atSet, roll_update,
    Finset.mul_sum]
  rw [Finset.sum_comm]
  exact Finset.sum_congr rfl fun J _ => Finset.sum_congr rfl fun A _ => by ring

/-- **C01.** Conditional killing is exactly the conditional law of the uniformly shifted
unconditional killing draw given that position `j` holds index `i`. -/
theorem C01_conditional_killing_exact [NeZero n] {w : Fin n → ℝ} (h : Weights w)
    (key k₁ k₂ : Key) (i j : Fin n) :
    IsConditional (ENNReal.ofReal (w i)) (shiftedKilling k₁ k₂ w)
      (CsmcResampling.killing key w i j true) i j := by
  intro F
  have hT := Weights.total_pos h
  rw [E_csmc_killing_cond h, Finset.mul_sum]
  unfold shiftedKilling
  simp only [Rand.E_bind, Rand.pure_eq, Rand.E_ret, E_uniformShift, E_killing h, Finset.mul_sum]
  rw [Finset.sum_comm (s := (Finset.univ : Finset (Fin n → Fin n)))]
  -- reindex the shift `s = j - J`
  refine Fintype.sum_equiv (Equiv.subLeft j) _ _ fun J => ?_
  have hs : ∀ A : Fin n → Fin n, (fun k => A (k - (Equiv.subLeft j) J))
      = roll A ((j : ℤ) - (J : ℤ)) := by
    intro A; funext k; rw [roll_eq]; rfl
  have hJ : j - (Equiv.subLeft j) J = J := by simp [Equiv.subLeft]
  simp only [hs, hJ]
  have := sum_condition (killMass w) J (sum_killMass h.nonneg hT J) i
    (fun A => F (roll A ((j : ℤ) - (J : ℤ))))
  rw [← Finset.mul_sum, ← Finset.mul_sum, ← mul_assoc, rotation_bayes h, mul_assoc, ← this, Finset.mul_sum]
  exact Finset.sum_congr rfl fun A _ => by ring

/-- The event conditioned upon has probability `w i`, so C01 determines the conditional law
whenever `w i > 0`. -/
theorem C01_event_probability [NeZero n] {w : Fin n → ℝ} (h : Weights w)
    (k₁ k₂ : Key) (i j : Fin n) :
    (shiftedKilling k₁ k₂ w).E (fun A => if A j = i then 1 else 0) = ENNReal.ofReal (w i) := by
  have := C01_conditional_killing_exact h [] k₁ k₂ i j (fun _ => 1)
  rw [← this, E_csmc_killing_cond h]
  have hT := Weights.total_pos h
  have hone : ∑ A : Fin n → Fin n, ∏ m, killMass w m (A m) = 1 := by
    have := Finset.prod_univ_sum (fun _ : Fin n => (Finset.univ : Finset (Fin n)))
      (fun m a => killMass w m a)
    rw [Fintype.piFinset_univ] at this
    rw [← this]
    simp [sum_killMass h.nonneg hT]
  simp only [mul_one, hone]
  have hj := jProb_weights h i
  rw [← ENNReal.ofReal_sum_of_nonneg fun m _ => hj.nonneg m, hj.sum_one]
  simp

/-- The hypotheses of C01 are satisfiable by a non-uniform weight vector. -/
example : Weights (![1/2, 1/3, 1/6] : Fin 3 → ℝ) :=
  ⟨fun i => by fin_cases i <;> norm_num, by simp [Fin.sum_univ_succ]; norm_num⟩

/-! ### C05 -/

theorem returns_uniforms {k : Key} {u : Fin n → ℝ} :
    (uniforms k n).Returns u ↔ ∀ i, u i ∈ Set.Ico (0 : ℝ) 1 := Rand.returns_sample

theorem returns_choices [NeZero n] {m : ℕ} {k : Key} {p : Fin n → ℝ} {c : Fin m → Fin n} :
    (choices k p m).Returns c ↔
      ∃ u : Fin m → ℝ, (∀ i, u i ∈ Set.Ico (0 : ℝ) 1) ∧ c = fun i => choiceIdx p (u i) := by
  unfold choices
  rw [Rand.returns_map]
  simp [returns_uniforms]

theorem returns_choice [NeZero n] {k : Key} {p : Fin n → ℝ} {c : Fin n} :
    (choice k p).Returns c ↔ ∃ u ∈ Set.Ico (0 : ℝ) 1, c = choiceIdx p u := by
  unfold choice uniform
  rw [Rand.returns_map]
  simp [Rand.returns_sample]

theorem returns_killing [NeZero n] {w : Fin n → ℝ} {k : Key} {A : Fin n → Fin n} :
    (Resampling.killing w k).Returns A ↔
      ∃ u c, (∀ i, u i ∈ Set.Ico (0 : ℝ) 1) ∧ (choices (split k 3 1) w n).Returns c
        ∧ A = Resampling.killingIdx w u c := by
  unfold Resampling.killing
  rw [Rand.returns_bind]
  constructor
  · rintro ⟨u, hu, h⟩
    obtain ⟨c, hc, h⟩ := Rand.returns_bind.1 h
    exact ⟨u, c, returns_uniforms.1 hu, hc, Rand.returns_ret.1 h⟩
  · rintro ⟨u, c, hu, hc, rfl⟩
    exact ⟨u, returns_uniforms.2 hu, Rand.returns_bind.2 ⟨c, hc, Rand.returns_ret.2 rfl⟩⟩

/-- **C05a.** In every killing draw a particle of maximal (positive) weight stays in place. -/
theorem C05_heaviest_stays [NeZero n] {w : Fin n → ℝ} {key : Key} {A : Fin n → Fin n}
    (hA : (Resampling.killing w key).Returns A) {m : Fin n} (hmax : ∀ i, w i ≤ w m)
    (hpos : 0 < w m) : A m = m := by
  obtain ⟨u, c, hu, -, rfl⟩ := returns_killing.1 hA
  have hM : vmax w = w m :=
    le_antisymm (Finset.sup'_le _ _ fun i _ => hmax i) (vmax_ge w m)
  unfold Resampling.killingIdx
  rw [if_neg]
  rw [hM, not_le]
  have := (hu m).2
  nlinarith

/-- **C05b.** Uniform weights are left untouched by every killing draw. -/
theorem C05_uniform_identity [NeZero n] {w : Fin n → ℝ} {c : ℝ} (hc : 0 < c) (hw : ∀ i, w i = c)
    {key : Key} {A : Fin n → Fin n} (hA : (Resampling.killing w key).Returns A) :
    ∀ m, A m = m :=
  fun m => C05_heaviest_stays hA (fun i => by rw [hw, hw]) (by rw [hw]; exact hc)

/-- **C05c.** Every index in a killing draw has positive weight; in particular a particle of zero
weight never stays and is never copied. -/
theorem C05_never_zero_weight [NeZero n] {w : Fin n → ℝ} (hw : ∀ i, 0 ≤ w i) (hT : 0 < ∑ i, w i)
    {key : Key} {A : Fin n → Fin n} (hA : (Resampling.killing w key).Returns A) (m : Fin n) :
    0 < w (A m) := by
  obtain ⟨u, c, hu, hc, rfl⟩ := returns_killing.1 hA
  obtain ⟨u', hu', rfl⟩ := returns_choices.1 hc
  unfold Resampling.killingIdx
  split_ifs with h
  · exact choiceIdx_pos hw hT (hu' m)
  · push Not at h
    have : 0 ≤ u m * vmax w := mul_nonneg (hu m).1 (vmax_pos hw hT).le
    linarith

/-- The unconditional branch of the csmc `killing` is the same program. -/
theorem C05_csmc_killing_unconditional [NeZero n] (w : Fin n → ℝ) (key : Key) (i j : Fin n) :
    CsmcResampling.killing key w i j false = Resampling.killing w key := rfl

example : ∃ A, (Resampling.killing (![1/2, 1/2] : Fin 2 → ℝ) []).Returns A :=
  ⟨_, returns_killing.2 ⟨fun _ => 0, _, fun _ => by simp, returns_choices.2 ⟨fun _ => 0, fun _ => by simp, rfl⟩, rfl⟩⟩

/-! ### C06 -/

/-- **C06a.** Conditional killing always puts `i` at position `j`. -/
theorem C06_killing_pins [NeZero n] {w : Fin n → ℝ} {key : Key} {i j : Fin n} {A : Fin n → Fin n}
    (hA : (CsmcResampling.killing key w i j true).Returns A) : A j = i := by
  unfold CsmcResampling.killing at hA
  obtain ⟨u, -, h⟩ := Rand.returns_bind.1 hA
  obtain ⟨c, -, h⟩ := Rand.returns_bind.1 h
  simp only [if_true] at h
  obtain ⟨J, -, h⟩ := Rand.returns_bind.1 h
  rw [Rand.pure_eq, Rand.returns_ret] at h
  rw [h]; simp [atSet]

/-- **C06b.** Conditional multinomial resampling always puts `i` at position `j`. -/
theorem C06_multinomial_pins [NeZero n] {w : Fin n → ℝ} {key : Key} {i j : Fin n}
    {A : Fin n → Fin n} (hA : (CsmcResampling.multinomial key w i j true).Returns A) : A j = i := by
  unfold CsmcResampling.multinomial at hA
  obtain ⟨u, -, h⟩ := Rand.returns_bind.1 hA
  rw [Rand.pure_eq, Rand.returns_ret] at h
  rw [h]; simp [atSet]

theorem E_csmc_multinomial [NeZero n] {w : Fin n → ℝ} (h : Weights w) (k : Key) (i j : Fin n)
    (b : Bool) (F : (Fin n → Fin n) → ℝ≥0∞) :
    (CsmcResampling.multinomial k w i j b).E F
      = ∑ A : Fin n → Fin n, (∏ m, ENNReal.ofReal (w (A m))) *
          F (if b then Function.update A j i else A) := by
  unfold CsmcResampling.multinomial
  simp only [Rand.E_bind, Rand.pure_eq, Rand.E_ret, E_choices h.nonneg (Weights.total_pos h), atSet,
    cat_normalised h]

/-- **C06c.** Conditional multinomial resampling is exactly the unconditional law given
`A j = i`. -/
theorem C06_conditional_multinomial_exact [NeZero n] {w : Fin n → ℝ} (h : Weights w)
    (key key' : Key) (i j i' j' : Fin n) :
    IsConditional (ENNReal.ofReal (w i)) (CsmcResampling.multinomial key' w i' j' false)
      (CsmcResampling.multinomial key w i j true) i j := by
  intro F
  rw [E_csmc_multinomial h, E_csmc_multinomial h]
  simp only [if_true, Bool.false_eq_true, if_false]
  have hsum : ∑ a, ENNReal.ofReal (w a) = 1 := by
    rw [← ENNReal.ofReal_sum_of_nonneg fun m _ => h.nonneg m, h.sum_one]; simp
  rw [sum_condition (fun (_ : Fin n) a => ENNReal.ofReal (w a)) j hsum i F]

/-- **C06d.** Conditional systematic resampling refuses, whatever the inputs. -/
theorem C06_conditional_systematic_refuses (key : Key) (w : Fin n → ℝ) (i j : Fin n) :
    ∃ msg, CsmcResampling.systematic key w i j true
      = .error (CsmcResampling.Err.notImplemented msg) := ⟨_, rfl⟩

/-- ... and the unconditional branch never refuses. -/
theorem C06_standard_systematic_ok (key : Key) (w : Fin n → ℝ) (i j : Fin n) :
    ∃ p, CsmcResampling.systematic key w i j false = .ok p := ⟨_, rfl⟩

end Props
end Fbs
