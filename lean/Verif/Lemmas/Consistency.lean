import Verif.Lemmas.Filters
import Verif.Spec.Consistency
import Mathlib.MeasureTheory.Integral.Pi
import Mathlib.Probability.Moments.Variance

/-! Helper lemmas for the mean square error of the filters. -/

open MeasureTheory ProbabilityTheory
open scoped ENNReal

namespace Fbs

open Jax Spec Smc Csmc

/-! ### Sums of independent bounded variables -/

/-- Mean square deviation of a weighted sum of independent variables in `[0, M]` from a point. -/
theorem integral_pi_sq_le {ι : Type} [Fintype ι] {Ω : ι → Type} [∀ i, MeasurableSpace (Ω i)]
    (μ : ∀ i, Measure (Ω i)) [∀ i, IsProbabilityMeasure (μ i)] {f : ∀ i, Ω i → ℝ}
    (hf : ∀ i, Measurable (f i)) {M : ℝ} (h0 : ∀ i x, 0 ≤ f i x) (h1 : ∀ i x, f i x ≤ M) (w : ι → ℝ) (a : ℝ) :
    Integrable (fun x => (∑ i, w i * f i (x i) - a) ^ 2) (Measure.pi μ) ∧
    ∫ x, (∑ i, w i * f i (x i) - a) ^ 2 ∂(Measure.pi μ)
      ≤ M ^ 2 * ∑ i, w i ^ 2 + (∑ i, w i * ∫ x, f i x ∂(μ i) - a) ^ 2 := by
  let X : ∀ i, Ω i → ℝ := fun i x => w i * f i x
  have hL : ∀ i, MemLp (X i) 2 (μ i) := fun i =>
    (memLp_of_bounded (a := 0) (b := M) (Filter.Eventually.of_forall fun x => ⟨h0 i x, h1 i x⟩)
      (hf i).aestronglyMeasurable 2).const_mul (w i)
  let Y : (∀ i, Ω i) → ℝ := ∑ i, fun x => X i (x i)
  have hY : MemLp Y 2 (Measure.pi μ) :=
    memLp_finsetSum' _ fun i _ => (hL i).comp_measurePreserving (measurePreserving_eval _ i)
  have hmean : ∫ x, Y x ∂(Measure.pi μ) = ∑ i, w i * ∫ x, f i x ∂(μ i) := by
    simp only [Y, Finset.sum_apply]
    rw [integral_finsetSum]
    · refine Finset.sum_congr rfl fun i _ => ?_
      rw [← integral_const_mul]
      exact integral_comp_eval (hL i).aestronglyMeasurable
    · exact fun i _ => ((hL i).comp_measurePreserving (measurePreserving_eval _ i)).integrable one_le_two
  have hvar : Var[Y; Measure.pi μ] ≤ M ^ 2 * ∑ i, w i ^ 2 := by
    rw [show Y = ∑ i, fun x => X i (x i) from rfl, variance_sum_pi hL, Finset.mul_sum]
    refine Finset.sum_le_sum fun i _ => ?_
    have e : X i = fun x => w i * f i x := rfl
    rw [e, variance_const_mul, mul_comm]
    refine mul_le_mul_of_nonneg_right ?_ (sq_nonneg _)
    have := variance_le_sq_of_bounded (μ := μ i) (a := 0) (b := M)
      (Filter.Eventually.of_forall fun x => ⟨h0 i x, h1 i x⟩) (hf i).aemeasurable
    nlinarith [sq_nonneg M]
  have hYa : MemLp (fun x => Y x - a) 2 (Measure.pi μ) := hY.sub (memLp_const a)
  have hsq : ∫ x, (Y x - a) ^ 2 ∂(Measure.pi μ)
      = Var[Y; Measure.pi μ] + (∑ i, w i * ∫ x, f i x ∂(μ i) - a) ^ 2 := by
    have h := variance_eq_sub hYa
    rw [variance_sub_const hY.aestronglyMeasurable] at h
    rw [integral_sub (hY.integrable one_le_two) (integrable_const a), hmean] at h
    simp only [integral_const, probReal_univ, smul_eq_mul, one_mul] at h
    rw [h]
    simp only [Pi.pow_apply]
    ring
  have e : ∀ x : ∀ i, Ω i, ∑ i, w i * f i (x i) = Y x := fun x => by simp [Y, X]
  simp only [e]
  refine ⟨hYa.integrable_sq, ?_⟩
  rw [hsq]
  linarith

/-- The same for several sums at once. -/
theorem lintegral_pi_sq_le {J ι : Type} [Fintype J] [Fintype ι] {Ω : ι → Type} [∀ i, MeasurableSpace (Ω i)]
    (μ : ∀ i, Measure (Ω i)) [∀ i, IsProbabilityMeasure (μ i)] {f : J → ∀ i, Ω i → ℝ}
    (hf : ∀ j i, Measurable (f j i)) {M : ℝ} (h0 : ∀ j i x, 0 ≤ f j i x) (h1 : ∀ j i x, f j i x ≤ M) (w : ι → ℝ)
    (a : J → ℝ) (s d : ℝ) (hs : 0 ≤ s) (hd : 0 ≤ d) :
    ∫⁻ x, ENNReal.ofReal (s * ∑ j, (∑ i, w i * f j i (x i) - a j) ^ 2 + d) ∂(Measure.pi μ)
      ≤ ENNReal.ofReal (s * (Fintype.card J * (M ^ 2 * ∑ i, w i ^ 2)
          + ∑ j, (∑ i, w i * ∫ x, f j i x ∂(μ i) - a j) ^ 2) + d) := by
  have h := fun j => integral_pi_sq_le μ (hf j) (h0 j) (h1 j) w (a j)
  have hint := (integrable_finsetSum Finset.univ fun j _ => (h j).1).const_mul s
  have hsum : Integrable (fun x : ∀ i, Ω i => s * ∑ j, (∑ i, w i * f j i (x i) - a j) ^ 2 + d) (Measure.pi μ) :=
    hint.add (integrable_const d)
  rw [← ofReal_integral_eq_lintegral_ofReal hsum
    (Filter.Eventually.of_forall fun x =>
      add_nonneg (mul_nonneg hs (Finset.sum_nonneg fun j _ => sq_nonneg _)) hd)]
  refine ENNReal.ofReal_le_ofReal ?_
  rw [integral_add hint (integrable_const d), integral_const_mul, integral_finsetSum _ fun j _ => (h j).1]
  simp only [integral_const, probReal_univ, smul_eq_mul, one_mul]
  refine add_le_add (mul_le_mul_of_nonneg_left ?_ hs) le_rfl
  refine (Finset.sum_le_sum fun j _ => (h j).2).trans (le_of_eq ?_)
  rw [Finset.sum_add_distrib]
  simp

/-! ### Resampling -/

variable {U V : Type} {N : ℕ}

theorem hasLaw_ofReal {α : Type} [Fintype α] {p : Rand α} {q : α → ℝ≥0∞} (h : HasLaw p q) (hq : ∑ a, q a = 1)
    {f : α → ℝ} (hf : ∀ a, 0 ≤ f a) :
    p.E (fun a => ENNReal.ofReal (f a)) = ENNReal.ofReal (∑ a, (q a).toReal * f a) := by
  have hfin : ∀ a, q a ≠ ∞ := fun a => ne_top_of_le_ne_top ENNReal.one_ne_top
    (hq ▸ Finset.single_le_sum (f := q) (fun _ _ => zero_le) (Finset.mem_univ a))
  rw [h, ENNReal.ofReal_sum_of_nonneg fun a _ => mul_nonneg ENNReal.toReal_nonneg (hf a)]
  refine Finset.sum_congr rfl fun a _ => ?_
  rw [ENNReal.ofReal_mul ENNReal.toReal_nonneg, ENNReal.ofReal_toReal (hfin a)]

theorem E_res_one [NeZero N] {res : Smc.Resampling N} (hres : UnbiasedSums res) {w : Fin N → ℝ} (hw : Weights w)
    (k : Key) : (res w k).E (fun _ => 1) = 1 := by
  have h := hres w k hw fun _ => 1
  have hs : ∑ i, ENNReal.ofReal (w i) = 1 := by
    rw [← ENNReal.ofReal_sum_of_nonneg fun i _ => hw.nonneg i, hw.sum_one, ENNReal.ofReal_one]
  simp only [Finset.sum_const, Finset.card_univ, Fintype.card_fin, nsmul_eq_mul, mul_one, hs] at h
  have h2 := Rand.E_const_mul (res w k) (c := (N : ℝ≥0∞)) (by simp) fun _ => 1
  simp only [mul_one] at h2
  rw [h2] at h
  have hN : (N : ℝ≥0∞) ≠ 0 := by simp [NeZero.ne N]
  calc (res w k).E (fun _ => 1) = (N : ℝ≥0∞)⁻¹ * (N * (res w k).E fun _ => 1) := by
        rw [← mul_assoc, ENNReal.inv_mul_cancel hN (by simp), one_mul]
    _ = 1 := by rw [h, ENNReal.inv_mul_cancel hN (by simp)]

/-- Mean square deviation of the mean over the selected particles from any point. -/
theorem res_sq_le [NeZero N] {res : Smc.Resampling N} (hres : UnbiasedSums res)
    {w : Fin N → ℝ} (hw : Weights w) (k : Key) {q : (Fin N → Fin N) → ℝ≥0∞} (hq : HasLaw (res w k) q)
    (hq1 : ∑ A, q A = 1) (hqr : ∑ A, (q A).toReal = 1)
    (hv : ∀ c : Fin N → ℝ, (∀ i, 0 ≤ c i ∧ c i ≤ 1) →
      (res w k).E (fun A => ENNReal.ofReal (((∑ j, c (A j)) / N - ∑ i, w i * c i) ^ 2)) ≤ ENNReal.ofReal (1 / N))
    {c : Fin N → ℝ} {M : ℝ} (h0 : ∀ i, 0 ≤ c i) (h1 : ∀ i, c i ≤ M) (a : ℝ) :
    ∑ A, (q A).toReal * ((∑ j, c (A j)) / N - a) ^ 2 ≤ M ^ 2 / N + (∑ i, w i * c i - a) ^ 2 := by
  have hN : (0 : ℝ) < N := by exact_mod_cast Nat.pos_of_ne_zero (NeZero.ne N)
  have hM : 0 ≤ M := (h0 0).trans (h1 0)
  set μ := ∑ i, w i * c i with hμ
  -- the mean is unbiased
  have hmean : ∑ A, (q A).toReal * ((∑ j, c (A j)) / N) = μ := by
    have h := hres w k hw fun i => ENNReal.ofReal (c i)
    have e1 : ∀ A : Fin N → Fin N, ∑ j, ENNReal.ofReal (c (A j)) = ENNReal.ofReal (∑ j, c (A j)) := fun A =>
      (ENNReal.ofReal_sum_of_nonneg fun j _ => h0 _).symm
    have e2 : (N : ℝ≥0∞) * ∑ i, ENNReal.ofReal (w i) * ENNReal.ofReal (c i) = ENNReal.ofReal (N * μ) := by
      rw [ENNReal.ofReal_mul hN.le, ENNReal.ofReal_natCast, hμ,
        ENNReal.ofReal_sum_of_nonneg fun i _ => mul_nonneg (hw.nonneg i) (h0 i)]
      simp only [ENNReal.ofReal_mul (hw.nonneg _)]
    simp only [e1] at h
    rw [hasLaw_ofReal hq hq1 fun A => Finset.sum_nonneg fun j _ => h0 _, e2] at h
    have hnn : 0 ≤ ∑ A, (q A).toReal * ∑ j, c (A j) :=
      Finset.sum_nonneg fun A _ => mul_nonneg ENNReal.toReal_nonneg (Finset.sum_nonneg fun j _ => h0 _)
    have hμ0 : 0 ≤ N * μ := mul_nonneg hN.le (Finset.sum_nonneg fun i _ => mul_nonneg (hw.nonneg i) (h0 i))
    have h3 := (ENNReal.ofReal_eq_ofReal_iff hnn hμ0).1 h
    have : ∑ A, (q A).toReal * ((∑ j, c (A j)) / N) = (∑ A, (q A).toReal * ∑ j, c (A j)) / N := by
      rw [Finset.sum_div]
      exact Finset.sum_congr rfl fun A _ => by ring
    rw [this, h3]
    field_simp
  have hvr : ∑ A, (q A).toReal * ((∑ j, c (A j)) / N - μ) ^ 2 ≤ M ^ 2 / N := by
    rcases hM.eq_or_lt with hM0 | hM0
    · have hc : ∀ i, c i = 0 := fun i => le_antisymm (by rw [hM0]; exact h1 i) (h0 i)
      simp [hμ, hc, ← hM0]
    · have h := hv (fun i => c i / M) fun i => ⟨div_nonneg (h0 i) hM0.le, (div_le_one hM0).2 (h1 i)⟩
      rw [hasLaw_ofReal hq hq1 fun A => sq_nonneg _, ENNReal.ofReal_le_ofReal_iff (by positivity)] at h
      have e : ∀ A : Fin N → Fin N, (q A).toReal * ((∑ j, c (A j) / M) / N - ∑ i, w i * (c i / M)) ^ 2
          = (q A).toReal * ((∑ j, c (A j)) / N - μ) ^ 2 / M ^ 2 := by
        intro A
        have e1 : ∑ i, w i * (c i / M) = μ / M := by
          rw [hμ, Finset.sum_div]; exact Finset.sum_congr rfl fun i _ => by ring
        rw [← Finset.sum_div, e1]
        field_simp
      simp only [e] at h
      rw [← Finset.sum_div, div_le_iff₀ (by positivity)] at h
      calc _ ≤ 1 / N * M ^ 2 := h
        _ = _ := by ring
  have e : ∀ A : Fin N → Fin N, (q A).toReal * ((∑ j, c (A j)) / N - a) ^ 2
      = (q A).toReal * ((∑ j, c (A j)) / N - μ) ^ 2
        + 2 * (μ - a) * ((q A).toReal * ((∑ j, c (A j)) / N))
        + (q A).toReal * ((μ - a) ^ 2 - 2 * (μ - a) * μ) := fun A => by ring
  simp only [e, Finset.sum_add_distrib, ← Finset.mul_sum, ← Finset.sum_mul, hqr, hmean]
  linarith

/-- The same for several functions at once. -/
theorem E_res_sq [NeZero N] {J : Type} [Fintype J] {res : Smc.Resampling N} (hres : UnbiasedSums res)
    (hvar : SmallVariance res) {w : Fin N → ℝ} (hw : Weights w) (k : Key) {c : J → Fin N → ℝ} {M : ℝ}
    (h0 : ∀ j i, 0 ≤ c j i) (h1 : ∀ j i, c j i ≤ M) (a : J → ℝ) (s d : ℝ) (hs : 0 ≤ s) (hd : 0 ≤ d) :
    (res w k).E (fun A => ENNReal.ofReal (s * ∑ r, ((∑ j, c r (A j)) / N - a r) ^ 2 + d))
      ≤ ENNReal.ofReal (s * (Fintype.card J * (M ^ 2 / N) + ∑ r, (∑ i, w i * c r i - a r) ^ 2) + d) := by
  obtain ⟨q, hq, hv⟩ := hvar w k hw
  have hq1 : ∑ A, q A = 1 := by
    have := hq fun _ => 1
    simpa [E_res_one hres hw k] using this.symm
  have hqr : ∑ A, (q A).toReal = 1 := by
    have := hasLaw_ofReal hq hq1 (f := fun _ => 1) fun _ => zero_le_one
    simp only [ENNReal.ofReal_one, E_res_one hres hw k, mul_one] at this
    have h2 := congrArg ENNReal.toReal this
    rw [ENNReal.toReal_ofReal (Finset.sum_nonneg fun _ _ => ENNReal.toReal_nonneg)] at h2
    simpa using h2.symm
  rw [hasLaw_ofReal hq hq1 fun A =>
    add_nonneg (mul_nonneg hs (Finset.sum_nonneg fun r _ => sq_nonneg _)) hd]
  refine ENNReal.ofReal_le_ofReal ?_
  have e : ∀ A : Fin N → Fin N, (q A).toReal * (s * ∑ r, ((∑ j, c r (A j)) / N - a r) ^ 2 + d)
      = s * ∑ r, (q A).toReal * ((∑ j, c r (A j)) / N - a r) ^ 2 + (q A).toReal * d := fun A => by
    rw [← Finset.mul_sum]; ring
  simp only [e, Finset.sum_add_distrib, ← Finset.sum_mul, hqr, one_mul]
  rw [← Finset.mul_sum]
  refine add_le_add (mul_le_mul_of_nonneg_left ?_ hs) le_rfl
  rw [Finset.sum_comm]
  refine (Finset.sum_le_sum fun r _ => res_sq_le hres hw k hq hq1 hqr hv (h0 r) (h1 r) (a r)).trans (le_of_eq ?_)
  rw [Finset.sum_add_distrib]
  simp

/-! ### One step -/

variable [MeasurableSpace U]

theorem estimate_update [NeZero N] (lw : Fin N → ℝ) (l : ℝ) :
    Real.exp (-(l - (logsumexp lw - Real.log N))) = Real.exp (-l) * ((∑ i, Real.exp (lw i)) / N) := by
  have hN : (0 : ℝ) < N := by exact_mod_cast Nat.pos_of_ne_zero (NeZero.ne N)
  rw [show -(l - (logsumexp lw - Real.log N)) = -l + logsumexp lw - Real.log N by ring, Real.exp_sub, Real.exp_add, Real.exp_log hN]
  unfold logsumexp
  rw [Real.exp_log (sum_exp_pos lw)]
  ring

theorem estimate_weight [NeZero N] (lw : Fin N → ℝ) (l : ℝ) (i : Fin N) :
    Real.exp (-(l - (logsumexp lw - Real.log N))) * Real.exp (lw i - logsumexp lw)
      = Real.exp (-l) * (Real.exp (lw i) / N) := by
  have hN : (0 : ℝ) < N := by exact_mod_cast Nat.pos_of_ne_zero (NeZero.ne N)
  rw [← Real.exp_add, show -(l - (logsumexp lw - Real.log N)) + (lw i - logsumexp lw)
    = -l + (lw i - Real.log N) by ring, Real.exp_add, Real.exp_sub, Real.exp_log hN]

/-- The real arithmetic of one step: collecting the contributions of resampling and transition. -/
theorem step_arith [NeZero N] {J : Type} [Fintype J] {lw : Fin N → ℝ} {b : ℝ} (hb : ∀ i, lw i ≤ b) (l : ℝ) (a : J → ℝ)
    (M d e : ℝ) (hd : 0 ≤ d) (h : J → Fin N → ℝ) {r : ℝ}
    (hr : r ≤ 1 / N ∨ r ≤ ∑ i, Real.exp (lw i - logsumexp lw) ^ 2) :
    let L1 := Real.exp (-(l - (logsumexp lw - Real.log N)))
    L1 ^ 2 * (Fintype.card J * (M ^ 2 * r) + ∑ j, (∑ i, Real.exp (lw i - logsumexp lw) * h j i - a j / L1) ^ 2)
        + (L1 ^ 2 * (Fintype.card J * (M ^ 2 / N)) + (d * L1 ^ 2 + e))
      ≤ ∑ j, (Real.exp (-l) * ((∑ i, Real.exp (lw i) * h j i) / N) - a j) ^ 2
        + (Fintype.card J * (2 * M ^ 2 / N) + d) * (Real.exp b ^ 2 * Real.exp (-l) ^ 2) + e := by
  intro L1
  have hN : (0 : ℝ) < N := by exact_mod_cast Nat.pos_of_ne_zero (NeZero.ne N)
  have hL : 0 < L1 := Real.exp_pos _
  have hL1 : L1 ≤ Real.exp b * Real.exp (-l) := by
    show Real.exp _ ≤ _
    rw [estimate_update, mul_comm]
    refine mul_le_mul_of_nonneg_right ?_ (Real.exp_pos _).le
    rw [div_le_iff₀ hN]
    calc ∑ i, Real.exp (lw i) ≤ ∑ _i : Fin N, Real.exp b :=
          Finset.sum_le_sum fun i _ => Real.exp_le_exp.2 (hb i)
      _ = _ := by simp [mul_comm]
  have hL2 : L1 ^ 2 ≤ Real.exp b ^ 2 * Real.exp (-l) ^ 2 := by
    rw [← mul_pow]; exact pow_le_pow_left₀ hL.le hL1 2
  have h1 : L1 ^ 2 * ∑ j, (∑ i, Real.exp (lw i - logsumexp lw) * h j i - a j / L1) ^ 2
      = ∑ j, (Real.exp (-l) * ((∑ i, Real.exp (lw i) * h j i) / N) - a j) ^ 2 := by
    rw [Finset.mul_sum]
    refine Finset.sum_congr rfl fun j _ => ?_
    rw [← mul_pow, mul_sub, mul_div_cancel₀ _ hL.ne', Finset.mul_sum, Finset.sum_div, Finset.mul_sum]
    congr 2
    refine Finset.sum_congr rfl fun i _ => ?_
    rw [← mul_assoc, estimate_weight]
    ring
  have h2 : L1 ^ 2 * r ≤ (Real.exp b ^ 2 * Real.exp (-l) ^ 2) / N := by
    rcases hr with hr | hr
    · calc L1 ^ 2 * r ≤ L1 ^ 2 * (1 / N) := mul_le_mul_of_nonneg_left hr (sq_nonneg _)
        _ ≤ (Real.exp b ^ 2 * Real.exp (-l) ^ 2) * (1 / N) :=
            mul_le_mul_of_nonneg_right hL2 (by positivity)
        _ = _ := by ring
    · calc L1 ^ 2 * r ≤ L1 ^ 2 * ∑ i, Real.exp (lw i - logsumexp lw) ^ 2 :=
            mul_le_mul_of_nonneg_left hr (sq_nonneg _)
        _ = ∑ i, (Real.exp (-l) * (Real.exp (lw i) / N)) ^ 2 := by
            rw [Finset.mul_sum]
            exact Finset.sum_congr rfl fun i _ => by rw [← mul_pow, estimate_weight]
        _ ≤ ∑ _i : Fin N, (Real.exp (-l) * (Real.exp b / N)) ^ 2 := by
            refine Finset.sum_le_sum fun i _ => pow_le_pow_left₀ (by positivity) ?_ 2
            have := Real.exp_le_exp.2 (hb i)
            gcongr
        _ = _ := by
            simp only [Finset.sum_const, Finset.card_univ, Fintype.card_fin, nsmul_eq_mul]
            field_simp
  set c : ℝ := (Fintype.card J : ℝ)
  have hc : 0 ≤ c := Nat.cast_nonneg _
  have h3 := mul_le_mul_of_nonneg_left h2 (mul_nonneg hc (sq_nonneg M))
  have h4 : L1 ^ 2 * (c * (M ^ 2 / N)) ≤ (Real.exp b ^ 2 * Real.exp (-l) ^ 2) * (c * (M ^ 2 / N)) :=
    mul_le_mul_of_nonneg_right hL2 (by positivity)
  have h5 := mul_le_mul_of_nonneg_left hL2 hd
  calc _ = c * M ^ 2 * (L1 ^ 2 * r)
        + L1 ^ 2 * ∑ j, (∑ i, Real.exp (lw i - logsumexp lw) * h j i - a j / L1) ^ 2
        + L1 ^ 2 * (c * (M ^ 2 / N)) + d * L1 ^ 2 + e := by ring
    _ ≤ c * M ^ 2 * ((Real.exp b ^ 2 * Real.exp (-l) ^ 2) / N)
        + ∑ j, (Real.exp (-l) * ((∑ i, Real.exp (lw i) * h j i) / N) - a j) ^ 2
        + (Real.exp b ^ 2 * Real.exp (-l) ^ 2) * (c * (M ^ 2 / N))
        + d * (Real.exp b ^ 2 * Real.exp (-l) ^ 2) + e := by
        rw [h1]; linarith
    _ = _ := by ring

theorem sq_factor {J : Type} [Fintype J] {L : ℝ} (hL : 0 < L) (X a : J → ℝ) (d e : ℝ) :
    ∑ j, (L * X j - a j) ^ 2 + d * L ^ 2 + e = L ^ 2 * ∑ j, (X j - a j / L) ^ 2 + (d * L ^ 2 + e) := by
  rw [Finset.mul_sum, add_assoc]
  congr 1
  refine Finset.sum_congr rfl fun j _ => ?_
  field_simp

/-- One step of the bootstrap filter in mean square. -/
theorem E_filterBody_sq [NeZero N] {ο J : Type} [Fintype J] {m : Smc.Funs N U V} {S : StateSpace U V} {v0 : V}
    (hm : SmcImplements m S v0) {res : Smc.Resampling N} (hres : UnbiasedSums res) (hvar : SmallVariance res)
    (emit : (Fin N → U) → ο) {H : J → U → ℝ} (hH : ∀ j, Measurable (H j)) {M b : ℝ} (h0 : ∀ j u, 0 ≤ H j u)
    (h1 : ∀ j u, H j u ≤ M) (v v' : V) (t : ℝ) (hb : ∀ u, S.logG v v' t u ≤ b) (x : Fin N → U) (l : ℝ) (k : Key)
    (a : J → ℝ) (d e : ℝ) (hd : 0 ≤ d) (he : 0 ≤ e) :
    (filterBody m res emit (x, l) (v, v', t, k)).E
        (fun r => ENNReal.ofReal (∑ j, (Real.exp (-r.1.2) * ((∑ i, H j (r.1.1 i)) / N) - a j) ^ 2
          + d * Real.exp (-r.1.2) ^ 2 + e))
      ≤ ENNReal.ofReal (∑ j, (Real.exp (-l) * ((∑ i, Real.exp (S.logG v v' t (x i)) *
          ∫ u, H j u ∂(S.trans v' t (x i))) / N) - a j) ^ 2
          + (Fintype.card J * (2 * M ^ 2 / N) + d) * (Real.exp b ^ 2 * Real.exp (-l) ^ 2) + e) := by
  have hlik : m.lik v x v' t = fun i => S.logG v v' t (x i) := funext fun i => hm.lik v x v' t i
  simp only [filterBody, Rand.E_bind, Rand.pure_eq, Rand.E_ret, take]
  rw [hlik]
  set lw : Fin N → ℝ := fun i => S.logG v v' t (x i) with hlw
  set L1 := Real.exp (-(l - (logsumexp lw - Real.log N))) with hL1
  have hL : 0 < L1 := Real.exp_pos _
  simp only [sq_factor hL]
  have hr : ∀ us : Fin N → U, _ := fun us =>
    E_res_sq hres hvar (normalise_weights lw) (split k 2 1) (c := fun j i => H j (us i)) (M := M) (fun j i => h0 _ _)
      (fun j i => h1 _ _) (fun j => a j / L1) (L1 ^ 2) (d * L1 ^ 2 + e) (sq_nonneg _) (by positivity)
  refine (Rand.E_mono _ hr).trans ?_
  have e1 : ∀ us : Fin N → U, L1 ^ 2 * (Fintype.card J * (M ^ 2 / N)
        + ∑ j, (∑ i, normalise lw i * H j (us i) - a j / L1) ^ 2) + (d * L1 ^ 2 + e)
      = L1 ^ 2 * ∑ j, (∑ i, normalise lw i * H j (us i) - a j / L1) ^ 2
        + (L1 ^ 2 * (Fintype.card J * (M ^ 2 / N)) + (d * L1 ^ 2 + e)) := fun us => by
    ring
  simp only [e1]
  have hmeas : Measurable fun us : Fin N → U => ENNReal.ofReal
      (L1 ^ 2 * ∑ j, (∑ i, normalise lw i * H j (us i) - a j / L1) ^ 2
        + (L1 ^ 2 * (Fintype.card J * (M ^ 2 / N)) + (d * L1 ^ 2 + e))) := by
    have : ∀ j, Measurable fun us : Fin N → U => ∑ i, normalise lw i * H j (us i) := fun j =>
      Finset.measurable_fun_sum _ fun i _ => ((hH j).comp (measurable_pi_apply i)).const_mul _
    fun_prop
  rw [hm.trans _ _ _ _ _ hmeas]
  refine (lintegral_pi_sq_le (fun i => S.trans v' t (x i)) (f := fun j _ => H j) (fun j _ => hH j) (fun j _ => h0 j)
    (fun j _ => h1 j) _ _ _ _ (sq_nonneg _) (by positivity)).trans ?_
  exact ENNReal.ofReal_le_ofReal (step_arith (fun i => hb (x i)) l a M d _ hd _ (Or.inr le_rfl))

/-- One step of the pseudo-marginal filter in mean square. -/
theorem E_pmcmcBody_sq [NeZero N] {J : Type} [Fintype J] {m : Smc.Funs N U V} {S : StateSpace U V} {v0 : V}
    (hm : SmcImplements m S v0) {res : Smc.Resampling N} (hres : UnbiasedSums res) (hvar : SmallVariance res)
    {H : J → U → ℝ} (hH : ∀ j, Measurable (H j)) {M b : ℝ} (h0 : ∀ j u, 0 ≤ H j u)
    (h1 : ∀ j u, H j u ≤ M) (v v' : V) (t : ℝ) (hb : ∀ u, S.logG v v' t u ≤ b) (x : Fin N → U) (l : ℝ) (k : Key)
    (a : J → ℝ) (d e : ℝ) (hd : 0 ≤ d) (he : 0 ≤ e) :
    (pmcmcBody m res (x, l) (v, v', t, k)).E
        (fun r => ENNReal.ofReal (∑ j, (Real.exp r.1.2 * ((∑ i, H j (r.1.1 i)) / N) - a j) ^ 2
          + d * Real.exp r.1.2 ^ 2 + e))
      ≤ ENNReal.ofReal (∑ j, (Real.exp l * ((∑ i, Real.exp (S.logG v v' t (x i)) *
          ∫ u, H j u ∂(S.trans v' t (x i))) / N) - a j) ^ 2
          + (Fintype.card J * (2 * M ^ 2 / N) + d) * (Real.exp b ^ 2 * Real.exp l ^ 2) + e) := by
  have hN : (0 : ℝ) < N := by exact_mod_cast Nat.pos_of_ne_zero (NeZero.ne N)
  have hlik : m.lik v x v' t = fun i => S.logG v v' t (x i) := funext fun i => hm.lik v x v' t i
  simp only [pmcmcBody, Rand.E_bind, Rand.pure_eq, Rand.E_ret]
  rw [hlik]
  set lw : Fin N → ℝ := fun i => S.logG v v' t (x i) with hlw
  have hl1 : l - Real.log N + logsumexp lw = -(-l - (logsumexp lw - Real.log N)) := by ring
  rw [hl1]
  set L1 := Real.exp (-(-l - (logsumexp lw - Real.log N))) with hL1
  have hL : 0 < L1 := Real.exp_pos _
  simp only [sq_factor hL]
  let P : J → U → ℝ := fun j u => ∫ u', H j u' ∂(S.trans v' t u)
  have hP0 : ∀ j u, 0 ≤ P j u := fun j u => integral_nonneg (h0 j)
  have hint : ∀ j u, Integrable (H j) (S.trans v' t u) := fun j u =>
    Integrable.of_bound (hH j).aestronglyMeasurable M
      (Filter.Eventually.of_forall fun x => by rw [Real.norm_eq_abs, abs_of_nonneg (h0 j x)]; exact h1 j x)
  have hP1 : ∀ j u, P j u ≤ M := fun j u => by
    have := integral_mono (hint j u) (integrable_const M) (h1 j)
    simpa using this
  have ht : ∀ A : Fin N → Fin N, (m.transSampler (take x A) v' t (split k 2 0)).E
      (fun us => ENNReal.ofReal (L1 ^ 2 * ∑ j, ((∑ i, H j (us i)) / N - a j / L1) ^ 2 + (d * L1 ^ 2 + e)))
      ≤ ENNReal.ofReal (L1 ^ 2 * ∑ j, ((∑ i, P j (x (A i))) / N - a j / L1) ^ 2
        + (L1 ^ 2 * (Fintype.card J * (M ^ 2 / N)) + (d * L1 ^ 2 + e))) := by
    intro A
    have hmeas : Measurable fun us : Fin N → U => ENNReal.ofReal
        (L1 ^ 2 * ∑ j, ((∑ i, H j (us i)) / N - a j / L1) ^ 2 + (d * L1 ^ 2 + e)) := by
      have : ∀ j, Measurable fun us : Fin N → U => ∑ i, H j (us i) := fun j =>
        Finset.measurable_fun_sum _ fun i _ => (hH j).comp (measurable_pi_apply i)
      fun_prop
    rw [hm.trans _ _ _ _ _ hmeas]
    have e1 : ∀ j, ∀ us : Fin N → U, (∑ i, H j (us i)) / N = ∑ i, (1 / (N : ℝ)) * H j (us i) := fun j us => by
      rw [← Finset.mul_sum]; ring
    simp only [e1]
    refine (lintegral_pi_sq_le (fun i => S.trans v' t (take x A i)) (f := fun j _ => H j) (fun j _ => hH j)
      (fun j _ => h0 j) (fun j _ => h1 j) _ _ _ _ (sq_nonneg _) (by positivity)).trans
        (ENNReal.ofReal_le_ofReal (le_of_eq ?_))
    have e2 : ∑ _i : Fin N, ((1 : ℝ) / N) ^ 2 = (1 : ℝ) / N := by
      simp only [Finset.sum_const, Finset.card_univ, Fintype.card_fin, nsmul_eq_mul]
      field_simp
    have e3 : ∀ j, ∑ i, 1 / (N : ℝ) * ∫ x, H j x ∂(S.trans v' t (take x A i)) = (∑ i, P j (x (A i))) / N := fun j => by
      rw [← Finset.mul_sum]
      simp only [P, take]
      ring
    simp only [e2, e3]
    ring
  refine (Rand.E_mono _ ht).trans ?_
  refine (E_res_sq hres hvar (normalise_weights lw) (split k 2 1) (c := fun j i => P j (x i)) (M := M)
    (fun j i => hP0 _ _) (fun j i => hP1 _ _) (fun j => a j / L1) (L1 ^ 2)
    (L1 ^ 2 * (Fintype.card J * (M ^ 2 / N)) + (d * L1 ^ 2 + e)) (sq_nonneg _) (by positivity)).trans ?_
  have := step_arith (lw := lw) (fun i => hb (x i)) (-l) a M d e hd (fun j i => P j (x i)) (r := 1 / N) (Or.inl le_rfl)
  simp only [neg_neg] at this
  refine ENNReal.ofReal_le_ofReal (le_trans (le_of_eq ?_) this)
  show L1 ^ 2 * (Fintype.card J * (M ^ 2 / N) + ∑ j, (∑ i, Real.exp (lw i - logsumexp lw) * P j (x i) - a j / L1) ^ 2)
    + (L1 ^ 2 * (Fintype.card J * (M ^ 2 / N)) + (d * L1 ^ 2 + e)) = _
  rw [show M ^ 2 / (N : ℝ) = M ^ 2 * (1 / N) by ring]

/-! ### The whole recursion -/

/-- Real value of the future of the path measure. -/
noncomputable def futR (φ : U → ℝ) (ss : List (FKStep U)) (u : U) : ℝ :=
  (pathInt ss u fun l => ENNReal.ofReal (φ (l.getLastD u))).toReal

theorem pathInt_le {φ : U → ℝ} (h1 : ∀ u, φ u ≤ 1) {b : ℝ} : ∀ ss : List (FKStep U),
    (∀ s ∈ ss, ∀ u, s.g u ≤ b) → ∀ u,
      pathInt ss u (fun l => ENNReal.ofReal (φ (l.getLastD u))) ≤ ENNReal.ofReal (Real.exp b ^ ss.length)
  | [], _, u => by
    simp only [pathInt, List.length_nil, pow_zero]
    exact ENNReal.ofReal_le_ofReal (h1 u)
  | s :: ss, hb, u => by
    simp only [pathInt, List.getLastD_cons, List.length_cons]
    rw [pow_succ', ENNReal.ofReal_mul (Real.exp_pos _).le]
    refine mul_le_mul' (ENNReal.ofReal_le_ofReal (Real.exp_le_exp.2 (hb s (by simp) u))) ?_
    refine (lintegral_mono fun u' => pathInt_le h1 ss (fun s' hs' => hb s' (by simp [hs'])) u').trans ?_
    simp

theorem measurable_futR {φ : U → ℝ} (hφ : Measurable φ) (ss : List (FKStep U)) : Measurable (futR φ ss) :=
  (measurable_pathInt_last (ENNReal.measurable_ofReal.comp hφ) ss).ennreal_toReal

theorem futR_nonneg (φ : U → ℝ) (ss : List (FKStep U)) (u : U) : 0 ≤ futR φ ss u := ENNReal.toReal_nonneg

theorem futR_le {φ : U → ℝ} (h1 : ∀ u, φ u ≤ 1) {b : ℝ} {ss : List (FKStep U)} (hb : ∀ s ∈ ss, ∀ u, s.g u ≤ b)
    (u : U) : futR φ ss u ≤ Real.exp b ^ ss.length :=
  ENNReal.toReal_le_of_le_ofReal (pow_nonneg (Real.exp_pos _).le _) (pathInt_le h1 ss hb u)

theorem futR_cons {φ : U → ℝ} (hφ : Measurable φ) (h1 : ∀ u, φ u ≤ 1) {b : ℝ} (s : FKStep U) {ss : List (FKStep U)}
    (hb : ∀ s ∈ ss, ∀ u, s.g u ≤ b) (u : U) :
    futR φ (s :: ss) u = Real.exp (s.g u) * ∫ u', futR φ ss u' ∂(s.M u) := by
  simp only [futR, pathInt, List.getLastD_cons]
  rw [ENNReal.toReal_mul, ENNReal.toReal_ofReal (Real.exp_pos _).le]
  congr 1
  refine (integral_toReal ?_ ?_).symm
  · exact (measurable_pathInt_last (ENNReal.measurable_ofReal.comp hφ) ss).aemeasurable
  · exact Filter.Eventually.of_forall fun u' => (pathInt_le h1 ss hb u').trans_lt ENNReal.ofReal_lt_top

theorem steps_length (S : StateSpace U V) : ∀ (vs : List V) (ts : List ℝ) (v : V), ts.length = vs.length →
    ∀ t, (S.steps v vs (t :: ts)).length = vs.length
  | [], _, _, _, _ => rfl
  | v' :: vs, t' :: ts, v, h, t => by
    simp only [StateSpace.steps, List.length_cons]
    rw [steps_length S vs ts v' (by simpa using h) t']

theorem steps_le {S : StateSpace U V} {b : ℝ} (hb : ∀ v v' t u, S.logG v v' t u ≤ b) :
    ∀ (vs : List V) (ts : List ℝ) (v : V), ∀ s ∈ S.steps v vs ts, ∀ u, s.g u ≤ b
  | [], _, v, s, h, _ => by simp [StateSpace.steps] at h
  | v' :: vs, [], v, s, h, _ => by simp [StateSpace.steps] at h
  | v' :: vs, t :: ts, v, s, h, u => by
    simp only [StateSpace.steps, List.mem_cons] at h
    rcases h with rfl | h
    · exact hb _ _ _ _
    · exact steps_le hb vs ts v' s h u

theorem E_filter_scan_sq [NeZero N] {ο J : Type} [Fintype J] {m : Smc.Funs N U V} {S : StateSpace U V} {v0 : V}
    (hm : SmcImplements m S v0) {res : Smc.Resampling N} (hres : UnbiasedSums res) (hvar : SmallVariance res)
    (emit : (Fin N → U) → ο) {b : ℝ}
    {φ : J → U → ℝ} (hφ : ∀ j, Measurable (φ j)) (h0 : ∀ j u, 0 ≤ φ j u) (h1 : ∀ j u, φ j u ≤ 1)
    (a : J → ℝ) {e : ℝ} (he : 0 ≤ e) :
    ∀ (vs : List V) (ts : List ℝ) (ks : List Key) (v : V) (t : ℝ) (x : Fin N → U) (l : ℝ),
      ts.length = vs.length → ks.length = vs.length → (∀ s ∈ S.steps v vs (t :: ts), ∀ u, s.g u ≤ b) →
      (Rand.scan (filterBody m res emit) (x, l) (Smc.scanInputs (v, vs) (t, ts) ks)).E
        (fun r => ENNReal.ofReal (∑ j, (Real.exp (-r.1.2) * ((∑ i, φ j (r.1.1 i)) / N) - a j) ^ 2 + e))
      ≤ ENNReal.ofReal (∑ j, (Real.exp (-l) * ((∑ i, futR (φ j) (S.steps v vs (t :: ts)) (x i)) / N) - a j) ^ 2
          + Fintype.card J * (2 * vs.length / N) * (Real.exp b ^ vs.length) ^ 2 * Real.exp (-l) ^ 2 + e) := by
  intro vs
  induction vs with
  | nil =>
    intro ts ks v t x l _ _ _
    show ENNReal.ofReal _ ≤ ENNReal.ofReal _
    simp [StateSpace.steps, futR, pathInt, ENNReal.toReal_ofReal (h0 _ _)]
  | cons v' vs ih =>
    intro ts ks v t x l ht hk hb
    match ts, ks, ht, hk, hb with
    | t' :: ts, k :: ks, ht, hk, hb =>
        rw [smc_scanInputs_cons, E_scan_cons]
        have hl := steps_length S vs ts v' (by simpa using ht) t'
        have hs : ∀ s ∈ S.steps v' vs (t' :: ts), ∀ u, s.g u ≤ b := fun s h => hb s (List.mem_cons_of_mem _ h)
        have ht' : ts.length = vs.length := by simpa using ht
        have hk' : ks.length = vs.length := by simpa using hk
        refine (Rand.E_mono _ (g := fun r => ENNReal.ofReal
          (∑ j, (Real.exp (-r.1.2) * ((∑ i, futR (φ j) (S.steps v' vs (t' :: ts)) (r.1.1 i)) / N) - a j) ^ 2
            + Fintype.card J * (2 * vs.length / N) * (Real.exp b ^ vs.length) ^ 2 * Real.exp (-r.1.2) ^ 2 + e)) fun r => ?_).trans ?_
        · exact ih ts ks v' t' r.1.1 r.1.2 ht' hk' hs
        refine (E_filterBody_sq hm hres hvar emit (fun j => measurable_futR (hφ j) (S.steps v' vs (t' :: ts)))
          (M := Real.exp b ^ vs.length) (fun j => futR_nonneg _ _)
          (fun j u => by rw [← hl]; exact futR_le (h1 j) hs u)
          v' v t (hb _ List.mem_cons_self) x l k a _ e (by positivity) he).trans (ENNReal.ofReal_le_ofReal (le_of_eq ?_))
        simp only [StateSpace.steps, futR_cons (hφ _) (h1 _) _ hs, List.length_cons]
        push_cast
        ring

theorem E_pmcmc_scan_sq [NeZero N] {J : Type} [Fintype J] {m : Smc.Funs N U V} {S : StateSpace U V} {v0 : V}
    (hm : SmcImplements m S v0) {res : Smc.Resampling N} (hres : UnbiasedSums res) (hvar : SmallVariance res)
    {b : ℝ}
    {φ : J → U → ℝ} (hφ : ∀ j, Measurable (φ j)) (h0 : ∀ j u, 0 ≤ φ j u) (h1 : ∀ j u, φ j u ≤ 1)
    (a : J → ℝ) {e : ℝ} (he : 0 ≤ e) :
    ∀ (vs : List V) (ts : List ℝ) (ks : List Key) (v : V) (t : ℝ) (x : Fin N → U) (l : ℝ),
      ts.length = vs.length → ks.length = vs.length → (∀ s ∈ S.steps v vs (t :: ts), ∀ u, s.g u ≤ b) →
      (Rand.scan (pmcmcBody m res) (x, l) (Smc.scanInputs (v, vs) (t, ts) ks)).E
        (fun r => ENNReal.ofReal (∑ j, (Real.exp r.1.2 * ((∑ i, φ j (r.1.1 i)) / N) - a j) ^ 2 + e))
      ≤ ENNReal.ofReal (∑ j, (Real.exp l * ((∑ i, futR (φ j) (S.steps v vs (t :: ts)) (x i)) / N) - a j) ^ 2
          + Fintype.card J * (2 * vs.length / N) * (Real.exp b ^ vs.length) ^ 2 * Real.exp l ^ 2 + e) := by
  intro vs
  induction vs with
  | nil =>
    intro ts ks v t x l _ _ _
    show ENNReal.ofReal _ ≤ ENNReal.ofReal _
    simp [StateSpace.steps, futR, pathInt, ENNReal.toReal_ofReal (h0 _ _)]
  | cons v' vs ih =>
    intro ts ks v t x l ht hk hb
    match ts, ks, ht, hk, hb with
    | t' :: ts, k :: ks, ht, hk, hb =>
        rw [smc_scanInputs_cons, E_scan_cons]
        have hl := steps_length S vs ts v' (by simpa using ht) t'
        have hs : ∀ s ∈ S.steps v' vs (t' :: ts), ∀ u, s.g u ≤ b := fun s h => hb s (List.mem_cons_of_mem _ h)
        have ht' : ts.length = vs.length := by simpa using ht
        have hk' : ks.length = vs.length := by simpa using hk
        refine (Rand.E_mono _ (g := fun r => ENNReal.ofReal
          (∑ j, (Real.exp (r.1.2) * ((∑ i, futR (φ j) (S.steps v' vs (t' :: ts)) (r.1.1 i)) / N) - a j) ^ 2
            + Fintype.card J * (2 * vs.length / N) * (Real.exp b ^ vs.length) ^ 2 * Real.exp (r.1.2) ^ 2 + e)) fun r => ?_).trans ?_
        · exact ih ts ks v' t' r.1.1 r.1.2 ht' hk' hs
        refine (E_pmcmcBody_sq hm hres hvar (fun j => measurable_futR (hφ j) (S.steps v' vs (t' :: ts)))
          (M := Real.exp b ^ vs.length) (fun j => futR_nonneg _ _)
          (fun j u => by rw [← hl]; exact futR_le (h1 j) hs u)
          v' v t (hb _ List.mem_cons_self) x l k a _ e (by positivity) he).trans (ENNReal.ofReal_le_ofReal (le_of_eq ?_))
        simp only [StateSpace.steps, futR_cons (hφ _) (h1 _) _ hs, List.length_cons]
        push_cast
        ring

/-- Independent initial particles. -/
theorem init_sq [NeZero N] {J : Type} [Fintype J] {ν : Measure U} [IsProbabilityMeasure ν] {h : J → U → ℝ}
    (hh : ∀ j, Measurable (h j)) {M : ℝ} (h0 : ∀ j u, 0 ≤ h j u) (h1 : ∀ j u, h j u ≤ M) {d : ℝ} (hd : 0 ≤ d) :
    ∫⁻ x, ENNReal.ofReal (∑ j, ((∑ i, h j (x i)) / N - ∫ u, h j u ∂ν) ^ 2 + d) ∂(Measure.pi fun _ : Fin N => ν)
      ≤ ENNReal.ofReal (Fintype.card J * (M ^ 2 / N) + d) := by
  have hN : (0 : ℝ) < N := by exact_mod_cast Nat.pos_of_ne_zero (NeZero.ne N)
  have := lintegral_pi_sq_le (fun _ : Fin N => ν) (f := fun j _ => h j) (fun j _ => hh j) (fun j _ => h0 j)
    (fun j _ => h1 j) (fun _ => 1 / (N : ℝ)) (fun j => ∫ u, h j u ∂ν) 1 d zero_le_one hd
  have e : ∀ j, ∀ us : Fin N → U, ∑ i, (1 / (N : ℝ)) * h j (us i) = (∑ i, h j (us i)) / N := fun j us => by
    rw [← Finset.mul_sum]; ring
  have e2 : ∑ _i : Fin N, ((1 : ℝ) / N) ^ 2 = (1 : ℝ) / N := by
    simp only [Finset.sum_const, Finset.card_univ, Fintype.card_fin, nsmul_eq_mul]
    field_simp
  have e3 : ∀ j, ∑ _i : Fin N, (1 : ℝ) / N * ∫ u, h j u ∂ν = ∫ u, h j u ∂ν := fun j => by
    simp only [Finset.sum_const, Finset.card_univ, Fintype.card_fin, nsmul_eq_mul]
    field_simp
  simp only [e, e2, e3, one_mul, sub_self] at this
  refine this.trans (ENNReal.ofReal_le_ofReal (le_of_eq ?_))
  simp only [ne_eq, OfNat.ofNat_ne_zero, not_false_eq_true, zero_pow, Finset.sum_const_zero, add_zero]
  ring

end Fbs
