import Verif.Lemmas.Score

/-!
# Derivatives of Gaussian mixtures in space and time
-/

open MeasureTheory ProbabilityTheory
open scoped ENNReal NNReal

namespace Fbs
namespace Score

variable {ι : Type} [Fintype ι] {A : Type} [MeasurableSpace A]

/-- The bounds of `exists_bound` are uniform for variances that stay away from zero. -/
theorem exists_bound_uniform {q₁ : ℝ} (hq₁ : 0 < q₁) : ∃ C : ℝ, 0 ≤ C ∧ ∀ (q : ℝ≥0), q₁ ≤ q → ∀ m x : ι → ℝ,
    dens q m x ≤ C ∧ (∀ i, |cs q m x i| * dens q m x ≤ C) ∧ (∀ i, cs q m x i ^ 2 * dens q m x ≤ C) := by
  set K : ℝ := (Real.sqrt (2 * Real.pi * q₁))⁻¹ ^ Fintype.card ι with hK
  have hK0 : 0 ≤ K := by positivity
  have hKq : ∀ q : ℝ≥0, q₁ ≤ q → (Real.sqrt (2 * Real.pi * q))⁻¹ ^ Fintype.card ι ≤ K := by
    intro q hq
    have h1 : 0 < Real.sqrt (2 * Real.pi * q₁) := Real.sqrt_pos.2 (by positivity)
    have h2 : Real.sqrt (2 * Real.pi * q₁) ≤ Real.sqrt (2 * Real.pi * q) :=
      Real.sqrt_le_sqrt (mul_le_mul_of_nonneg_left hq (by positivity))
    exact pow_le_pow_left₀ (by positivity) (inv_anti₀ h1 h2) _
  have h1 : ∀ (q : ℝ≥0), q₁ ≤ q → ∀ m x : ι → ℝ, dens q m x ≤ K := by
    intro q hq m x
    rw [dens_eq]
    refine (mul_le_of_le_one_right (by positivity) (Real.exp_le_one_iff.2 ?_)).trans (hKq q hq)
    rw [neg_div]
    have : 0 ≤ (∑ i, (x i - m i) ^ 2) / (2 * (q : ℝ)) := by positivity
    linarith
  have h2 : ∀ (q : ℝ≥0), q₁ ≤ q → ∀ (m x : ι → ℝ) (i : ι), cs q m x i ^ 2 * dens q m x ≤ 2 / q₁ * K := by
    intro q hq m x i
    have hq' : (0 : ℝ) < q := hq₁.trans_le hq
    set z : ℝ := (x i - m i) ^ 2 / (2 * q) with hz
    have hz0 : 0 ≤ z := by positivity
    have e1 : cs q m x i ^ 2 = 2 / q * z := by
      rw [cs, hz]; field_simp
    have e2 : dens q m x ≤ K * Real.exp (-z) := by
      rw [dens_eq]
      refine mul_le_mul (hKq q hq) (Real.exp_le_exp.2 ?_) (Real.exp_pos _).le hK0
      rw [neg_div, neg_le_neg_iff, hz]
      refine div_le_div_of_nonneg_right ?_ (by positivity)
      exact Finset.single_le_sum (f := fun i => (x i - m i) ^ 2) (fun i _ => sq_nonneg _) (Finset.mem_univ i)
    have e3 : z * Real.exp (-z) ≤ 1 := by
      rw [Real.exp_neg, ← div_eq_mul_inv, div_le_one (Real.exp_pos _)]
      linarith [Real.add_one_le_exp z]
    have e4 : 2 / (q : ℝ) ≤ 2 / q₁ := div_le_div_of_nonneg_left zero_le_two hq₁ hq
    rw [e1]
    calc 2 / q * z * dens q m x ≤ 2 / q * z * (K * Real.exp (-z)) :=
          mul_le_mul_of_nonneg_left e2 (by positivity)
      _ = 2 / q * K * (z * Real.exp (-z)) := by ring
      _ ≤ 2 / q * K * 1 := mul_le_mul_of_nonneg_left e3 (by positivity)
      _ ≤ 2 / q₁ * K := by rw [mul_one]; exact mul_le_mul_of_nonneg_right e4 hK0
  refine ⟨K + 2 / q₁ * K, by positivity, fun q hq m x => ⟨?_, fun i => ?_, fun i => ?_⟩⟩
  · have : 0 ≤ 2 / q₁ * K := by positivity
    linarith [h1 q hq m x]
  · have hq0 : q ≠ 0 := by
      rintro rfl
      exact absurd hq (not_le.2 hq₁)
    have hd := (dens_pos hq0 m x).le
    have : |cs q m x i| ≤ 1 + cs q m x i ^ 2 := by
      rcases abs_cases (cs q m x i) with h | h <;> nlinarith [sq_nonneg (cs q m x i - 1), sq_nonneg (cs q m x i + 1)]
    calc |cs q m x i| * dens q m x ≤ (1 + cs q m x i ^ 2) * dens q m x := mul_le_mul_of_nonneg_right this hd
      _ = dens q m x + cs q m x i ^ 2 * dens q m x := by ring
      _ ≤ _ := add_le_add (h1 q hq m x) (h2 q hq m x i)
  · linarith [h2 q hq m x i]

section Space

variable [DecidableEq ι] {π : Measure A} [IsProbabilityMeasure π] {q : ℝ≥0} {m : A → ι → ℝ}

theorem hasDerivAt_mix' (hq : q ≠ 0) (hm : Measurable m) (x : ι → ℝ) (i : ι) (y : ℝ) :
    HasDerivAt (fun y => mix π q m (Function.update x i y))
      (∫ a, cs q (m a) (Function.update x i y) i * dens q (m a) (Function.update x i y) ∂π) y := by
  have h := hasDerivAt_mix (π := π) hq hm (Function.update x i y) i
  simpa only [Function.update_idem, Function.update_self] using h

theorem hasDerivAt_cs_dens (hq : q ≠ 0) (m x : ι → ℝ) (i : ι) (y : ℝ) :
    HasDerivAt (fun y => cs q m (Function.update x i y) i * dens q m (Function.update x i y))
      ((cs q m (Function.update x i y) i ^ 2 - 1 / q) * dens q m (Function.update x i y)) y := by
  have h1 : HasDerivAt (fun y => cs q m (Function.update x i y) i) (-1 / q) y := by
    simp only [cs, Function.update_self]
    exact (((hasDerivAt_id y).sub_const (m i)).fun_neg.div_const (q : ℝ))
  exact (h1.mul (hasDerivAt_dens hq m x i y)).congr_deriv (by ring)

omit [DecidableEq ι] in
theorem integrable_second (hq : q ≠ 0) (hm : Measurable m) (x : ι → ℝ) (i : ι) :
    Integrable (fun a => (cs q (m a) x i ^ 2 - 1 / q) * dens q (m a) x) π := by
  have := (integrable_cs_sq (π := π) hq hm x i).sub ((integrable_dens (π := π) hq hm x).const_mul (1 / (q : ℝ)))
  refine this.congr (Filter.Eventually.of_forall fun a => ?_)
  simp only [Pi.sub_apply]
  ring

/-- Second derivatives may be taken under the integral. -/
theorem hasDerivAt_mix_second (hq : q ≠ 0) (hm : Measurable m) (x : ι → ℝ) (i : ι) :
    HasDerivAt (fun y => ∫ a, cs q (m a) (Function.update x i y) i * dens q (m a) (Function.update x i y) ∂π)
      (∫ a, (cs q (m a) x i ^ 2 - 1 / q) * dens q (m a) x ∂π) (x i) := by
  obtain ⟨C, hC0, hC⟩ := exists_bound (ι := ι) hq
  have key := (hasDerivAt_integral_of_dominated_loc_of_deriv_le (μ := π) (bound := fun _ => C + 1 / q * C)
    (F := fun y a => cs q (m a) (Function.update x i y) i * dens q (m a) (Function.update x i y))
    (F' := fun y a => (cs q (m a) (Function.update x i y) i ^ 2 - 1 / q) * dens q (m a) (Function.update x i y))
    (x₀ := x i) (s := Set.univ) Filter.univ_mem
    (Filter.Eventually.of_forall fun y => (integrable_cs hq hm _ i).aestronglyMeasurable)
    (integrable_cs hq hm _ i) (integrable_second hq hm _ i).aestronglyMeasurable
    (Filter.Eventually.of_forall fun a y _ => by
      have hd := (dens_pos hq (m a) (Function.update x i y)).le
      rw [norm_mul, Real.norm_of_nonneg hd, Real.norm_eq_abs]
      have h1 : |cs q (m a) (Function.update x i y) i ^ 2 - 1 / q| ≤ cs q (m a) (Function.update x i y) i ^ 2 + 1 / q := by
        have h2 : (0 : ℝ) ≤ 1 / q := by positivity
        have h3 := sq_nonneg (cs q (m a) (Function.update x i y) i)
        rw [abs_le]; constructor <;> linarith
      calc _ ≤ (cs q (m a) (Function.update x i y) i ^ 2 + 1 / q) * dens q (m a) (Function.update x i y) :=
            mul_le_mul_of_nonneg_right h1 hd
        _ = cs q (m a) (Function.update x i y) i ^ 2 * dens q (m a) (Function.update x i y) +
            1 / q * dens q (m a) (Function.update x i y) := by ring
        _ ≤ _ := add_le_add ((hC _ _).2.2 i) (mul_le_mul_of_nonneg_left (hC _ _).1 (by positivity)))
    (integrable_const _)
    (Filter.Eventually.of_forall fun a y _ => hasDerivAt_cs_dens hq (m a) x i y)).2
  exact key.congr_deriv (by simp only [Function.update_eq_self])

end Space

section Time

variable {σ : ℝ}

/-- The derivative of one component when its mean grows like `exp r` and its variance is `σ (1 - exp (2 r))`. -/
theorem hasDerivAt_dens_time (σ : ℝ) (x0 x : ι → ℝ) {r : ℝ} (hq : 0 < σ * (1 - Real.exp (2 * r))) :
    HasDerivAt (fun r => dens (σ * (1 - Real.exp (2 * r))).toNNReal (fun i => Real.exp r * x0 i) x)
      (∑ i, (-x i * (cs (σ * (1 - Real.exp (2 * r))).toNNReal (fun i => Real.exp r * x0 i) x i *
          dens (σ * (1 - Real.exp (2 * r))).toNNReal (fun i => Real.exp r * x0 i) x) -
        dens (σ * (1 - Real.exp (2 * r))).toNNReal (fun i => Real.exp r * x0 i) x -
        σ * ((cs (σ * (1 - Real.exp (2 * r))).toNNReal (fun i => Real.exp r * x0 i) x i ^ 2 -
          1 / (σ * (1 - Real.exp (2 * r))).toNNReal) *
          dens (σ * (1 - Real.exp (2 * r))).toNNReal (fun i => Real.exp r * x0 i) x))) r := by
  have hQ : HasDerivAt (fun r => σ * (1 - Real.exp (2 * r))) (2 * (σ * (1 - Real.exp (2 * r)) - σ)) r := by
    have h1 : HasDerivAt (fun r => Real.exp (2 * r)) (Real.exp (2 * r) * 2) r := by
      simpa using ((hasDerivAt_id r).const_mul 2).exp
    exact ((h1.const_sub 1).const_mul σ).congr_deriv (by ring)
  have hpos : ∀ᶠ s in nhds r, 0 < σ * (1 - Real.exp (2 * s)) := hQ.continuousAt.eventually_const_lt hq
  set Q := σ * (1 - Real.exp (2 * r)) with hQd
  have hco : ((Q.toNNReal : ℝ≥0) : ℝ) = Q := Real.coe_toNNReal _ hq.le
  have hS : HasDerivAt (fun r => ∑ i, (x i - Real.exp r * x0 i) ^ 2)
      (∑ i, 2 * (x i - Real.exp r * x0 i) * (-(Real.exp r * x0 i))) r := by
    refine HasDerivAt.fun_sum fun i _ => ?_
    have h1 : HasDerivAt (fun r => x i - Real.exp r * x0 i) (-(Real.exp r * x0 i)) r :=
      ((Real.hasDerivAt_exp r).mul_const (x0 i)).const_sub (x i)
    exact (h1.fun_pow 2).congr_deriv (by norm_num)
  have hE : HasDerivAt (fun r => -(∑ i, (x i - Real.exp r * x0 i) ^ 2) / (2 * (σ * (1 - Real.exp (2 * r)))))
      ((-(∑ i, 2 * (x i - Real.exp r * x0 i) * (-(Real.exp r * x0 i))) * (2 * Q) -
        -(∑ i, (x i - Real.exp r * x0 i) ^ 2) * (2 * (2 * (Q - σ)))) / (2 * Q) ^ 2) r :=
    hS.fun_neg.fun_div (hQ.const_mul 2) (by positivity)
  have hR : HasDerivAt (fun r => (Real.sqrt (2 * Real.pi * (σ * (1 - Real.exp (2 * r)))))⁻¹ ^ Fintype.card ι)
      (-(Fintype.card ι * ((Q - σ) / Q)) * (Real.sqrt (2 * Real.pi * Q))⁻¹ ^ Fintype.card ι) r := by
    have hp : 0 < 2 * Real.pi * Q := by positivity
    have hs : 0 < Real.sqrt (2 * Real.pi * Q) := Real.sqrt_pos.2 hp
    have h1 := ((hQ.const_mul (2 * Real.pi)).sqrt hp.ne').fun_inv hs.ne'
    refine (h1.fun_pow (Fintype.card ι)).congr_deriv ?_
    rcases Nat.eq_zero_or_pos (Fintype.card ι) with h0 | h0
    · simp [h0]
    · obtain ⟨k, hk⟩ := Nat.exists_eq_succ_of_ne_zero h0.ne'
      rw [hk]
      simp only [Nat.succ_eq_add_one, Nat.add_sub_cancel, pow_succ]
      rw [← hQd]
      have hsq := Real.sq_sqrt hp.le
      set R := Real.sqrt (2 * Real.pi * Q) with hRd
      have : 2 * Real.pi * (2 * (Q - σ)) / (2 * R) = R * ((Q - σ) / Q) := by
        field_simp
        rw [hsq]
        ring
      rw [this]
      push_cast
      field_simp
  have hd := hR.mul hE.exp
  have hev : (fun r => dens (σ * (1 - Real.exp (2 * r))).toNNReal (fun i => Real.exp r * x0 i) x) =ᶠ[nhds r] fun r =>
      (Real.sqrt (2 * Real.pi * (σ * (1 - Real.exp (2 * r)))))⁻¹ ^ Fintype.card ι *
        Real.exp (-(∑ i, (x i - Real.exp r * x0 i) ^ 2) / (2 * (σ * (1 - Real.exp (2 * r))))) := by
    filter_upwards [hpos] with s hs
    rw [dens_eq, Real.coe_toNNReal _ hs.le]
  refine (hd.congr_of_eventuallyEq hev).congr_deriv ?_
  simp only [dens_eq, hco, cs, ← hQd]
  set D := (Real.sqrt (2 * Real.pi * Q))⁻¹ ^ Fintype.card ι *
    Real.exp (-(∑ i, (x i - Real.exp r * x0 i) ^ 2) / (2 * Q)) with hD
  have e1 : ∑ i, (-x i * (-(x i - Real.exp r * x0 i) / Q * D) - D - σ * (((-(x i - Real.exp r * x0 i) / Q) ^ 2 - 1 / Q) * D)) =
      (∑ i, ((x i - Real.exp r * x0 i) * (Real.exp r * x0 i) / Q + (x i - Real.exp r * x0 i) ^ 2 * ((Q - σ) / Q ^ 2) +
        -((Q - σ) / Q))) * D := by
    rw [Finset.sum_mul]
    refine Finset.sum_congr rfl fun i _ => ?_
    field_simp
    ring
  rw [e1, Finset.sum_add_distrib, Finset.sum_add_distrib, Finset.sum_const, Finset.card_univ, nsmul_eq_mul, ← Finset.sum_mul,
    ← Finset.sum_div]
  have e2 : ∑ i, 2 * (x i - Real.exp r * x0 i) * (-(Real.exp r * x0 i)) =
      -2 * ∑ i, (x i - Real.exp r * x0 i) * (Real.exp r * x0 i) := by
    rw [Finset.mul_sum]
    exact Finset.sum_congr rfl fun i _ => by ring
  rw [e2]
  set S1 := ∑ i, (x i - Real.exp r * x0 i) * (Real.exp r * x0 i)
  set S2 := ∑ i, (x i - Real.exp r * x0 i) ^ 2
  rw [hD]
  field_simp
  ring

variable {π : Measure (ι → ℝ)} [IsProbabilityMeasure π]

/-- The time derivative of the mixture. -/
theorem hasDerivAt_mix_time (σ : ℝ) (x : ι → ℝ) {r : ℝ} (hq : 0 < σ * (1 - Real.exp (2 * r))) :
    HasDerivAt (fun r => mix π (σ * (1 - Real.exp (2 * r))).toNNReal (fun x0 i => Real.exp r * x0 i) x)
      (∑ i, (-x i * (∫ x0, cs (σ * (1 - Real.exp (2 * r))).toNNReal (fun i => Real.exp r * x0 i) x i *
          dens (σ * (1 - Real.exp (2 * r))).toNNReal (fun i => Real.exp r * x0 i) x ∂π) -
        mix π (σ * (1 - Real.exp (2 * r))).toNNReal (fun x0 i => Real.exp r * x0 i) x -
        σ * ∫ x0, (cs (σ * (1 - Real.exp (2 * r))).toNNReal (fun i => Real.exp r * x0 i) x i ^ 2 -
          1 / (σ * (1 - Real.exp (2 * r))).toNNReal) *
          dens (σ * (1 - Real.exp (2 * r))).toNNReal (fun i => Real.exp r * x0 i) x ∂π)) r := by
  have hcont : ContinuousAt (fun r => σ * (1 - Real.exp (2 * r))) r := by fun_prop
  set Q := σ * (1 - Real.exp (2 * r)) with hQd
  have hnear : ∀ᶠ s in nhds r, Q / 2 < σ * (1 - Real.exp (2 * s)) :=
    hcont.eventually_const_lt (show Q / 2 < Q by linarith)
  obtain ⟨C, hC0, hC⟩ := exists_bound_uniform (ι := ι) (half_pos hq)
  have hm : ∀ r, Measurable fun (x0 : ι → ℝ) i => Real.exp r * x0 i := fun r =>
    measurable_pi_iff.2 fun i => (measurable_pi_apply i).const_mul _
  have hq0 : ∀ s, Q / 2 < σ * (1 - Real.exp (2 * s)) → (σ * (1 - Real.exp (2 * s))).toNNReal ≠ 0 := fun s hs =>
    (Real.toNNReal_pos.2 ((half_pos hq).trans hs)).ne'
  have hqr := hq0 r (by rw [← hQd]; linarith)
  rw [← hQd] at hqr
  have i1 : ∀ i, Integrable (fun x0 : ι → ℝ => -x i * (cs Q.toNNReal (fun i => Real.exp r * x0 i) x i *
      dens Q.toNNReal (fun i => Real.exp r * x0 i) x)) π := fun i => (integrable_cs hqr (hm r) x i).const_mul _
  have i2 : Integrable (fun x0 : ι → ℝ => dens Q.toNNReal (fun i => Real.exp r * x0 i) x) π := integrable_dens hqr (hm r) x
  have i3 : ∀ i, Integrable (fun x0 : ι → ℝ => σ * ((cs Q.toNNReal (fun i => Real.exp r * x0 i) x i ^ 2 -
      1 / (Q.toNNReal : ℝ)) * dens Q.toNNReal (fun i => Real.exp r * x0 i) x)) π := fun i =>
    (integrable_second hqr (hm r) x i).const_mul _
  have i12 : ∀ i, Integrable (fun x0 : ι → ℝ => -x i * (cs Q.toNNReal (fun i => Real.exp r * x0 i) x i *
      dens Q.toNNReal (fun i => Real.exp r * x0 i) x) - dens Q.toNNReal (fun i => Real.exp r * x0 i) x) π := fun i =>
    (i1 i).sub i2
  have i123 : ∀ i, Integrable (fun x0 : ι → ℝ => -x i * (cs Q.toNNReal (fun i => Real.exp r * x0 i) x i *
      dens Q.toNNReal (fun i => Real.exp r * x0 i) x) - dens Q.toNNReal (fun i => Real.exp r * x0 i) x -
      σ * ((cs Q.toNNReal (fun i => Real.exp r * x0 i) x i ^ 2 -
      1 / (Q.toNNReal : ℝ)) * dens Q.toNNReal (fun i => Real.exp r * x0 i) x)) π := fun i => (i12 i).sub (i3 i)
  have key := (hasDerivAt_integral_of_dominated_loc_of_deriv_le (μ := π)
    (bound := fun _ => ∑ i, (|x i| * C + C + |σ| * (C + 1 / (Q / 2) * C)))
    (F := fun r x0 => dens (σ * (1 - Real.exp (2 * r))).toNNReal (fun i => Real.exp r * x0 i) x)
    (F' := fun r x0 => ∑ i, (-x i * (cs (σ * (1 - Real.exp (2 * r))).toNNReal (fun i => Real.exp r * x0 i) x i *
          dens (σ * (1 - Real.exp (2 * r))).toNNReal (fun i => Real.exp r * x0 i) x) -
        dens (σ * (1 - Real.exp (2 * r))).toNNReal (fun i => Real.exp r * x0 i) x -
        σ * ((cs (σ * (1 - Real.exp (2 * r))).toNNReal (fun i => Real.exp r * x0 i) x i ^ 2 -
          1 / (σ * (1 - Real.exp (2 * r))).toNNReal) *
          dens (σ * (1 - Real.exp (2 * r))).toNNReal (fun i => Real.exp r * x0 i) x)))
    (x₀ := r) (s := {s | Q / 2 < σ * (1 - Real.exp (2 * s))}) hnear
    (hnear.mono fun s hs => (integrable_dens (hq0 s hs) (hm s) x).aestronglyMeasurable)
    i2 (integrable_finsetSum _ fun i _ => i123 i).aestronglyMeasurable
    (Filter.Eventually.of_forall fun x0 s hs => by
      have hco : (((σ * (1 - Real.exp (2 * s))).toNNReal : ℝ≥0) : ℝ) = σ * (1 - Real.exp (2 * s)) :=
        Real.coe_toNNReal _ ((half_pos hq).trans hs).le
      obtain ⟨b1, b2, b3⟩ := hC (σ * (1 - Real.exp (2 * s))).toNNReal (by rw [hco]; exact hs.le)
        (fun i => Real.exp s * x0 i) x
      have hd := (dens_pos (hq0 s hs) (fun i => Real.exp s * x0 i) x).le
      have hinv : 1 / (((σ * (1 - Real.exp (2 * s))).toNNReal : ℝ≥0) : ℝ) ≤ 1 / (Q / 2) := by
        rw [hco]; exact one_div_le_one_div_of_le (half_pos hq) hs.le
      refine (norm_sum_le _ _).trans (Finset.sum_le_sum fun i _ => ?_)
      refine (norm_sub_le _ _).trans (add_le_add ((norm_sub_le _ _).trans (add_le_add ?_ ?_)) ?_)
      · rw [norm_mul, norm_mul, norm_neg, Real.norm_eq_abs, Real.norm_eq_abs, Real.norm_of_nonneg hd]
        exact mul_le_mul_of_nonneg_left (b2 i) (abs_nonneg _)
      · rw [Real.norm_of_nonneg hd]; exact b1
      · rw [norm_mul, Real.norm_eq_abs]
        refine mul_le_mul_of_nonneg_left ?_ (abs_nonneg _)
        rw [norm_mul, Real.norm_of_nonneg hd, Real.norm_eq_abs]
        set c := cs (σ * (1 - Real.exp (2 * s))).toNNReal (fun i => Real.exp s * x0 i) x i
        set k := 1 / (((σ * (1 - Real.exp (2 * s))).toNNReal : ℝ≥0) : ℝ) with hk
        have hk0 : 0 ≤ k := by positivity
        have h1 : |c ^ 2 - k| ≤ c ^ 2 + k := by
          have := sq_nonneg c
          rw [abs_le]; constructor <;> linarith
        calc _ ≤ (c ^ 2 + k) * dens (σ * (1 - Real.exp (2 * s))).toNNReal (fun i => Real.exp s * x0 i) x :=
              mul_le_mul_of_nonneg_right h1 hd
          _ = c ^ 2 * dens (σ * (1 - Real.exp (2 * s))).toNNReal (fun i => Real.exp s * x0 i) x +
              k * dens (σ * (1 - Real.exp (2 * s))).toNNReal (fun i => Real.exp s * x0 i) x := by ring
          _ ≤ _ := add_le_add (b3 i) (mul_le_mul hinv b1 hd (by positivity)))
    (integrable_const _)
    (Filter.Eventually.of_forall fun x0 s hs => hasDerivAt_dens_time σ x0 x ((half_pos hq).trans hs))).2
  refine key.congr_deriv ?_
  rw [← hQd, integral_finsetSum _ fun i _ => i123 i]
  refine Finset.sum_congr rfl fun i _ => ?_
  rw [integral_sub (i12 i) (i3 i), integral_sub (i1 i) i2, integral_const_mul, integral_const_mul, mix]

end Time

end Score
end Fbs
