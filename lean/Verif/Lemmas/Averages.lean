import Mathlib.Probability.Moments.Variance
import Mathlib.MeasureTheory.Integral.Pi
import Mathlib.Probability.Kernel.MeasurableIntegral
import Mathlib.Analysis.SpecificLimits.Basic

/-! Sums along a Markov chain: mean, variance and mean square. -/

open MeasureTheory ProbabilityTheory
open scoped ENNReal

namespace Fbs

section ClosedForm

variable {σ : Type} [MeasurableSpace σ]

/-- `E[(a + fₙ₋₁(X₁) + … + f₀(Xₙ))² | X₀ = x]`. -/
noncomputable def sqSum (K : σ → Measure σ) (f : ℕ → σ → ℝ) : ℕ → ℝ → σ → ℝ≥0∞
  | 0, a, _ => ENNReal.ofReal (a ^ 2)
  | n + 1, a, x => ∫⁻ u, sqSum K f n (a + f n u) u ∂(K x)

/-- Means and variances of the sums. -/
structure SumMoments (K : σ → Measure σ) (f : ℕ → σ → ℝ) (b v : ℕ → σ → ℝ) : Prop where
  mb : ∀ n, Measurable (b n)
  mv : ∀ n, Measurable (v n)
  hb : ∀ n, ∃ C, ∀ x, |b n x| ≤ C
  hv : ∀ n, ∃ C, ∀ x, v n x ≤ C
  nv : ∀ n x, 0 ≤ v n x
  b0 : ∀ x, b 0 x = 0
  v0 : ∀ x, v 0 x = 0
  bs : ∀ n x, b (n + 1) x = ∫ u, (f n u + b n u) ∂(K x)
  vs : ∀ n x, v (n + 1) x = Var[fun u => f n u + b n u; K x] + ∫ u, v n u ∂(K x)

theorem sq_add_integral {μ : Measure σ} [IsProbabilityMeasure μ] {g v : σ → ℝ} (hg : Measurable g) (hv : Measurable v)
    {C D : ℝ} (hC : ∀ x, |g x| ≤ C) (hD : ∀ x, v x ≤ D) (nv : ∀ x, 0 ≤ v x) (a : ℝ) :
    ∫⁻ u, ENNReal.ofReal ((a + g u) ^ 2 + v u) ∂μ
      = ENNReal.ofReal ((a + ∫ u, g u ∂μ) ^ 2 + (Var[g; μ] + ∫ u, v u ∂μ)) := by
  have ig : Integrable g μ := .of_bound hg.aestronglyMeasurable C (.of_forall fun x => by simpa using hC x)
  have iv : Integrable v μ := .of_bound hv.aestronglyMeasurable D (.of_forall fun x => by
    simpa [abs_of_nonneg (nv x)] using hD x)
  have m2 : MemLp g 2 μ := .of_bound hg.aestronglyMeasurable C (.of_forall fun x => by simpa using hC x)
  have ig2 : Integrable (fun u => g u ^ 2) μ := m2.integrable_sq
  have i1 : Integrable (fun u => (a + g u) ^ 2 + v u) μ := by
    have : (fun u => (a + g u) ^ 2 + v u) = fun u => a ^ 2 + (2 * a * g u + g u ^ 2) + v u := by funext u; ring
    rw [this]
    exact ((integrable_const _).add ((ig.const_mul _).add ig2)).add iv
  rw [← ofReal_integral_eq_lintegral_ofReal i1 (.of_forall fun u => add_nonneg (sq_nonneg _) (nv u))]
  congr 1
  have h1 : ∫ u, ((a + g u) ^ 2 + v u) ∂μ = a ^ 2 + 2 * a * (∫ u, g u ∂μ) + (∫ u, g u ^ 2 ∂μ) + ∫ u, v u ∂μ := by
    have : (fun u => (a + g u) ^ 2 + v u) = fun u => a ^ 2 + 2 * a * g u + g u ^ 2 + v u := by funext u; ring
    have j1 : Integrable (fun u => 2 * a * g u) μ := ig.const_mul _
    have j2 : Integrable (fun u => a ^ 2 + 2 * a * g u) μ := (integrable_const _).add j1
    have j3 : Integrable (fun u => a ^ 2 + 2 * a * g u + g u ^ 2) μ := j2.add ig2
    rw [this, integral_add j3 iv, integral_add j2 ig2, integral_add (integrable_const _) j1, integral_const_mul]
    simp
  rw [h1, variance_eq_sub m2]
  simp only [Pi.pow_apply]
  ring

variable {K : σ → Measure σ} [∀ x, IsProbabilityMeasure (K x)] {f : ℕ → σ → ℝ} {b v : ℕ → σ → ℝ}

theorem sqSum_eq (h : SumMoments K f b v) (hf : ∀ n, Measurable (f n)) {C : ℝ} (hC : ∀ n x, |f n x| ≤ C) : ∀ (n : ℕ) (a : ℝ) (x : σ),
    sqSum K f n a x = ENNReal.ofReal ((a + b n x) ^ 2 + v n x)
  | 0, a, x => by simp [sqSum, h.b0, h.v0]
  | n + 1, a, x => by
    obtain ⟨B, hB⟩ := h.hb n
    obtain ⟨D, hD⟩ := h.hv n
    simp only [sqSum, sqSum_eq h hf hC n]
    have := sq_add_integral (μ := K x) (g := fun u => f n u + b n u) ((hf n).add (h.mb n)) (h.mv n) (C := C + B)
      (fun u => (abs_add_le _ _).trans (add_le_add (hC n u) (hB u))) hD (h.nv n) a
    rw [h.bs, h.vs, ← this]
    simp only [add_assoc]

/-- On a set the chain does not leave, bounded means bound the mean square. -/
theorem SumMoments.sq_le (h : SumMoments K f b v) (hf : ∀ n, Measurable (f n)) (h1 : ∀ n x, |f n x| ≤ 1) {N : ℕ} (hN : ∀ n, N ≤ n → ∀ x, f n x = 0)
    {A : Set σ} (hA : ∀ x ∈ A, ∀ᵐ u ∂(K x), u ∈ A) {B : ℝ} (hB : ∀ n, ∀ x ∈ A, |b n x| ≤ B) : ∀ n, ∀ x ∈ A,
    b n x ^ 2 + v n x ≤ (min n N : ℕ) * (1 + 2 * B)
  | 0, x, _ => by simp [h.b0, h.v0]
  | n + 1, x, hx => by
    obtain ⟨C, hC⟩ := h.hb n
    obtain ⟨D, hD⟩ := h.hv n
    have m1 : Measurable fun u => f n u + b n u := (hf n).add (h.mb n)
    have hg : ∀ u, |f n u + b n u| ≤ 1 + C := fun u => (abs_add_le _ _).trans (add_le_add (h1 n u) (hC u))
    have m2 : MemLp (fun u => f n u + b n u) 2 (K x) := .of_bound m1.aestronglyMeasurable (1 + C)
      (.of_forall fun u => by simpa using hg u)
    have iv : Integrable (v n) (K x) := .of_bound (h.mv n).aestronglyMeasurable D (.of_forall fun u => by
      simpa [abs_of_nonneg (h.nv n u)] using hD u)
    have e : b (n + 1) x ^ 2 + v (n + 1) x = ∫ u, ((f n u + b n u) ^ 2 + v n u) ∂(K x) := by
      rw [integral_add m2.integrable_sq iv, h.vs, variance_eq_sub m2, h.bs]
      simp only [Pi.pow_apply]
      ring
    rw [e]
    have hle : ∀ᵐ u ∂(K x), (f n u + b n u) ^ 2 + v n u ≤ (min (n + 1) N : ℕ) * (1 + 2 * B) := by
      filter_upwards [hA x hx] with u hu
      have ih := h.sq_le hf h1 hN hA hB n u hu
      rcases le_or_gt N n with hn | hn
      · rw [min_eq_right hn] at ih
        rw [min_eq_right (by omega), hN n hn, zero_add]
        exact ih
      have h2 : f n u ^ 2 ≤ 1 := by
        rw [← sq_abs]
        exact pow_le_one₀ (abs_nonneg _) (h1 n u)
      have h3 : f n u * b n u ≤ B := by
        refine (le_abs_self _).trans ?_
        rw [abs_mul]
        calc |f n u| * |b n u| ≤ 1 * B := mul_le_mul (h1 n u) (hB n u hu) (abs_nonneg _) zero_le_one
          _ = B := one_mul B
      rw [min_eq_left hn.le] at ih
      rw [min_eq_left (by omega)]
      push_cast
      nlinarith
    calc _ ≤ ∫ _, ((min (n + 1) N : ℕ) : ℝ) * (1 + 2 * B) ∂(K x) :=
          integral_mono_ae (m2.integrable_sq.add iv) (integrable_const _) hle
      _ = _ := by simp

end ClosedForm

section OneChain

variable {σ : Type} [MeasurableSpace σ]

/-- `E[f(X₁) + … + f(Xₙ) | X₀ = x]`. -/
noncomputable def sumMean (κ : Kernel σ σ) (f : ℕ → σ → ℝ) : ℕ → σ → ℝ
  | 0, _ => 0
  | n + 1, x => ∫ u, (f n u + sumMean κ f n u) ∂(κ x)

/-- `Var[f(X₁) + … + f(Xₙ) | X₀ = x]`. -/
noncomputable def sumVar (κ : Kernel σ σ) (f : ℕ → σ → ℝ) : ℕ → σ → ℝ
  | 0, _ => 0
  | n + 1, x => Var[fun u => f n u + sumMean κ f n u; κ x] + ∫ u, sumVar κ f n u ∂(κ x)

variable {κ : Kernel σ σ} [IsMarkovKernel κ] {f : ℕ → σ → ℝ}

omit [IsMarkovKernel κ] in
theorem sumMean_meas (hf : ∀ n, Measurable (f n)) : ∀ n, Measurable (sumMean κ f n)
  | 0 => measurable_const
  | n + 1 => by
    have : StronglyMeasurable fun u => f n u + sumMean κ f n u := ((hf n).add (sumMean_meas hf n)).stronglyMeasurable
    exact this.integral_kernel.measurable

theorem sumMean_le {C : ℝ} (hC : ∀ n x, |f n x| ≤ C) : ∀ n x, |sumMean κ f n x| ≤ n * C
  | 0, x => by simp [sumMean]
  | n + 1, x => by
    have h : ∀ u, ‖f n u + sumMean κ f n u‖ ≤ ((n + 1 : ℕ) : ℝ) * C := fun u => by
      refine (norm_add_le _ _).trans ?_
      have := add_le_add (hC n u) (sumMean_le hC n u)
      push_cast
      simp only [Real.norm_eq_abs]
      linarith
    have := norm_integral_le_of_norm_le_const (μ := κ x) (.of_forall h)
    simpa [sumMean] using this

theorem moments_ker (hf : ∀ n, Measurable (f n)) {C : ℝ} (hC : ∀ n x, |f n x| ≤ C) :
    SumMoments κ f (sumMean κ f) (sumVar κ f) := by
  have hmb := sumMean_meas (κ := κ) hf
  have hbb := sumMean_le (κ := κ) hC
  have hm2 : ∀ n x, MemLp (fun u => f n u + sumMean κ f n u) 2 (κ x) := fun n x =>
    .of_bound ((hf n).add (hmb n)).aestronglyMeasurable (C + n * C) (.of_forall fun u => by
      simpa using (abs_add_le _ _).trans (add_le_add (hC n u) (hbb n u)))
  have hmv : ∀ n, Measurable (sumVar κ f n) := by
    intro n
    induction n with
    | zero => exact measurable_const
    | succ n ih =>
      have e : sumVar κ f (n + 1) = fun x => (∫ u, (f n u + sumMean κ f n u) ^ 2 ∂(κ x)
          - (∫ u, (f n u + sumMean κ f n u) ∂(κ x)) ^ 2) + ∫ u, sumVar κ f n u ∂(κ x) := by
        funext x
        simp only [sumVar]
        rw [variance_eq_sub (hm2 n x)]
        rfl
      rw [e]
      have m1 : StronglyMeasurable fun u => f n u + sumMean κ f n u := ((hf n).add (hmb n)).stronglyMeasurable
      exact ((m1.pow 2).integral_kernel.measurable.sub (m1.integral_kernel.measurable.pow_const 2)).add
        ih.stronglyMeasurable.integral_kernel.measurable
  have hnv : ∀ n x, 0 ≤ sumVar κ f n x := by
    intro n
    induction n with
    | zero => exact fun _ => le_rfl
    | succ n ih => exact fun x => add_nonneg (variance_nonneg _ _) (integral_nonneg ih)
  refine ⟨hmb, hmv, fun n => ⟨n * C, hbb n⟩, fun n => ?_, hnv, fun _ => rfl, fun _ => rfl, fun _ _ => rfl, fun _ _ => rfl⟩
  induction n with
  | zero => exact ⟨0, fun _ => le_rfl⟩
  | succ n ih =>
    obtain ⟨D, hD⟩ := ih
    refine ⟨(C + n * C) ^ 2 + D, fun x => add_le_add ?_ ?_⟩
    · refine (variance_le_expectation_sq ((hf n).add (hmb n)).aestronglyMeasurable).trans ?_
      calc _ ≤ ∫ _, (C + n * C) ^ 2 ∂(κ x) := integral_mono (hm2 n x).integrable_sq (integrable_const _) fun u => by
            rw [← sq_abs]
            exact pow_le_pow_left₀ (abs_nonneg _) ((abs_add_le _ _).trans (add_le_add (hC n u) (hbb n u))) 2
        _ = _ := by simp
    · have iv : Integrable (sumVar κ f n) (κ x) := .of_bound (hmv n).aestronglyMeasurable D (.of_forall fun u => by
        simpa [abs_of_nonneg (hnv n u)] using hD u)
      calc _ ≤ ∫ _, D ∂(κ x) := integral_mono iv (integrable_const _) hD
        _ = D := by simp

/-- The mean of the last `N` terms is the sum of their means. -/
theorem sumMean_eq {g : σ → ℝ} {N : ℕ} (hlt : ∀ n, n < N → ∀ x, f n x = g x) (hge : ∀ n, N ≤ n → ∀ x, f n x = 0)
    {e : ℕ → σ → ℝ} (he0 : ∀ x, e 0 x = g x) (hes : ∀ k x, e (k + 1) x = ∫ u, e k u ∂(κ x))
    (hem : ∀ k, Measurable (e k)) {C : ℝ} (heC : ∀ k x, |e k x| ≤ C) : ∀ n x,
    sumMean κ f n x = ∑ k ∈ Finset.range (min n N), e (k + (n - N) + 1) x
  | 0, x => by simp [sumMean]
  | n + 1, x => by
    have hi : ∀ k, Integrable (e k) (κ x) := fun k => .of_bound (hem k).aestronglyMeasurable C
      (.of_forall fun u => by simpa using heC k u)
    simp only [sumMean]
    rcases lt_or_ge n N with hn | hn
    · have e1 : (fun u => f n u + sumMean κ f n u) = fun u => ∑ k ∈ Finset.range (n + 1), e k u := by
        funext u
        rw [sumMean_eq hlt hge he0 hes hem heC n u, hlt n hn, ← he0, Finset.sum_range_succ' (fun k => e k u), add_comm,
          min_eq_left hn.le, Nat.sub_eq_zero_of_le hn.le]
      rw [e1, integral_finsetSum _ fun k _ => hi k, min_eq_left (by omega), Nat.sub_eq_zero_of_le (by omega)]
      exact Finset.sum_congr rfl fun k _ => (hes k x).symm
    · have e1 : (fun u => f n u + sumMean κ f n u) = fun u => ∑ k ∈ Finset.range N, e (k + (n - N) + 1) u := by
        funext u
        rw [sumMean_eq hlt hge he0 hes hem heC n u, hge n hn, zero_add, min_eq_right hn]
      rw [e1, integral_finsetSum _ fun k _ => hi _, min_eq_right (by omega)]
      refine Finset.sum_congr rfl fun k _ => ?_
      rw [← hes, show k + (n + 1 - N) + 1 = k + (n - N) + 1 + 1 by omega]

end OneChain

section Product

variable {σ : Type} [MeasurableSpace σ] {C : ℕ} {κ : Kernel σ σ} [IsMarkovKernel κ] {f : ℕ → σ → ℝ} {b v : ℕ → σ → ℝ}

theorem integral_pi_sum {g : σ → ℝ} (hg : Measurable g) {B : ℝ} (hB : ∀ x, |g x| ≤ B) (x : Fin C → σ) :
    ∫ y : Fin C → σ, ∑ c, g (y c) ∂(Measure.pi fun c => κ (x c)) = ∑ c, ∫ u, g u ∂(κ (x c)) := by
  rw [integral_finsetSum]
  · exact Finset.sum_congr rfl fun c _ => integral_comp_eval (μ := fun c => κ (x c)) hg.aestronglyMeasurable
  · intro c _
    exact .of_bound (hg.comp (measurable_pi_apply c)).aestronglyMeasurable B (.of_forall fun u => by simpa using hB (u c))

/-- Independent chains: the moments add up. -/
theorem moments_pi (h : SumMoments κ f b v) (hf : ∀ n, Measurable (f n)) {B : ℝ} (hB : ∀ n x, |f n x| ≤ B) :
    SumMoments (fun x : Fin C → σ => Measure.pi fun c => κ (x c)) (fun n x => ∑ c, f n (x c)) (fun n x => ∑ c, b n (x c))
      (fun n x => ∑ c, v n (x c)) where
  mb n := Finset.measurable_fun_sum _ fun c _ => (h.mb n).comp (measurable_pi_apply c)
  mv n := Finset.measurable_fun_sum _ fun c _ => (h.mv n).comp (measurable_pi_apply c)
  hb n := by
    obtain ⟨D, hD⟩ := h.hb n
    exact ⟨∑ _ : Fin C, D, fun x => (Finset.abs_sum_le_sum_abs _ _).trans (Finset.sum_le_sum fun c _ => hD _)⟩
  hv n := by
    obtain ⟨D, hD⟩ := h.hv n
    exact ⟨∑ _ : Fin C, D, fun x => Finset.sum_le_sum fun c _ => hD _⟩
  nv n x := Finset.sum_nonneg fun c _ => h.nv n _
  b0 x := by simp [h.b0]
  v0 x := by simp [h.v0]
  bs n x := by
    obtain ⟨D, hD⟩ := h.hb n
    simp only [← Finset.sum_add_distrib]
    rw [integral_pi_sum (g := fun u => f n u + b n u) ((hf n).add (h.mb n)) (B := B + D)
      fun u => (abs_add_le _ _).trans (add_le_add (hB n u) (hD u))]
    exact Finset.sum_congr rfl fun c _ => h.bs n (x c)
  vs n x := by
    obtain ⟨D, hD⟩ := h.hb n
    obtain ⟨D', hD'⟩ := h.hv n
    rw [integral_pi_sum (h.mv n) (B := D') fun u => by rw [abs_of_nonneg (h.nv n u)]; exact hD' u]
    have hm : ∀ c : Fin C, MemLp (fun u => f n u + b n u) 2 (κ (x c)) := fun c =>
      .of_bound ((hf n).add (h.mb n)).aestronglyMeasurable (B + D) (.of_forall fun u => by
        simpa using (abs_add_le _ _).trans (add_le_add (hB n u) (hD u)))
    have hvar := variance_sum_pi (μ := fun c : Fin C => κ (x c)) (X := fun _ u => f n u + b n u) hm
    have e : (∑ c : Fin C, fun y : Fin C → σ => f n (y c) + b n (y c)) = fun y => ∑ c, f n (y c) + ∑ c, b n (y c) := by
      funext y
      simp [Finset.sum_add_distrib]
    rw [e] at hvar
    rw [hvar, ← Finset.sum_add_distrib]
    exact Finset.sum_congr rfl fun c _ => h.vs n (x c)

end Product

end Fbs
