import Verif.Lemmas.StoreLoop
import Verif.Lemmas.Reversible

/-! Lagged products of a reversible chain started from its invariant law. -/

open MeasureTheory ProbabilityTheory
open scoped ENNReal

namespace Fbs
namespace Props

open Jax Chains

variable {σ τ : Type} [MeasurableSpace τ] {κ : Kernel τ τ} [IsMarkovKernel κ] {π : Measure τ}

omit [IsMarkovKernel κ] in
theorem mMul {f g : τ → ℝ≥0∞} (hf : Measurable f) (hg : Measurable g) : Measurable fun x => f x * g x := hf.mul hg

omit [IsMarkovKernel κ] in
theorem mAdd {f g : τ → ℝ≥0∞} (hf : Measurable f) (hg : Measurable g) : Measurable fun x => f x + g x := hf.add hg

/-- Expected product of the values of `f` and of `g`, `k` moves later. -/
noncomputable def lagProd (κ : Kernel τ τ) (π : Measure τ) (f g : τ → ℝ≥0∞) (k : ℕ) : ℝ≥0∞ :=
  ∫⁻ x, f x * iterInt κ g k x ∂π

/-- Detailed balance for expectations. -/
def Rev (κ : Kernel τ τ) (π : Measure τ) : Prop :=
  ∀ f g : τ → ℝ≥0∞, Measurable f → Measurable g → lagProd κ π f g 1 = lagProd κ π g f 1

/-- `⟨f - g, P (f - g)⟩ ≥ 0`, without subtraction. -/
def Pos (κ : Kernel τ τ) (π : Measure τ) : Prop :=
  ∀ f g : τ → ℝ≥0∞, Measurable f → Measurable g →
    lagProd κ π f g 1 + lagProd κ π g f 1 ≤ lagProd κ π f f 1 + lagProd κ π g g 1

omit [IsMarkovKernel κ] in
theorem iterInt_iter (F : τ → ℝ≥0∞) (a : ℕ) : ∀ b, iterInt κ (iterInt κ F a) b = iterInt κ F (a + b)
  | 0 => rfl
  | b + 1 => funext fun x => by
    show ∫⁻ u, iterInt κ (iterInt κ F a) b u ∂(κ x) = ∫⁻ u, iterInt κ F (a + b) u ∂(κ x)
    rw [iterInt_iter F a b]

omit [IsMarkovKernel κ] in
theorem lagProd_iter (f g : τ → ℝ≥0∞) (a b : ℕ) : lagProd κ π f (iterInt κ g a) b = lagProd κ π f g (a + b) := by
  unfold lagProd
  rw [iterInt_iter]

omit [IsMarkovKernel κ] in
theorem lagProd_comm_iter (hrev : Rev κ π) {f g : τ → ℝ≥0∞} (hf : Measurable f) (hg : Measurable g) :
    ∀ k, ∫⁻ x, f x * iterInt κ g k x ∂π = ∫⁻ x, iterInt κ f k x * g x ∂π
  | 0 => rfl
  | k + 1 => by
    have h := hrev f (iterInt κ g k) hf (measurable_iterInt hg k)
    rw [lagProd_iter] at h
    have h' := lagProd_comm_iter hrev (measurable_iterInt (κ := κ) hf 1) hg k
    rw [iterInt_iter, add_comm 1 k] at h'
    rw [← h']
    refine h.trans ?_
    unfold lagProd
    simp only [mul_comm]

omit [IsMarkovKernel κ] in
/-- Splitting the lag between the two functions. -/
theorem lagProd_split (hrev : Rev κ π) {f g : τ → ℝ≥0∞} (hf : Measurable f) (hg : Measurable g) (a b : ℕ) :
    lagProd κ π f g (a + b) = lagProd κ π (iterInt κ f a) g b := by
  have h := lagProd_comm_iter hrev hf (measurable_iterInt (κ := κ) hg b) a
  rw [iterInt_iter, add_comm b a] at h
  exact h

omit [IsMarkovKernel κ] in
theorem lagProd_sym (hrev : Rev κ π) {f g : τ → ℝ≥0∞} (hf : Measurable f) (hg : Measurable g) (k : ℕ) :
    lagProd κ π f g k = lagProd κ π g f k := by
  have h := lagProd_comm_iter hrev hf hg k
  unfold lagProd
  rw [h]
  simp only [mul_comm]

theorem iterInt_const (c : ℝ≥0∞) : ∀ k (x : τ), iterInt κ (fun _ => c) k x = c
  | 0, _ => rfl
  | k + 1, x => by
    simp only [iterInt, iterInt_const c k]
    simp

/-- The law is invariant. -/
theorem lintegral_iterInt (hrev : Rev κ π) {f : τ → ℝ≥0∞} (hf : Measurable f) (k : ℕ) :
    ∫⁻ x, iterInt κ f k x ∂π = ∫⁻ x, f x ∂π := by
  have h := lagProd_sym hrev (measurable_const (a := (1 : ℝ≥0∞))) hf k
  simpa [lagProd, iterInt_const] using h

/-- Jensen's inequality for the square. -/
theorem sq_lintegral_le {μ : Measure τ} [IsProbabilityMeasure μ] {f : τ → ℝ≥0∞} (hf : Measurable f) :
    (∫⁻ x, f x ∂μ) * ∫⁻ x, f x ∂μ ≤ ∫⁻ x, f x * f x ∂μ := by
  set a := ∫⁻ x, f x ∂μ with ha
  by_cases h : a = ∞
  · have h1 : a ≤ 1 + ∫⁻ x, f x * f x ∂μ := by
      have : ∀ x, f x ≤ 1 + f x * f x := fun x => by
        rcases le_total (f x) 1 with h | h
        · exact h.trans le_self_add
        · exact (le_mul_of_one_le_right' h).trans le_add_self
      calc a ≤ ∫⁻ x, 1 + f x * f x ∂μ := lintegral_mono this
        _ = _ := by rw [lintegral_add_left measurable_const]; simp
    rw [h, top_le_iff, ENNReal.add_eq_top] at h1
    rw [h1.resolve_left ENNReal.one_ne_top]
    exact le_top
  · have h1 : a * a + a * a ≤ a * a + ∫⁻ x, f x * f x ∂μ := by
      calc a * a + a * a = ∫⁻ x, a * f x + f x * a ∂μ := by
            rw [lintegral_add_left (hf.const_mul a), lintegral_const_mul a hf, lintegral_mul_const a hf]
        _ ≤ ∫⁻ x, a * a + f x * f x ∂μ := lintegral_mono fun x => two_mul_le
        _ = _ := by rw [lintegral_add_left measurable_const]; simp
    exact (ENNReal.add_le_add_iff_left (ENNReal.mul_ne_top h h)).1 h1

/-- One more move does not increase the second moment. -/
theorem lagProd_even_anti (hrev : Rev κ π) {f : τ → ℝ≥0∞} (hf : Measurable f) (j : ℕ) :
    lagProd κ π f f (2 * (j + 1)) ≤ lagProd κ π f f (2 * j) := by
  have hF := measurable_iterInt (κ := κ) hf j
  have e : ∀ i, lagProd κ π f f (2 * i) = ∫⁻ x, iterInt κ f i x * iterInt κ f i x ∂π := fun i => by
    rw [two_mul, lagProd_split hrev hf hf i i]
    rfl
  rw [e, e, ← lintegral_iterInt hrev (mMul hF hF) 1]
  exact lintegral_mono fun x => sq_lintegral_le hF

theorem lagProd_even_le (hrev : Rev κ π) {f : τ → ℝ≥0∞} (hf : Measurable f) : ∀ j,
    lagProd κ π f f (2 * j) ≤ ∫⁻ x, f x * f x ∂π
  | 0 => le_of_eq rfl
  | j + 1 => (lagProd_even_anti hrev hf j).trans (lagProd_even_le hrev hf j)

/-- An odd lag after an even one. -/
theorem lagProd_odd_le (hrev : Rev κ π) {f : τ → ℝ≥0∞} (hf : Measurable f) (j : ℕ) :
    lagProd κ π f f (2 * j + 1) ≤ lagProd κ π f f (2 * j) := by
  have hF := measurable_iterInt (κ := κ) hf j
  set F := iterInt κ f j with hFd
  have e : ∀ i, lagProd κ π f f (2 * j + i) = lagProd κ π F F i := fun i => by
    rw [show 2 * j + i = j + (j + i) by ring, lagProd_split hrev hf hf j (j + i), hFd, lagProd_iter]
  have hm : Measurable fun x => ∫⁻ u, F u ∂(κ x) := hF.lintegral_kernel
  have h2 : lagProd κ π F F 1 + lagProd κ π F F 1 ≤ lagProd κ π F F 0 + lagProd κ π F F 0 := by
    calc lagProd κ π F F 1 + lagProd κ π F F 1 = ∫⁻ x, ∫⁻ u, F x * F u + F u * F x ∂(κ x) ∂π := by
          unfold lagProd
          rw [← lintegral_add_left (mMul hF (measurable_iterInt hF 1))]
          refine lintegral_congr fun x => ?_
          rw [lintegral_add_left (hF.const_mul _), lintegral_const_mul _ hF, lintegral_mul_const _ hF]
          simp only [iterInt]
          rw [mul_comm (∫⁻ u, F u ∂(κ x))]
      _ ≤ ∫⁻ x, ∫⁻ u, F x * F x + F u * F u ∂(κ x) ∂π := lintegral_mono fun x => lintegral_mono fun u => two_mul_le
      _ = ∫⁻ x, F x * F x + ∫⁻ u, F u * F u ∂(κ x) ∂π := by
          refine lintegral_congr fun x => ?_
          rw [lintegral_add_left measurable_const]
          simp
      _ = _ := by
          rw [lintegral_add_left (mMul hF hF)]
          congr 1
          exact lintegral_iterInt hrev (mMul hF hF) 1
  have h3 := e 1
  have h4 := e 0
  rw [h3, ← add_zero (2 * j), h4]
  by_contra hlt
  push Not at hlt
  exact absurd h2 (not_le.2 (ENNReal.add_lt_add hlt hlt))

omit [IsMarkovKernel κ] in
/-- Positivity for even lags. -/
theorem pos_even (hrev : Rev κ π) {f g : τ → ℝ≥0∞} (hf : Measurable f) (hg : Measurable g) (j : ℕ) :
    lagProd κ π f g (2 * j) + lagProd κ π g f (2 * j) ≤ lagProd κ π f f (2 * j) + lagProd κ π g g (2 * j) := by
  have e : ∀ {f g : τ → ℝ≥0∞}, Measurable f → Measurable g →
      lagProd κ π f g (2 * j) = ∫⁻ x, iterInt κ f j x * iterInt κ g j x ∂π := fun hf hg => by
    rw [two_mul, lagProd_split hrev hf hg j j]
    rfl
  have hF := measurable_iterInt (κ := κ) hf j
  have hG := measurable_iterInt (κ := κ) hg j
  rw [e hf hg, e hg hf, e hf hf, e hg hg, ← lintegral_add_left (mMul hF hG), ← lintegral_add_left (mMul hF hF)]
  exact lintegral_mono fun x => two_mul_le

omit [IsMarkovKernel κ] in
/-- Positivity for every lag. -/
theorem pos_lag (hrev : Rev κ π) (hpos : Pos κ π) {f g : τ → ℝ≥0∞} (hf : Measurable f) (hg : Measurable g) (k : ℕ) :
    lagProd κ π f g k + lagProd κ π g f k ≤ lagProd κ π f f k + lagProd κ π g g k := by
  obtain ⟨j, rfl | rfl⟩ := k.even_or_odd'
  · exact pos_even hrev hf hg j
  · have e : ∀ {f g : τ → ℝ≥0∞}, Measurable f → Measurable g →
        lagProd κ π f g (2 * j + 1) = lagProd κ π (iterInt κ f j) (iterInt κ g j) 1 := fun hf hg => by
      rw [show 2 * j + 1 = j + (j + 1) by ring, lagProd_split hrev hf hg j (j + 1), lagProd_iter]
    rw [e hf hg, e hg hf, e hf hf, e hg hg]
    exact hpos _ _ (measurable_iterInt hf j) (measurable_iterInt hg j)

omit [IsMarkovKernel κ] in
/-- The lagged products are convex in the lag. -/
theorem lagProd_convex (hrev : Rev κ π) (hpos : Pos κ π) {f : τ → ℝ≥0∞} (hf : Measurable f) (k : ℕ) :
    lagProd κ π f f (k + 1) + lagProd κ π f f (k + 1) ≤ lagProd κ π f f k + lagProd κ π f f (k + 2) := by
  have hP := measurable_iterInt (κ := κ) hf 1
  have h := pos_lag hrev hpos hf hP k
  have e : lagProd κ π (iterInt κ f 1) f k = lagProd κ π f f (k + 1) := by
    rw [← lagProd_split hrev hf hf 1 k, add_comm]
  have e2 : lagProd κ π (iterInt κ f 1) (iterInt κ f 1) k = lagProd κ π f f (k + 2) := by
    rw [lagProd_iter, ← lagProd_split hrev hf hf 1 (1 + k)]
    congr 1
    ring
  rw [lagProd_iter, e, e2, add_comm 1 k] at h
  exact h

/-- The lagged products decrease. -/
theorem lagProd_anti (hrev : Rev κ π) (hpos : Pos κ π) {f : τ → ℝ≥0∞} (hf : Measurable f)
    (h2 : ∫⁻ x, f x * f x ∂π ≠ ∞) (k : ℕ) : lagProd κ π f f (k + 1) ≤ lagProd κ π f f k := by
  obtain ⟨j, rfl | rfl⟩ := k.even_or_odd'
  · exact lagProd_odd_le hrev hf j
  · have h := lagProd_convex hrev hpos hf (2 * j + 1)
    have h' := lagProd_odd_le hrev hf (j + 1)
    have hfin : lagProd κ π f f (2 * j + 1 + 1) ≠ ∞ := ne_top_of_le_ne_top h2 (lagProd_even_le hrev hf (j + 1))
    have h3 := h.trans (add_le_add_right h' _)
    exact (ENNReal.add_le_add_iff_right hfin).1 h3

/-- From `⟨f - c, P^k (f - c)⟩ ≥ 0` to a non-negative covariance. -/
theorem sq_le_lagProd [IsProbabilityMeasure π] (hrev : Rev κ π) {f : τ → ℝ≥0∞} (hf : Measurable f)
    (h1 : ∫⁻ x, f x ∂π ≠ ∞) (k : ℕ)
    (h : ∀ c : ℝ≥0∞, lagProd κ π f (fun _ => c) k + lagProd κ π (fun _ => c) f k
      ≤ lagProd κ π f f k + lagProd κ π (fun _ => c) (fun _ => c) k) :
    (∫⁻ x, f x ∂π) * ∫⁻ x, f x ∂π ≤ lagProd κ π f f k := by
  set c := ∫⁻ x, f x ∂π with hc
  have e1 : lagProd κ π f (fun _ => c) k = c * c := by
    unfold lagProd
    simp only [iterInt_const]
    rw [lintegral_mul_const _ hf]
  have e2 : lagProd κ π (fun _ => c) f k = c * c := by
    rw [lagProd_sym hrev measurable_const hf, e1]
  have e3 : lagProd κ π (fun _ => c) (fun _ => c) k = c * c := by
    unfold lagProd
    simp [iterInt_const]
  have h' := h c
  rw [e1, e2, e3] at h'
  exact (ENNReal.add_le_add_iff_right (ENNReal.mul_ne_top h1 h1)).1 h'

theorem cov_nonneg [IsProbabilityMeasure π] (hrev : Rev κ π) (hpos : Pos κ π) {f : τ → ℝ≥0∞} (hf : Measurable f)
    (h1 : ∫⁻ x, f x ∂π ≠ ∞) (k : ℕ) : (∫⁻ x, f x ∂π) * ∫⁻ x, f x ∂π ≤ lagProd κ π f f k :=
  sq_le_lagProd hrev hf h1 k fun _ => pos_lag hrev hpos hf measurable_const k

theorem cov_even_nonneg [IsProbabilityMeasure π] (hrev : Rev κ π) {f : τ → ℝ≥0∞} (hf : Measurable f)
    (h1 : ∫⁻ x, f x ∂π ≠ ∞) (j : ℕ) : (∫⁻ x, f x ∂π) * ∫⁻ x, f x ∂π ≤ lagProd κ π f f (2 * j) :=
  sq_le_lagProd hrev hf h1 _ fun _ => pos_even hrev hf measurable_const j

theorem ne_top_of_sq [IsProbabilityMeasure π] {f : τ → ℝ≥0∞} (hf : Measurable f) (h2 : ∫⁻ x, f x * f x ∂π ≠ ∞) :
    ∫⁻ x, f x ∂π ≠ ∞ := fun h => h2 (by
  have := sq_lintegral_le (μ := π) hf
  rw [h] at this
  simpa using this)

omit [IsMarkovKernel κ] in
theorem lagProd_smul (c : ℝ≥0∞) (f g : τ → ℝ≥0∞) (k : ℕ) : lagProd κ (c • π) f g k = c * lagProd κ π f g k := by
  unfold lagProd
  rw [lintegral_smul_measure, smul_eq_mul]

omit [IsMarkovKernel κ] in
theorem Rev.smul (h : Rev κ π) (c : ℝ≥0∞) : Rev κ (c • π) := fun f g hf hg => by
  rw [lagProd_smul, lagProd_smul, h f g hf hg]

omit [IsMarkovKernel κ] in
theorem Pos.smul (h : Pos κ π) (c : ℝ≥0∞) : Pos κ (c • π) := fun f g hf hg => by
  simp only [lagProd_smul, ← mul_add]
  exact mul_le_mul_right (h f g hf hg) _

omit [IsMarkovKernel κ] in
/-- From a probability measure to a finite measure. -/
theorem sq_le_of_normalised [IsFiniteMeasure π] {f : τ → ℝ≥0∞} {k : ℕ}
    (h : ∀ c : ℝ≥0∞, IsProbabilityMeasure (c • π) → c ≠ ∞ →
      (∫⁻ x, f x ∂(c • π)) * ∫⁻ x, f x ∂(c • π) ≤ lagProd κ (c • π) f f k) :
    (∫⁻ x, f x ∂π) * ∫⁻ x, f x ∂π ≤ π Set.univ * lagProd κ π f f k := by
  by_cases h0 : π = 0
  · simp [h0]
  have hu : π Set.univ ≠ 0 := by simpa using h0
  have ht : π Set.univ ≠ ∞ := measure_ne_top π _
  have hp : IsProbabilityMeasure ((π Set.univ)⁻¹ • π) := ⟨by
    rw [Measure.smul_apply, smul_eq_mul, ENNReal.inv_mul_cancel hu ht]⟩
  have h' := h (π Set.univ)⁻¹ hp (ENNReal.inv_ne_top.2 hu)
  rw [lagProd_smul, lintegral_smul_measure, smul_eq_mul] at h'
  have h2 := mul_le_mul_right h' (π Set.univ * π Set.univ)
  have e : ∀ a : ℝ≥0∞, π Set.univ * π Set.univ * ((π Set.univ)⁻¹ * a * ((π Set.univ)⁻¹ * a)) = a * a := fun a => by
    calc _ = (π Set.univ * (π Set.univ)⁻¹) * (π Set.univ * (π Set.univ)⁻¹) * (a * a) := by ring
      _ = a * a := by rw [ENNReal.mul_inv_cancel hu ht]; simp
  have e2 : ∀ a : ℝ≥0∞, π Set.univ * π Set.univ * ((π Set.univ)⁻¹ * a) = π Set.univ * a := fun a => by
    calc _ = (π Set.univ * (π Set.univ)⁻¹) * (π Set.univ * a) := by ring
      _ = _ := by rw [ENNReal.mul_inv_cancel hu ht, one_mul]
  rwa [e, e2] at h2

theorem fin_of_sq [IsFiniteMeasure π] {f : τ → ℝ≥0∞} (h2 : ∫⁻ x, f x * f x ∂π ≠ ∞) :
    ∫⁻ x, f x ∂π ≠ ∞ := by
  refine ne_top_of_le_ne_top (b := ∫⁻ x, 1 + f x * f x ∂π) ?_ (lintegral_mono fun x => ?_)
  · rw [lintegral_add_left measurable_const]
    simp [h2]
  · rcases le_total (f x) 1 with h | h
    · exact h.trans le_self_add
    · calc f x = f x * 1 := (mul_one _).symm
        _ ≤ f x * f x := mul_le_mul_right h _
        _ ≤ _ := le_add_self

theorem cov_nonneg_fin [IsFiniteMeasure π] (hrev : Rev κ π) (hpos : Pos κ π) {f : τ → ℝ≥0∞} (hf : Measurable f)
    (h2 : ∫⁻ x, f x * f x ∂π ≠ ∞) (k : ℕ) :
    (∫⁻ x, f x ∂π) * ∫⁻ x, f x ∂π ≤ π Set.univ * lagProd κ π f f k :=
  sq_le_of_normalised fun c _ hc => cov_nonneg (hrev.smul c) (hpos.smul c) hf (by
    rw [lintegral_smul_measure, smul_eq_mul]; exact ENNReal.mul_ne_top hc (fin_of_sq h2)) k

theorem cov_even_nonneg_fin [IsFiniteMeasure π] (hrev : Rev κ π) {f : τ → ℝ≥0∞} (hf : Measurable f)
    (h2 : ∫⁻ x, f x * f x ∂π ≠ ∞) (j : ℕ) :
    (∫⁻ x, f x ∂π) * ∫⁻ x, f x ∂π ≤ π Set.univ * lagProd κ π f f (2 * j) :=
  sq_le_of_normalised fun c _ hc => cov_even_nonneg (hrev.smul c) hf (by
    rw [lintegral_smul_measure, smul_eq_mul]; exact ENNReal.mul_ne_top hc (fin_of_sq h2)) j

/-! ### Sums over the stored samples -/

/-- Mean and second moment of the sum over `n` stored samples. -/
noncomputable def sumM1 (κ : Kernel τ τ) (f : τ → ℝ≥0∞) : ℕ → τ → ℝ≥0∞
  | 0, _ => 0
  | n + 1, x => ∫⁻ u, f u + sumM1 κ f n u ∂(κ x)

noncomputable def sumM2 (κ : Kernel τ τ) (f : τ → ℝ≥0∞) : ℕ → τ → ℝ≥0∞
  | 0, _ => 0
  | n + 1, x => ∫⁻ u, f u * f u + 2 * (f u * sumM1 κ f n u) + sumM2 κ f n u ∂(κ x)

omit [IsMarkovKernel κ] in
theorem measurable_sumM1 {f : τ → ℝ≥0∞} (hf : Measurable f) : ∀ n, Measurable (sumM1 κ f n)
  | 0 => measurable_const
  | n + 1 => (hf.add (measurable_sumM1 hf n)).lintegral_kernel

omit [IsMarkovKernel κ] in
theorem measurable_sumM2 {f : τ → ℝ≥0∞} (hf : Measurable f) : ∀ n, Measurable (sumM2 κ f n)
  | 0 => measurable_const
  | n + 1 => (((hf.mul hf).add ((hf.mul (measurable_sumM1 hf n)).const_mul 2)).add (measurable_sumM2 hf n)).lintegral_kernel

theorem E_store_sum {next : Key → σ → Rand σ} {p : σ → τ} {G : σ → Prop} (hr : Runs next p G κ) {f : τ → ℝ≥0∞}
    (hf : Measurable f) : ∀ (n : ℕ) (key : Key) (a : ℝ≥0∞) (s : σ), G s →
    (storeLoop next p n key s).E (fun l => (a + (l.map f).sum) * (a + (l.map f).sum))
      = a * a + 2 * (a * sumM1 κ f n (p s)) + sumM2 κ f n (p s)
  | 0, key, a, s, _ => by simp [storeLoop, sumM1, sumM2]
  | n + 1, key, a, s, hs => by
    simp only [storeLoop, Rand.E_bind, Rand.pure_eq, Rand.E_ret, List.map_cons, List.sum_cons]
    have hm1 := measurable_sumM1 (κ := κ) hf n
    have hm2 := measurable_sumM2 (κ := κ) hf n
    have hm : Measurable fun u => (a + f u) * (a + f u) + 2 * ((a + f u) * sumM1 κ f n u) + sumM2 κ f n u :=
      ((((hf.const_add a).mul (hf.const_add a)).add (((hf.const_add a).mul hm1).const_mul 2)).add hm2)
    have e : ∀ s', G s' → (storeLoop next p n (split key 2 0) s').E
        (fun l => (a + (f (p s') + (l.map f).sum)) * (a + (f (p s') + (l.map f).sum)))
        = (a + f (p s')) * (a + f (p s')) + 2 * ((a + f (p s')) * sumM1 κ f n (p s')) + sumM2 κ f n (p s') := fun s' hs' => by
      rw [← E_store_sum hr hf n (split key 2 0) (a + f (p s')) s' hs']
      simp only [add_assoc]
    rw [Rand.E_congr_leaves (hr.keep (split key 2 1) s hs) e, hr.law (split key 2 1) s hs _ hm]
    have e2 : ∀ u, (a + f u) * (a + f u) + 2 * ((a + f u) * sumM1 κ f n u) + sumM2 κ f n u
        = a * a + (2 * (a * (f u + sumM1 κ f n u)) + (f u * f u + 2 * (f u * sumM1 κ f n u) + sumM2 κ f n u)) := fun u => by
      ring
    simp only [e2]
    rw [lintegral_add_left measurable_const, lintegral_add_left (((mAdd hf hm1).const_mul a).const_mul 2),
      lintegral_const_mul _ ((mAdd hf hm1).const_mul a), lintegral_const_mul _ (mAdd hf hm1), lintegral_const, measure_univ, mul_one]
    simp only [sumM1, sumM2, add_assoc]

omit [IsMarkovKernel κ] in
theorem sumM1_eq {f : τ → ℝ≥0∞} (hf : Measurable f) : ∀ n x, sumM1 κ f n x = ∑ k ∈ Finset.range n, iterInt κ f (k + 1) x
  | 0, x => by simp [sumM1]
  | n + 1, x => by
    simp only [sumM1, sumM1_eq hf n]
    rw [lintegral_add_left hf, lintegral_finsetSum _ fun k _ => measurable_iterInt hf (k + 1), Finset.sum_range_succ', add_comm]
    rfl

/-- A lower bound for all lagged products bounds the second moment of the sum from below. -/
theorem le_sumM2 (hrev : Rev κ π) {f : τ → ℝ≥0∞} (hf : Measurable f) {a : ℝ≥0∞}
    (h : ∀ k, a ≤ lagProd κ π f f k) : ∀ n : ℕ,
    n * ∫⁻ x, f x * f x ∂π + (n * (n - 1) : ℕ) * a ≤ ∫⁻ x, sumM2 κ f n x ∂π
  | 0 => by simp
  | n + 1 => by
    have hm1 := measurable_sumM1 (κ := κ) hf n
    have hm2 := measurable_sumM2 (κ := κ) hf n
    have e : ∫⁻ x, sumM2 κ f (n + 1) x ∂π
        = ∫⁻ x, f x * f x ∂π + 2 * ∑ k ∈ Finset.range n, lagProd κ π f f (k + 1) + ∫⁻ x, sumM2 κ f n x ∂π := by
      have h0 := lintegral_iterInt hrev (mAdd (mAdd (mMul hf hf) ((mMul hf hm1).const_mul 2)) hm2) 1
      refine h0.trans ?_
      rw [lintegral_add_left (mAdd (mMul hf hf) ((mMul hf hm1).const_mul 2)), lintegral_add_left (mMul hf hf),
        lintegral_const_mul _ (mMul hf hm1)]
      congr 3
      simp only [sumM1_eq hf, Finset.mul_sum]
      rw [lintegral_finsetSum _ fun k _ => mMul hf (measurable_iterInt hf (k + 1))]
      rfl
    rw [e]
    have hs : (n : ℝ≥0∞) * a ≤ ∑ k ∈ Finset.range n, lagProd κ π f f (k + 1) := by
      calc (n : ℝ≥0∞) * a = ∑ _k ∈ Finset.range n, a := by simp
        _ ≤ _ := Finset.sum_le_sum fun k _ => h (k + 1)
    have ih := le_sumM2 hrev hf h n
    refine le_trans (le_of_eq ?_) (add_le_add (add_le_add le_rfl (mul_le_mul_right hs 2)) ih)
    rcases n with _ | n
    · simp
    · simp only [Nat.add_sub_cancel]
      push_cast
      ring

theorem le_sumM2_fin [IsFiniteMeasure π] (hrev : Rev κ π) (hpos : Pos κ π) {f : τ → ℝ≥0∞} (hf : Measurable f)
    (h2 : ∫⁻ x, f x * f x ∂π ≠ ∞) (n : ℕ) :
    n * (π Set.univ * ∫⁻ x, f x * f x ∂π) + (n * (n - 1) : ℕ) * ((∫⁻ x, f x ∂π) * ∫⁻ x, f x ∂π)
      ≤ π Set.univ * ∫⁻ x, sumM2 κ f n x ∂π := by
  by_cases h0 : π = 0
  · simp [h0]
  have hu : π Set.univ ≠ 0 := by simpa using h0
  have ht : π Set.univ ≠ ∞ := measure_ne_top π _
  set I := (∫⁻ x, f x ∂π) * ∫⁻ x, f x ∂π with hI
  have h := le_sumM2 hrev hf (a := (π Set.univ)⁻¹ * I) (fun k => by
    have h' := mul_le_mul_right (cov_nonneg_fin hrev hpos hf h2 k) (π Set.univ)⁻¹
    rwa [← mul_assoc _ (π Set.univ), ENNReal.inv_mul_cancel hu ht, one_mul] at h') n
  refine le_trans (le_of_eq ?_) (mul_le_mul_right h _)
  have e : ∀ c : ℝ≥0∞, π Set.univ * (c * ((π Set.univ)⁻¹ * I)) = c * I := fun c => by
    calc _ = (π Set.univ * (π Set.univ)⁻¹) * (c * I) := by ring
      _ = c * I := by rw [ENNReal.mul_inv_cancel hu ht, one_mul]
  rw [mul_add, e, mul_left_comm]

end Props
end Fbs
