import Verif.Model.Autocorr
import Mathlib.Data.Fintype.Perm
import Mathlib.Tactic.Linarith
import Mathlib.Tactic.FieldSimp
import Mathlib.Tactic.NormNum.Basic
import Mathlib.Algebra.Order.BigOperators.Ring.Finset
import Mathlib.Algebra.BigOperators.Field

/-!
# C101: the autocorrelation plots
-/

namespace Fbs
namespace Props

open Autocorr

variable {N d : ℕ}

/-! ### The sums -/

/-- The centred samples, zero beyond the end. -/
noncomputable def centred (x : Fin N → ℝ) (n : ℕ) : ℝ := if h : n < N then x ⟨n, h⟩ - mean x else 0

theorem centred_val (x : Fin N → ℝ) (t : Fin N) : centred x t = x t - mean x := by
  rw [centred, dif_pos t.2]

theorem lagSum_eq (x : Fin N → ℝ) (k : ℕ) : lagSum x k = ∑ t : Fin N, centred x t * centred x (t + k) := by
  refine Finset.sum_congr rfl fun t _ => ?_
  rw [centred_val]
  unfold centred
  split_ifs <;> ring

theorem lagSum_range (x : Fin N → ℝ) (k : ℕ) : lagSum x k = ∑ t ∈ Finset.range (N - k), centred x t * centred x (t + k) := by
  rw [lagSum_eq, Fin.sum_univ_eq_sum_range (fun t => centred x t * centred x (t + k)) N]
  refine (Finset.sum_subset (Finset.range_mono (Nat.sub_le N k)) fun t _ ht => ?_).symm
  rw [Finset.mem_range, not_lt] at ht
  rw [centred.eq_def x (t + k), dif_neg (by omega), mul_zero]

theorem lagSum_zero (x : Fin N → ℝ) : lagSum x 0 = ∑ t, (x t - mean x) ^ 2 := by
  rw [lagSum_eq]
  refine Finset.sum_congr rfl fun t _ => ?_
  rw [Nat.add_zero, centred_val, sq]

theorem lagSum_zero_nonneg (x : Fin N → ℝ) : 0 ≤ lagSum x 0 := by
  rw [lagSum_zero]
  exact Finset.sum_nonneg fun t _ => sq_nonneg _

theorem lagSum_abs_le (x : Fin N → ℝ) (k : ℕ) : |lagSum x k| ≤ lagSum x 0 := by
  have h0 : lagSum x 0 = ∑ t ∈ Finset.range N, centred x t ^ 2 := by
    rw [lagSum_range, Nat.sub_zero]
    exact Finset.sum_congr rfl fun t _ => by rw [Nat.add_zero, sq]
  have hshift : ∑ t ∈ Finset.range N, centred x (k + t) ^ 2 ≤ lagSum x 0 := by
    have e1 := Finset.sum_range_add (fun t => centred x t ^ 2) k N
    have e2 := Finset.sum_range_add (fun t => centred x t ^ 2) N k
    have e3 : ∑ t ∈ Finset.range k, centred x (N + t) ^ 2 = 0 :=
      Finset.sum_eq_zero fun t _ => by rw [centred, dif_neg (by omega)]; ring
    have e4 : 0 ≤ ∑ t ∈ Finset.range k, centred x t ^ 2 := Finset.sum_nonneg fun t _ => sq_nonneg _
    rw [Nat.add_comm k N] at e1
    rw [h0]
    linarith
  rw [lagSum_eq, Fin.sum_univ_eq_sum_range (fun t => centred x t * centred x (t + k)) N]
  refine (Finset.abs_sum_le_sum_abs _ _).trans ?_
  have h1 : ∀ t ∈ Finset.range N, |centred x t * centred x (t + k)| ≤ centred x t ^ 2 / 2 + centred x (k + t) ^ 2 / 2 := by
    intro t _
    rw [Nat.add_comm k t, abs_mul]
    nlinarith [sq_nonneg (|centred x t| - |centred x (t + k)|), sq_abs (centred x t), sq_abs (centred x (t + k))]
  refine (Finset.sum_le_sum h1).trans ?_
  rw [Finset.sum_add_distrib, ← Finset.sum_div, ← Finset.sum_div, ← h0]
  linarith

/-- No variation: all samples are equal. -/
theorem lagSum_zero_eq_zero (x : Fin N → ℝ) : lagSum x 0 = 0 ↔ ∀ s t, x s = x t := by
  rw [lagSum_zero, Finset.sum_eq_zero_iff_of_nonneg fun t _ => sq_nonneg _]
  constructor
  · intro h s t
    have hs := pow_eq_zero_iff (two_ne_zero) |>.1 (h s (Finset.mem_univ s))
    have ht := pow_eq_zero_iff (two_ne_zero) |>.1 (h t (Finset.mem_univ t))
    linarith
  · intro h t _
    have hN : (N : ℝ) ≠ 0 := by have := t.pos; positivity
    have : mean x = x t := by
      rw [mean, Finset.sum_congr rfl fun s _ => h s t, Finset.sum_const, Finset.card_univ, Fintype.card_fin, nsmul_eq_mul,
        mul_div_cancel_left₀ _ hN]
    rw [this]
    ring

theorem cov_zero (bias : Bool) (x : Fin N → ℝ) :
    lagSum x 0 / (if bias then 1 else (N : ℝ) - (0 : ℕ)) = 0 ↔ lagSum x 0 = 0 := by
  rcases Nat.eq_zero_or_pos N with rfl | h
  · have : lagSum x 0 = 0 := by rw [lagSum_zero]; simp
    simp [this]
  · have hN : (N : ℝ) ≠ 0 := by positivity
    cases bias <;> simp [hN]

theorem autocorr_some {bias : Bool} {x : Fin N → ℝ} (h : lagSum x 0 ≠ 0) (k : ℕ) :
    autocorr bias x k = some ((if bias then 1 else (N : ℝ) / ((N : ℝ) - k)) * (lagSum x k / lagSum x 0)) := by
  unfold autocorr
  simp only
  rw [if_neg ((cov_zero bias x).not.2 h)]
  have hN : (N : ℝ) ≠ 0 := by
    rcases Nat.eq_zero_or_pos N with rfl | hp
    · exact absurd (by rw [lagSum_zero]; simp) h
    · positivity
  cases bias
  · simp only [Bool.false_eq_true, if_false, Nat.cast_zero, sub_zero]
    congr 1
    rw [div_div_div_eq, mul_comm (lagSum x k), div_mul_div_comm]
  · simp

theorem autocorr_none {bias : Bool} {x : Fin N → ℝ} (h : lagSum x 0 = 0) (k : ℕ) : autocorr bias x k = none := by
  unfold autocorr
  simp only
  rw [if_pos ((cov_zero bias x).2 h)]

/-! ### One variable -/

/-- **C101, when there is a value.**  The autocorrelation of a variable is nan, at every lag, exactly if the variable never changes. -/
theorem C101_nan_iff (bias : Bool) (x : Fin N → ℝ) (k : ℕ) : autocorr bias x k = none ↔ ∀ s t, x s = x t := by
  rw [← lagSum_zero_eq_zero]
  constructor
  · intro h
    by_contra hc
    rw [autocorr_some hc] at h
    exact absurd h (by simp)
  · intro h
    exact autocorr_none h k

/-- **C101, lag zero.**  The curve of a variable starts at one. -/
theorem C101_lag_zero {bias : Bool} {x : Fin N → ℝ} {s t : Fin N} (h : x s ≠ x t) : autocorr bias x 0 = some 1 := by
  have h' : lagSum x 0 ≠ 0 := fun e => h ((lagSum_zero_eq_zero x).1 e s t)
  have hN : (N : ℝ) ≠ 0 := by have := s.pos; positivity
  rw [autocorr_some h', div_self h']
  cases bias <;> simp [hN]

/-- **C101, range.**  At lag `k` the values are at most `N / (N - k)` in size, at most one if the sums are not divided by their numbers of terms. -/
theorem C101_range {bias : Bool} {x : Fin N → ℝ} {k : ℕ} (hk : k < N) {r : ℝ} (h : autocorr bias x k = some r) :
    |r| ≤ if bias then 1 else (N : ℝ) / ((N : ℝ) - k) := by
  have h' : lagSum x 0 ≠ 0 := fun e => by rw [autocorr_none e] at h; exact absurd h (by simp)
  rw [autocorr_some h', Option.some.injEq] at h
  have hk' : (0 : ℝ) < (N : ℝ) - k := by
    have : (k : ℝ) < N := by exact_mod_cast hk
    linarith
  have hpos : 0 ≤ (if bias then 1 else (N : ℝ) / ((N : ℝ) - k)) := by
    cases bias
    · simp only [Bool.false_eq_true, if_false]
      exact div_nonneg (Nat.cast_nonneg _) hk'.le
    · simp
  have h1 : |lagSum x k / lagSum x 0| ≤ 1 := by
    rw [abs_div, abs_of_nonneg (lagSum_zero_nonneg x)]
    exact div_le_one_of_le₀ (lagSum_abs_le x k) (lagSum_zero_nonneg x)
  rw [← h, abs_mul, abs_of_nonneg hpos]
  exact mul_le_of_le_one_right hpos h1

theorem mean_affine (x : Fin N → ℝ) (a b : ℝ) (hN : 0 < N) : mean (fun t => a * x t + b) = a * mean x + b := by
  have : (N : ℝ) ≠ 0 := by positivity
  rw [mean, mean, Finset.sum_add_distrib, ← Finset.mul_sum, Finset.sum_const, Finset.card_univ, Fintype.card_fin, nsmul_eq_mul]
  field_simp

/-- **C101, units.**  The curve does not depend on the units in which a variable is measured. -/
theorem C101_affine (bias : Bool) (x : Fin N → ℝ) {a : ℝ} (ha : a ≠ 0) (b : ℝ) (k : ℕ) :
    autocorr bias (fun t => a * x t + b) k = autocorr bias x k := by
  have h : ∀ k, lagSum (fun t => a * x t + b) k = a ^ 2 * lagSum x k := by
    intro k
    unfold lagSum
    rw [Finset.mul_sum]
    refine Finset.sum_congr rfl fun t _ => ?_
    rw [mean_affine x a b t.pos]
    split_ifs <;> ring
  have ha2 : a ^ 2 ≠ 0 := pow_ne_zero 2 ha
  by_cases h0 : lagSum x 0 = 0
  · rw [autocorr_none h0, autocorr_none (by rw [h, h0, mul_zero])]
  · rw [autocorr_some h0, autocorr_some (by rw [h]; exact mul_ne_zero ha2 h0), h, h, mul_div_mul_left _ _ ha2]

theorem mean_equiv (x : Fin N → ℝ) (σ : Equiv.Perm (Fin N)) : mean (x ∘ σ) = mean x := by
  rw [mean, mean]
  congr 1
  exact Equiv.sum_comp σ x

/-- **C101, time.**  A chain read backwards has the same curve. -/
theorem C101_reverse (bias : Bool) (x : Fin N → ℝ) (k : ℕ) : autocorr bias (x ∘ Fin.rev) k = autocorr bias x k := by
  have hc : ∀ n, n < N → centred (x ∘ Fin.rev) n = centred x (N - 1 - n) := by
    intro n hn
    rw [centred, dif_pos hn, centred, dif_pos (by omega), show mean (x ∘ Fin.rev) = mean x from mean_equiv x Fin.revPerm]
    simp only [Function.comp_apply]
    congr 2
    ext
    rw [Fin.val_rev]
    simp only
    omega
  have h : ∀ k, lagSum (x ∘ Fin.rev) k = lagSum x k := by
    intro k
    rw [lagSum_range, lagSum_range, ← Finset.sum_range_reflect]
    refine Finset.sum_congr rfl fun t ht => ?_
    rw [Finset.mem_range] at ht
    rw [hc _ (by omega), hc _ (by omega), mul_comm, show N - 1 - (N - k - 1 - t + k) = t by omega,
      show N - 1 - (N - k - 1 - t) = t + k by omega]
  by_cases h0 : lagSum x 0 = 0
  · rw [autocorr_none h0, autocorr_none (by rw [h, h0])]
  · rw [autocorr_some h0, autocorr_some (by rw [h]; exact h0), h, h]

/-! ### Samples in random order -/

theorem sum_perm_pair (y : Fin N → ℝ) (hy : ∑ t, y t = 0) {a b : Fin N} (hab : a ≠ b) :
    (N : ℝ) * ((N : ℝ) - 1) * ∑ σ : Equiv.Perm (Fin N), y (σ a) * y (σ b) = -(N.factorial : ℝ) * ∑ t, y t ^ 2 := by
  have same : ∀ {a' b' : Fin N}, a' ≠ b' → ∑ σ : Equiv.Perm (Fin N), y (σ a') * y (σ b') = ∑ σ : Equiv.Perm (Fin N), y (σ a) * y (σ b) := by
    intro a' b' h'
    obtain ⟨τ, h1, h2⟩ : ∃ τ : Equiv.Perm (Fin N), τ a = a' ∧ τ b = b' := by
      refine ⟨Equiv.swap (Equiv.swap a a' b) b' * Equiv.swap a a', ?_, ?_⟩
      · rw [Equiv.Perm.mul_apply, Equiv.swap_apply_left]
        refine Equiv.swap_apply_of_ne_of_ne ?_ h'
        intro h
        exact hab ((Equiv.swap a a').injective ((Equiv.swap_apply_left a a').trans h))
      · rw [Equiv.Perm.mul_apply, Equiv.swap_apply_left]
    rw [← Equiv.sum_comp (Equiv.mulRight τ) fun σ => y (σ a) * y (σ b)]
    refine Finset.sum_congr rfl fun σ _ => ?_
    rw [Equiv.coe_mulRight, Equiv.Perm.mul_apply, Equiv.Perm.mul_apply, h1, h2]
  set A := ∑ σ : Equiv.Perm (Fin N), y (σ a) * y (σ b)
  have row : ∀ a' : Fin N, ((N : ℝ) - 1) * A = -∑ σ : Equiv.Perm (Fin N), y (σ a') ^ 2 := by
    intro a'
    have h1 : ∑ b' ∈ Finset.univ.erase a', ∑ σ : Equiv.Perm (Fin N), y (σ a') * y (σ b') = ((N : ℝ) - 1) * A := by
      rw [Finset.sum_congr rfl fun b' hb' => same (Finset.ne_of_mem_erase hb').symm, Finset.sum_const,
        Finset.card_erase_of_mem (Finset.mem_univ a'), Finset.card_univ, Fintype.card_fin, nsmul_eq_mul,
        Nat.cast_sub (by have := a'.pos; omega), Nat.cast_one]
    rw [← h1, Finset.sum_comm, ← Finset.sum_neg_distrib]
    refine Finset.sum_congr rfl fun σ _ => ?_
    have h2 : ∑ b' ∈ Finset.univ.erase a', y (σ b') = -y (σ a') := by
      have h3 := Finset.add_sum_erase Finset.univ (fun b' => y (σ b')) (Finset.mem_univ a')
      have h4 : ∑ b', y (σ b') = 0 := by rw [Equiv.sum_comp σ y]; exact hy
      linarith
    rw [← Finset.mul_sum, h2]
    ring
  have h5 : ∑ a' : Fin N, ((N : ℝ) - 1) * A = -∑ a' : Fin N, ∑ σ : Equiv.Perm (Fin N), y (σ a') ^ 2 := by
    rw [← Finset.sum_neg_distrib]
    exact Finset.sum_congr rfl fun a' _ => row a'
  rw [Finset.sum_const, Finset.card_univ, Fintype.card_fin, nsmul_eq_mul, ← mul_assoc] at h5
  rw [h5, Finset.sum_comm]
  have h6 : ∀ σ : Equiv.Perm (Fin N), ∑ a', y (σ a') ^ 2 = ∑ t, y t ^ 2 := fun σ => Equiv.sum_comp σ fun t => y t ^ 2
  rw [Finset.sum_congr rfl fun σ _ => h6 σ, Finset.sum_const, Finset.card_univ, Fintype.card_perm, Fintype.card_fin, nsmul_eq_mul]
  ring

/-- **C101, independent samples.**  The autocorrelations of the samples in a random order are not zero on average: the average over all orders, and
with it the expectation for independent or exchangeable samples, is `-1 / (N - 1)` at every lag `0 < k < N`
(`-(N - k) / (N (N - 1))` without the division by the number of terms). -/
theorem C101_random_order {bias : Bool} {x : Fin N → ℝ} {s t : Fin N} (hx : x s ≠ x t) {k : ℕ} (hk : 0 < k) (hkN : k < N) :
    ∃ r : Equiv.Perm (Fin N) → ℝ, (∀ σ : Equiv.Perm (Fin N), autocorr bias (x ∘ σ) k = some (r σ)) ∧
      (∑ σ, r σ) / N.factorial = if bias then -((N : ℝ) - k) / (N * ((N : ℝ) - 1)) else -1 / ((N : ℝ) - 1) := by
  have h0 : lagSum x 0 ≠ 0 := fun e => hx ((lagSum_zero_eq_zero x).1 e s t)
  have hN : (1 : ℝ) < N := by exact_mod_cast (by omega : 1 < N)
  have hk' : (0 : ℝ) < (N : ℝ) - k := by
    have : (k : ℝ) < N := by exact_mod_cast hkN
    linarith
  have hf : (N.factorial : ℝ) ≠ 0 := by positivity
  have hS : ∀ σ : Equiv.Perm (Fin N), lagSum (x ∘ σ) 0 = lagSum x 0 := by
    intro σ
    rw [lagSum_zero, lagSum_zero, mean_equiv]
    exact Equiv.sum_comp σ fun t => (x t - mean x) ^ 2
  refine ⟨_, fun σ => autocorr_some (by rw [hS]; exact h0) k, ?_⟩
  have hy : ∑ t, (x t - mean x) = 0 := by
    rw [Finset.sum_sub_distrib, Finset.sum_const, Finset.card_univ, Fintype.card_fin, nsmul_eq_mul, mean,
      mul_div_cancel₀ _ (by linarith : (N : ℝ) ≠ 0), sub_self]
  have key : (N : ℝ) * ((N : ℝ) - 1) * ∑ σ : Equiv.Perm (Fin N), lagSum (x ∘ σ) k = -((N : ℝ) - k) * N.factorial * lagSum x 0 := by
    have e : ∀ σ : Equiv.Perm (Fin N), lagSum (x ∘ σ) k = ∑ t : Fin (N - k),
        (x (σ ⟨t, by omega⟩) - mean x) * (x (σ ⟨t + k, by omega⟩) - mean x) := by
      intro σ
      rw [lagSum_range, ← Fin.sum_univ_eq_sum_range (fun t => centred (x ∘ σ) t * centred (x ∘ σ) (t + k))]
      refine Finset.sum_congr rfl fun t _ => ?_
      rw [centred, dif_pos (by omega), centred, dif_pos (by omega), mean_equiv]
      rfl
    simp only [e]
    rw [Finset.sum_comm, Finset.mul_sum]
    rw [Finset.sum_congr rfl fun t _ => sum_perm_pair (fun t => x t - mean x) hy (a := ⟨(t : Fin (N - k)), by omega⟩)
      (b := ⟨t + k, by omega⟩) (by simp [Fin.ext_iff]; omega)]
    rw [Finset.sum_const, Finset.card_univ, Fintype.card_fin, nsmul_eq_mul, Nat.cast_sub hkN.le, lagSum_zero]
    ring
  simp only [hS]
  rw [← Finset.mul_sum, ← Finset.sum_div]
  have key' : ∑ σ : Equiv.Perm (Fin N), lagSum (x ∘ σ) k = -((N : ℝ) - k) * N.factorial * lagSum x 0 / (N * ((N : ℝ) - 1)) := by
    rw [eq_div_iff (mul_ne_zero (by linarith) (by linarith)), ← key]
    ring
  rw [key']
  have h1 : (N : ℝ) - 1 ≠ 0 := by linarith
  have h2 : (N : ℝ) ≠ 0 := by linarith
  cases bias
  · simp only [Bool.false_eq_true, if_false]
    field_simp
  · simp only [if_true]
    field_simp

/-! ### The curves -/

/-- **C101, the image plot.**  At each lag the value is the smallest autocorrelation of a variable that changes, negative ones counted as zero; there is
no value only if no variable changes. -/
theorem C101_img_curve (bias : Bool) (samples : Fin N → Fin d → ℝ) (k : ℕ) :
    (∀ v, imgCurve bias samples k = some v ↔
      (∃ j r, autocorr bias (fun t => samples t j) k = some r ∧ v = max r 0) ∧
      ∀ j r, autocorr bias (fun t => samples t j) k = some r → v ≤ max r 0) ∧
    (imgCurve bias samples k = none ↔ ∀ j s t, samples s j = samples t j) := by
  have clip : ∀ r : ℝ, (if r < 0 then 0 else r) = max r 0 := fun r => by
    split_ifs with h
    · exact (max_eq_right h.le).symm
    · exact (max_eq_left (not_lt.1 h)).symm
  have mem : ∀ v, v ∈ (List.ofFn fun j => acFn bias (fun t => samples t j) k).filterMap id ↔
      ∃ j r, autocorr bias (fun t => samples t j) k = some r ∧ v = max r 0 := by
    intro v
    rw [List.mem_filterMap]
    constructor
    · rintro ⟨o, ho, hov⟩
      obtain ⟨j, rfl⟩ := (List.mem_ofFn' _ _).1 ho
      obtain ⟨r, hr, rfl⟩ := Option.map_eq_some_iff.1 hov
      exact ⟨j, r, hr, clip r⟩
    · rintro ⟨j, r, hr, rfl⟩
      refine ⟨_, (List.mem_ofFn' _ _).2 ⟨j, rfl⟩, ?_⟩
      rw [← clip]
      show (autocorr bias (fun t => samples t j) k).map _ = _
      rw [hr]
      rfl
  constructor
  · intro v
    rw [imgCurve, nanmin, List.min?_eq_some_iff, mem]
    refine and_congr_right fun _ => ⟨fun h j r hr => h _ ((mem _).2 ⟨j, r, hr, rfl⟩), fun h w hw => ?_⟩
    obtain ⟨j, r, hr, rfl⟩ := (mem w).1 hw
    exact h j r hr
  · rw [imgCurve, nanmin, List.min?_eq_none_iff, List.eq_nil_iff_forall_not_mem]
    constructor
    · intro h j
      rw [← C101_nan_iff bias (fun t => samples t j) k]
      by_contra hc
      obtain ⟨r, hr⟩ := Option.ne_none_iff_exists'.1 hc
      exact h _ ((mem _).2 ⟨j, r, hr, rfl⟩)
    · intro h v hv
      obtain ⟨j, r, hr, -⟩ := (mem v).1 hv
      rw [(C101_nan_iff bias _ k).2 (h j)] at hr
      exact absurd hr (by simp)

theorem noNan_some {v : List (Option ℝ)} {l : List ℝ} : noNan v = some l ↔ v = l.map some := by
  unfold noNan
  induction v generalizing l with
  | nil => cases l <;> simp
  | cons a v ih =>
    rw [List.mapM_cons]
    constructor
    · intro h
      obtain ⟨b, hb, h⟩ := Option.bind_eq_some_iff.1 h
      obtain ⟨l', hl', h⟩ := Option.bind_eq_some_iff.1 h
      obtain rfl : b :: l' = l := by simpa using h
      rw [ih.1 hl', List.map_cons, show a = some b from hb]
    · intro h
      cases l with
      | nil => simp at h
      | cons b l =>
        rw [List.map_cons, List.cons.injEq] at h
        rw [h.1]
        have := ih.2 h.2
        show (some b >>= fun b => v.mapM id >>= fun l => pure (b :: l)) = _
        rw [this]
        rfl

/-- **C101, the toy plot.**  At each lag the value is the largest, over the variables, of the means over the chains. -/
theorem C101_toy_curve {c : ℕ} (bias : Bool) (chains : Fin c → Fin N → Fin d → ℝ) (k : ℕ) {v : ℝ} (h : toyCurve bias chains k = some v) :
    ∃ r : Fin c → Fin d → ℝ, (∀ i j, autocorr bias (fun t => chains i t j) k = some (r i j)) ∧
      (∃ j, v = (∑ i, r i j) / c) ∧ ∀ j, (∑ i, r i j) / c ≤ v := by
  obtain ⟨l, hl, hv⟩ := Option.bind_eq_some_iff.1 h
  rw [noNan_some] at hl
  have hlen : l.length = d := by simpa using (congrArg List.length hl).symm
  have hj : ∀ j : Fin d, overChains bias chains j k = some (l[(j : ℕ)]'(by omega)) := by
    intro j
    have := congrArg (fun q => q[(j : ℕ)]?) hl
    simpa [hlen] using this
  have hr : ∀ j : Fin d, ∃ r : Fin c → ℝ, (∀ i, autocorr bias (fun t => chains i t j) k = some (r i)) ∧
      (∑ i, r i) / c = l[(j : ℕ)]'(by omega) := by
    intro j
    obtain ⟨l', hl', e⟩ := Option.map_eq_some_iff.1 (hj j)
    rw [noNan_some] at hl'
    have hlen' : l'.length = c := by simpa using (congrArg List.length hl').symm
    refine ⟨fun i => l'[(i : ℕ)]'(by omega), fun i => ?_, ?_⟩
    · have := congrArg (fun q => q[(i : ℕ)]?) hl'
      simpa [hlen'] using this
    · rw [← e]
      congr 1
      subst hlen'
      rw [← Fin.sum_ofFn, List.ofFn_getElem]
  choose r h1 h2 using hr
  rw [List.max?_eq_some_iff] at hv
  refine ⟨fun i j => r j i, fun i j => h1 j i, ?_, fun j => ?_⟩
  · obtain ⟨n, hn, e⟩ := List.mem_iff_getElem.1 hv.1
    exact ⟨⟨n, by omega⟩, by rw [h2 ⟨n, by omega⟩]; exact e.symm⟩
  · rw [h2 j]
    exact hv.2 _ (List.getElem_mem _)

/-- **C101, the toy plot has values.**  If there is a variable and every variable changes in every chain, the curve has a value at every lag. -/
theorem C101_toy_defined {c : ℕ} (bias : Bool) {chains : Fin c → Fin N → Fin d → ℝ} (hd : 0 < d)
    (h : ∀ i j, ∃ s t, chains i s j ≠ chains i t j) (k : ℕ) : ∃ v, toyCurve bias chains k = some v := by
  have hr : ∀ i j, ∃ r, autocorr bias (fun t => chains i t j) k = some r := by
    intro i j
    refine Option.ne_none_iff_exists'.1 fun hc => ?_
    obtain ⟨s, t, hst⟩ := h i j
    exact hst ((C101_nan_iff bias _ k).1 hc s t)
  choose r hr using hr
  have ho : ∀ j, overChains bias chains j k = some ((List.ofFn fun i => r i j).sum / c) := by
    intro j
    have e : noNan (List.ofFn fun i => autocorr bias (fun t => chains i t j) k) = some (List.ofFn fun i => r i j) := by
      rw [noNan_some, List.map_ofFn]
      exact congrArg List.ofFn (funext fun i => hr i j)
    show Option.map _ (noNan (List.ofFn fun i => autocorr bias (fun t => chains i t j) k)) = _
    rw [e]
    rfl
  have e : noNan (List.ofFn fun j => overChains bias chains j k) = some (List.ofFn fun j => (List.ofFn fun i => r i j).sum / (c : ℝ)) := by
    rw [noNan_some, List.map_ofFn]
    exact congrArg List.ofFn (funext ho)
  unfold toyCurve
  rw [e, Option.bind_some]
  refine Option.ne_none_iff_exists'.1 fun hc => ?_
  rw [List.max?_eq_none_iff, List.ofFn_eq_nil_iff] at hc
  omega

/-- **C101, the toy plot and nan.**  One variable that never changes in one of the chains makes the whole curve nan. -/
theorem C101_toy_nan {c : ℕ} (bias : Bool) {chains : Fin c → Fin N → Fin d → ℝ} {i : Fin c} {j : Fin d}
    (h : ∀ s t, chains i s j = chains i t j) (k : ℕ) : toyCurve bias chains k = none := by
  by_contra hc
  obtain ⟨v, hv⟩ := Option.ne_none_iff_exists'.1 hc
  obtain ⟨r, hr, -⟩ := C101_toy_curve bias chains k hv
  have := hr i j
  rw [(C101_nan_iff bias _ k).2 h] at this
  exact absurd this (by simp)

/-- Two variables, four samples: the first jumps at every step, the second once. -/
noncomputable def twoVars (t : Fin 4) (j : Fin 2) : ℝ := if j = 0 then (-1) ^ (t : ℕ) else if (t : ℕ) < 2 then 1 else -1

theorem twoVars_corr (bias : Bool) :
    autocorr bias (fun t => twoVars t 0) 1 = some ((if bias then 1 else 4 / 3) * (-3 / 4)) ∧
    autocorr bias (fun t => twoVars t 0) 2 = some ((if bias then 1 else 2) * (1 / 2)) ∧
    autocorr bias (fun t => twoVars t 1) 1 = some ((if bias then 1 else 4 / 3) * (1 / 4)) ∧
    autocorr bias (fun t => twoVars t 1) 2 = some ((if bias then 1 else 2) * (-1 / 2)) := by
  have m0 : mean (fun t => twoVars t 0) = 0 := by norm_num [mean, twoVars, Fin.sum_univ_four, Fin.val_two, Fin.val_ofNat]
  have m1 : mean (fun t => twoVars t 1) = 0 := by norm_num [mean, twoVars, Fin.sum_univ_four, Fin.val_two, Fin.val_ofNat]
  have c0 : ∀ n, centred (fun t => twoVars t 0) n = if n < 4 then (-1) ^ n else 0 := by
    intro n
    rw [centred, m0]
    split_ifs <;> simp [twoVars]
  have c1 : ∀ n, centred (fun t => twoVars t 1) n = if n < 4 then (if n < 2 then 1 else -1) else 0 := by
    intro n
    rw [centred, m1]
    split_ifs <;> simp_all [twoVars]
  have a0 : lagSum (fun t => twoVars t 0) 0 = 4 := by rw [lagSum_range]; norm_num [Finset.sum_range_succ, c0]
  have a1 : lagSum (fun t => twoVars t 0) 1 = -3 := by rw [lagSum_range]; norm_num [Finset.sum_range_succ, c0]
  have a2 : lagSum (fun t => twoVars t 0) 2 = 2 := by rw [lagSum_range]; norm_num [Finset.sum_range_succ, c0]
  have b0 : lagSum (fun t => twoVars t 1) 0 = 4 := by rw [lagSum_range]; norm_num [Finset.sum_range_succ, c1]
  have b1 : lagSum (fun t => twoVars t 1) 1 = 1 := by rw [lagSum_range]; norm_num [Finset.sum_range_succ, c1]
  have b2 : lagSum (fun t => twoVars t 1) 2 = -2 := by rw [lagSum_range]; norm_num [Finset.sum_range_succ, c1]
  have ha : lagSum (fun t => twoVars t 0) 0 ≠ 0 := by rw [a0]; norm_num
  have hb : lagSum (fun t => twoVars t 1) 0 ≠ 0 := by rw [b0]; norm_num
  rw [autocorr_some ha, autocorr_some ha, autocorr_some hb, autocorr_some hb, a0, a1, a2, b0, b1, b2]
  cases bias <;> norm_num

/-- **C101 fails: the curves are not those of one variable.**  The axes are labelled "best variable" and "worst variable"; here neither plotted curve is the
curve of one of the two variables. -/
theorem C101_not_one_variable (bias : Bool) :
    (¬ ∃ j : Fin 2, ∀ k, imgCurve bias twoVars k = acFn bias (fun t => twoVars t j) k) ∧
    ¬ ∃ j : Fin 2, ∀ k, toyCurve bias (fun _ : Fin 1 => twoVars) k = autocorr bias (fun t => twoVars t j) k := by
  obtain ⟨h1, h2, h3, h4⟩ := twoVars_corr bias
  have two : ∀ j : Fin 2, j = 0 ∨ j = 1 := by decide
  constructor
  · rintro ⟨j, hj⟩
    rcases two j with rfl | rfl
    · have e := hj 2
      rw [show acFn bias (fun t => twoVars t 0) 2 = _ from congrArg (Option.map _) h2] at e
      have := ((C101_img_curve bias twoVars 2).1 _).1 e
      have := this.2 1 _ h4
      cases bias <;> norm_num at this
    · have e := hj 1
      rw [show acFn bias (fun t => twoVars t 1) 1 = _ from congrArg (Option.map _) h3] at e
      have := ((C101_img_curve bias twoVars 1).1 _).1 e
      have := this.2 0 _ h1
      cases bias <;> norm_num at this
  · rintro ⟨j, hj⟩
    rcases two j with rfl | rfl
    · have e := hj 1
      rw [h1] at e
      obtain ⟨r, hr, -, hm⟩ := C101_toy_curve bias _ 1 e
      have e1 := hr 0 1
      rw [h3, Option.some.injEq] at e1
      have := hm 1
      rw [Fin.sum_univ_one, ← e1] at this
      cases bias <;> norm_num at this
    · have e := hj 2
      rw [h4] at e
      obtain ⟨r, hr, -, hm⟩ := C101_toy_curve bias _ 2 e
      have e1 := hr 0 0
      rw [h2, Option.some.injEq] at e1
      have := hm 0
      rw [Fin.sum_univ_one, ← e1] at this
      cases bias <;> norm_num at this

/-! ### The hypotheses can be met -/

example (bias : Bool) : autocorr bias (fun t => twoVars t 0) 0 = some 1 :=
  C101_lag_zero (s := 0) (t := 1) (by norm_num [twoVars])

example : ∃ r : Equiv.Perm (Fin 4) → ℝ, (∀ σ : Equiv.Perm (Fin 4), autocorr false ((fun t => twoVars t 0) ∘ σ) 2 = some (r σ)) ∧
    (∑ σ, r σ) / Nat.factorial 4 = -1 / 3 := by
  obtain ⟨r, h1, h2⟩ := C101_random_order (bias := false) (x := fun t => twoVars t 0) (s := 0) (t := 1) (by norm_num [twoVars])
    (k := 2) (by norm_num) (by norm_num)
  exact ⟨r, h1, by rw [h2]; norm_num⟩

example : |(1 : ℝ)| ≤ 2 := by
  have := C101_range (bias := false) (x := fun t => twoVars t 0) (k := 2) (by norm_num) (r := 1) (by rw [(twoVars_corr false).2.1]; norm_num)
  norm_num at this ⊢

example (k : ℕ) : toyCurve true (fun _ : Fin 1 => fun t : Fin 4 => ![(t : ℝ), 7]) k = none :=
  C101_toy_nan true (i := 0) (j := 1) (by intros; rfl) k

example (k : ℕ) : ∃ v, toyCurve false (fun _ : Fin 3 => twoVars) k = some v :=
  C101_toy_defined false (by norm_num) (fun _ j => ⟨0, 3, by fin_cases j <;> norm_num [twoVars]⟩) k

end Props
end Fbs
