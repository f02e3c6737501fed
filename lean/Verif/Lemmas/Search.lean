import Verif.Base.Jax
import Mathlib.Algebra.BigOperators.Fin
import Mathlib.Order.Interval.Finset.Fin

/-! Lemmas on `cumsum`, `searchsorted`, `clipIdx` and `choiceIdx`. -/

open MeasureTheory
open scoped ENNReal

namespace Fbs
namespace Jax

variable {n : ℕ}

/-- Sum of the weights strictly before `i`. -/
def presum (w : Fin n → ℝ) (i : Fin n) : ℝ := ∑ j ∈ Finset.Iio i, w j

theorem cumsum_eq (w : Fin n → ℝ) (i : Fin n) : cumsum w i = presum w i + w i := by
  unfold cumsum presum
  rw [← Finset.Iio_insert, Finset.sum_insert (by simp)]
  ring

theorem presum_nonneg {w : Fin n → ℝ} (hw : ∀ i, 0 ≤ w i) (i : Fin n) : 0 ≤ presum w i :=
  Finset.sum_nonneg fun j _ => hw j

theorem cumsum_mono {w : Fin n → ℝ} (hw : ∀ i, 0 ≤ w i) {i j : Fin n} (h : i ≤ j) :
    cumsum w i ≤ cumsum w j :=
  Finset.sum_le_sum_of_subset_of_nonneg (Finset.Iic_subset_Iic.2 h) fun k _ _ => hw k

theorem cumsum_le_total {w : Fin n → ℝ} (hw : ∀ i, 0 ≤ w i) (i : Fin n) :
    cumsum w i ≤ total w :=
  Finset.sum_le_sum_of_subset_of_nonneg (Finset.subset_univ _) fun k _ _ => hw k

theorem cumsum_le_presum {w : Fin n → ℝ} (hw : ∀ i, 0 ≤ w i) {i j : Fin n} (h : i < j) :
    cumsum w i ≤ presum w j := by
  apply Finset.sum_le_sum_of_subset_of_nonneg _ fun k _ _ => hw k
  intro k hk
  simp at hk ⊢
  exact lt_of_le_of_lt hk h

/-- `searchsorted` is the lower adjoint of the cumulative sum. -/
theorem searchsorted_le_iff {w : Fin n → ℝ} (hw : ∀ i, 0 ≤ w i) (v : ℝ) (i : Fin n) :
    searchsorted (cumsum w) v ≤ i ↔ v ≤ cumsum w i := by
  classical
  unfold searchsorted
  constructor
  · intro h
    by_contra hv
    push Not at hv
    have : Finset.Iic i ⊆ Finset.univ.filter fun j => cumsum w j < v := by
      intro j hj
      simp at hj ⊢
      exact lt_of_le_of_lt (cumsum_mono hw hj) hv
    have := Finset.card_le_card this
    simp at this
    have h' : (Finset.univ.filter fun j => cumsum w j < v).card ≤ i := by convert h
    omega
  · intro h
    have : (Finset.univ.filter fun j => cumsum w j < v) ⊆ Finset.Iio i := by
      intro j hj
      simp at hj ⊢
      by_contra hij
      push Not at hij
      exact absurd (cumsum_mono hw hij) (by linarith)
    have := Finset.card_le_card this
    simp at this
    convert this

theorem searchsorted_le_card (a : Fin n → ℝ) (v : ℝ) : searchsorted a v ≤ n := by
  classical
  unfold searchsorted
  calc _ ≤ (Finset.univ : Finset (Fin n)).card := Finset.card_le_card (Finset.filter_subset _ _)
    _ = n := by simp

theorem total_eq_cumsum_last [NeZero n] (w : Fin n → ℝ) :
    total w = cumsum w (clipIdx n (n - 1)) := by
  unfold total cumsum
  apply Finset.sum_congr _ fun _ _ => rfl
  ext i
  simp [clipIdx, Fin.le_def]
  omega

theorem searchsorted_lt_iff [NeZero n] {w : Fin n → ℝ} (hw : ∀ i, 0 ≤ w i) (v : ℝ) :
    searchsorted (cumsum w) v < n ↔ v ≤ total w := by
  rw [total_eq_cumsum_last, ← searchsorted_le_iff hw]
  have : 0 < n := Nat.pos_of_ne_zero (NeZero.ne n)
  simp [clipIdx]
  omega

theorem clipIdx_of_lt [NeZero n] {i : ℕ} (h : i < n) : clipIdx n i = ⟨i, h⟩ := by
  ext; simp [clipIdx]; omega

theorem clipIdx_mono [NeZero n] {i j : ℕ} (h : i ≤ j) : clipIdx n i ≤ clipIdx n j := by
  simp [clipIdx, Fin.le_def]
  omega

theorem searchsorted_mono (a : Fin n → ℝ) {v v' : ℝ} (h : v ≤ v') :
    searchsorted a v ≤ searchsorted a v' := by
  classical
  unfold searchsorted
  apply Finset.card_le_card
  intro j hj
  simp at hj ⊢
  linarith

/-- Characterisation of the selected index for a query in `(0, total]`. -/
theorem searchsorted_eq_iff [NeZero n] {w : Fin n → ℝ} (hw : ∀ i, 0 ≤ w i) {v : ℝ}
    (hv0 : 0 < v) (i : Fin n) :
    searchsorted (cumsum w) v = i ↔ presum w i < v ∧ v ≤ cumsum w i := by
  rw [← searchsorted_le_iff hw]
  rcases Nat.eq_zero_or_pos (i : ℕ) with hi | hi
  · have hp : presum w i = 0 := by
      unfold presum
      have : Finset.Iio i = ∅ := by
        ext j; simp only [Finset.mem_Iio, Fin.lt_def, Finset.notMem_empty, iff_false]; omega
      rw [this]; simp
    rw [hp, hi]
    simp [hv0]
  · let i' : Fin n := ⟨i - 1, by omega⟩
    have hp : presum w i = cumsum w i' := by
      unfold presum cumsum
      apply Finset.sum_congr _ fun _ _ => rfl
      ext j
      simp only [Finset.mem_Iio, Finset.mem_Iic, Fin.le_def, Fin.lt_def, i']
      omega
    rw [hp]
    have := searchsorted_le_iff hw v i'
    have h2 : (i' : ℕ) = i - 1 := rfl
    rw [← not_le, ← this, h2]
    omega

theorem clip_searchsorted_eq_iff [NeZero n] {w : Fin n → ℝ} (hw : ∀ i, 0 ≤ w i) {v : ℝ}
    (hv0 : 0 < v) (hv : v ≤ total w) (i : Fin n) :
    clipIdx n (searchsorted (cumsum w) v) = i ↔ presum w i < v ∧ v ≤ cumsum w i := by
  have hlt := (searchsorted_lt_iff hw v).2 hv
  rw [clipIdx_of_lt hlt, ← searchsorted_eq_iff hw hv0, Fin.ext_iff]

/-- A zero query selects index zero (this is where `side='left'` matters). -/
theorem searchsorted_zero {w : Fin n → ℝ} (hw : ∀ i, 0 ≤ w i) :
    searchsorted (cumsum w) 0 = 0 := by
  classical
  unfold searchsorted
  rw [Finset.card_eq_zero, Finset.filter_eq_empty_iff]
  intro i _
  have : 0 ≤ cumsum w i := Finset.sum_nonneg fun j _ => hw j
  exact not_lt.2 this

theorem choiceIdx_eq_iff [NeZero n] {p : Fin n → ℝ} (hp : ∀ i, 0 ≤ p i) (hT : 0 < total p)
    {u : ℝ} (hu : u ∈ Set.Ico (0 : ℝ) 1) (i : Fin n) :
    choiceIdx p u = i ↔ presum p i < total p * (1 - u) ∧ total p * (1 - u) ≤ cumsum p i := by
  apply clip_searchsorted_eq_iff hp
  · have := hu.2; apply mul_pos hT; linarith
  · have := hu.1; nlinarith

/-- The clip in `choiceIdx` is inert for admissible draws. -/
theorem choiceIdx_eq [NeZero n] {p : Fin n → ℝ} (hp : ∀ i, 0 ≤ p i)
    {u : ℝ} (hu : u ∈ Set.Ico (0 : ℝ) 1) :
    (choiceIdx p u : ℕ) = searchsorted (cumsum p) (total p * (1 - u)) := by
  have hT : 0 ≤ total p := Finset.sum_nonneg fun i _ => hp i
  have : searchsorted (cumsum p) (total p * (1 - u)) < n := by
    rw [searchsorted_lt_iff hp]
    have := hu.1; nlinarith
  unfold choiceIdx
  rw [clipIdx_of_lt this]

/-- `choice` never returns an index of probability zero. -/
theorem choiceIdx_pos [NeZero n] {p : Fin n → ℝ} (hp : ∀ i, 0 ≤ p i) (hT : 0 < total p)
    {u : ℝ} (hu : u ∈ Set.Ico (0 : ℝ) 1) : 0 < p (choiceIdx p u) := by
  obtain ⟨h1, h2⟩ := (choiceIdx_eq_iff hp hT hu _).1 rfl
  rw [cumsum_eq] at h2
  linarith

theorem measurable_searchsorted (a : Fin n → ℝ) : Measurable (searchsorted a) := by
  classical
  have : searchsorted a = fun v => ∑ i, if a i < v then 1 else 0 := by
    funext v
    unfold searchsorted
    rw [Finset.card_filter]
  rw [this]
  refine Finset.measurable_sum _ fun i _ => ?_
  exact Measurable.ite measurableSet_Ioi measurable_const measurable_const

theorem measurable_clipIdx [NeZero n] : Measurable (clipIdx n) := measurable_from_nat

theorem measurable_choiceIdx [NeZero n] (p : Fin n → ℝ) : Measurable (choiceIdx p) := by
  unfold choiceIdx
  exact measurable_clipIdx.comp ((measurable_searchsorted _).comp (by fun_prop))

instance : IsProbabilityMeasure unifMeasure := ⟨by simp [unifMeasure]⟩

/-- The law of one `choice` draw. -/
theorem unif_choiceIdx [NeZero n] {p : Fin n → ℝ} (hp : ∀ i, 0 ≤ p i) (hT : 0 < total p)
    (i : Fin n) :
    unifMeasure {u | choiceIdx p u = i} = ENNReal.ofReal (p i / total p) := by
  have hm : MeasurableSet {u | choiceIdx p u = i} :=
    measurable_choiceIdx p (measurableSet_singleton i)
  unfold unifMeasure
  rw [Measure.restrict_apply hm]
  have : {u | choiceIdx p u = i} ∩ Set.Ico 0 1
      = Set.Ico (1 - cumsum p i / total p) (1 - presum p i / total p) := by
    ext u
    have h1 : cumsum p i / total p ≤ 1 := (div_le_one hT).2 (cumsum_le_total hp i)
    have h0 : 0 ≤ presum p i / total p := div_nonneg (presum_nonneg hp i) hT.le
    constructor
    · rintro ⟨h, hu⟩
      obtain ⟨h2, h3⟩ := (choiceIdx_eq_iff hp hT hu i).1 h
      have e1 : presum p i / total p < 1 - u := by rw [div_lt_iff₀ hT]; linarith
      have e2 : 1 - u ≤ cumsum p i / total p := by rw [le_div_iff₀ hT]; linarith
      exact ⟨by linarith, by linarith⟩
    · rintro ⟨h2, h3⟩
      have hu : u ∈ Set.Ico (0 : ℝ) 1 := ⟨by linarith, by linarith⟩
      refine ⟨(choiceIdx_eq_iff hp hT hu i).2 ⟨?_, ?_⟩, hu⟩
      · have : presum p i / total p < 1 - u := by linarith
        rw [div_lt_iff₀ hT] at this; linarith
      · have : 1 - u ≤ cumsum p i / total p := by linarith
        rw [le_div_iff₀ hT] at this; linarith
  rw [this, Real.volume_Ico]
  congr 1
  rw [cumsum_eq]
  ring

end Jax
end Fbs
