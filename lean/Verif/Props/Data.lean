import Verif.Model.Data
import Mathlib.MeasureTheory.Measure.Count
import Mathlib.Data.List.OfFn

/-!
# C43: enumeration of a data set
-/

open MeasureTheory
open scoped ENNReal

namespace Fbs
namespace Props

open Data

variable {α : Type}

/-! ### Permutations and splitting -/

theorem returns_permutation {key : Key} {m : ℕ} {l : List ℕ} (h : (permutation key m).Returns l) :
    l.Perm (List.range m) := by
  obtain ⟨σ, -, rfl⟩ := Rand.returns_map.1 h
  refine (List.perm_ext_iff_of_nodup (List.nodup_ofFn.2 fun i j hij => σ.injective (Fin.ext hij)) List.nodup_range).2
    fun a => ?_
  rw [List.mem_ofFn, List.mem_range]
  exact ⟨fun ⟨i, hi⟩ => hi ▸ (σ i).2, fun ha => ⟨σ.symm ⟨a, ha⟩, by simp⟩⟩

/-- Every permutation can be drawn. -/
theorem permutation_returns (key : Key) {m : ℕ} {l : List ℕ} (h : l.Perm (List.range m)) :
    (permutation key m).Returns l := by
  have hl : l.length = m := by simpa using h.length_eq
  have hlt : ∀ i : Fin m, l[i]'(by rw [hl]; exact i.2) < m := fun i =>
    List.mem_range.1 (h.mem_iff.1 (List.getElem_mem _))
  have hnd : l.Nodup := h.nodup_iff.2 List.nodup_range
  let f : Fin m → Fin m := fun i => ⟨l[i]'(by rw [hl]; exact i.2), hlt i⟩
  have hf : Function.Injective f := fun i j hij => by
    have := congrArg Fin.val hij
    exact Fin.ext ((hnd.getElem_inj_iff).1 this)
  refine Rand.returns_map.2 ⟨Equiv.ofBijective f (Finite.injective_iff_bijective.1 hf),
    Rand.returns_sample.2 trivial, ?_⟩
  refine List.ext_getElem (by simp [hl]) fun i h1 h2 => ?_
  simp [f]

theorem cut_replicate_length (s : ℕ) : ∀ (k : ℕ) (l : List α), l.length = s * k →
    (cut (List.replicate k s) l).flatten = l ∧ ∀ c ∈ cut (List.replicate k s) l, c.length = s
  | 0, l, h => by
    have : l = [] := List.length_eq_zero_iff.1 (by simpa using h)
    simp [cut, this]
  | k + 1, l, h => by
    have hs : s ≤ l.length := by rw [h]; exact Nat.le_mul_of_pos_right _ (Nat.succ_pos _)
    obtain ⟨h1, h2⟩ := cut_replicate_length s k (l.drop s) (by simp [h, Nat.mul_succ])
    refine ⟨by simp [List.replicate_succ, cut, h1], fun c hc => ?_⟩
    simp only [List.replicate_succ, cut, List.mem_cons] at hc
    rcases hc with rfl | hc
    · simpa using hs
    · exact h2 c hc

theorem cut_length : ∀ (ss : List ℕ) (l : List α), (cut ss l).length = ss.length
  | [], _ => rfl
  | _ :: ss, l => by simp [cut, cut_length ss]

theorem cut_flatten : ∀ (ss : List ℕ) (l : List α), l.length ≤ ss.sum → (cut ss l).flatten = l
  | [], l, h => by
    have : l = [] := List.length_eq_zero_iff.1 (by simpa using h)
    simp [cut, this]
  | s :: ss, l, h => by
    rw [cut, List.flatten_cons, cut_flatten ss _ (by simp at h ⊢; omega), List.take_append_drop]

theorem cut_lengths : ∀ (ss : List ℕ) (l : List α), ss.sum ≤ l.length → (cut ss l).map List.length = ss
  | [], _, _ => rfl
  | s :: ss, l, h => by
    simp only [List.sum_cons] at h
    rw [cut, List.map_cons, cut_lengths ss _ (by simp; omega), List.length_take, min_eq_left (by omega)]

/-- **C43, splitting.**  `jnp.array_split(x, k)` of any array: `k` sections, which in order make up the array, and
whose lengths differ by at most one. -/
theorem C43_array_split (l : List α) {k : ℕ} (hk : 0 < k) : ∃ cs, arraySplit l k = .ok cs ∧ cs.length = k ∧
    cs.flatten = l ∧ ∀ c ∈ cs, c.length = l.length / k ∨ c.length = l.length / k + 1 := by
  have hmod := Nat.mod_lt l.length hk
  have hsum : (List.replicate (l.length % k) (l.length / k + 1) ++
      List.replicate (k - l.length % k) (l.length / k)).sum = l.length := by
    simp only [List.sum_append, List.sum_replicate, smul_eq_mul]
    rw [mul_add, add_right_comm, ← add_mul, Nat.add_sub_cancel' hmod.le, mul_one, Nat.div_add_mod]
  refine ⟨_, by rw [arraySplit, if_neg hk.ne'], by rw [cut_length]; simp; omega, cut_flatten _ _ hsum.ge, ?_⟩
  intro c hc
  have h1 := cut_lengths _ l hsum.le
  have h2 : c.length ∈ (cut (List.replicate (l.length % k) (l.length / k + 1) ++
      List.replicate (k - l.length % k) (l.length / k)) l).map List.length := List.mem_map_of_mem hc
  rw [h1, List.mem_append, List.mem_replicate, List.mem_replicate] at h2
  omega

/-- Seven entries in three sections. -/
example : arraySplit [0, 1, 2, 3, 4, 5, 6] 3 = .ok [[0, 1, 2], [3, 4], [5, 6]] := by rfl

/-! ### C43 -/

/-- **C43.**  One epoch: there are `n / batchSize` chunks, each of `batchSize` indices, and the chunks together are a
rearrangement of `0, …, batchSize · (n / batchSize) - 1`. -/
theorem C43_epoch {n batchSize : ℕ} {key : Key} (h0 : 0 < batchSize) (hn : batchSize ≤ n)
    {r : Except String (List (List ℕ))} (h : (initEnumeration n key batchSize).Returns r) :
    ∃ chunks, r = .ok chunks ∧ chunks.length = n / batchSize ∧ (∀ c ∈ chunks, c.length = batchSize) ∧
      chunks.flatten.Perm (List.range (batchSize * (n / batchSize))) := by
  have hk : 0 < n / batchSize := Nat.div_pos hn h0
  rw [initEnumeration, if_neg h0.ne'] at h
  obtain ⟨r', h', rfl⟩ := Rand.returns_map.1 h
  rw [choiceNoReplace, if_neg (lt_irrefl _)] at h'
  obtain ⟨l, hl, rfl⟩ := Rand.returns_map.1 h'
  have hp := returns_permutation hl
  have hlen : l.length = batchSize * (n / batchSize) := by simpa using hp.length_eq
  have ht : l.take (batchSize * (n / batchSize)) = l := by rw [← hlen, List.take_length]
  have hmod : l.length % (n / batchSize) = 0 := by rw [hlen, Nat.mul_mod_left]
  have hdiv : l.length / (n / batchSize) = batchSize := by rw [hlen, Nat.mul_div_cancel _ hk]
  obtain ⟨h1, h2⟩ := cut_replicate_length batchSize (n / batchSize) l hlen
  refine ⟨cut (List.replicate (n / batchSize) batchSize) l, ?_, ?_, h2, h1.symm ▸ hp⟩
  · simp only [Except.bind, ht, arraySplit, if_neg hk.ne', hmod, hdiv]
    simp
  · simp [cut_length]

/-- **C43.**  Every retained datum is visited exactly once per epoch: it occurs exactly once in exactly one chunk. -/
theorem C43_once {n batchSize : ℕ} {key : Key} (h0 : 0 < batchSize) (hn : batchSize ≤ n) {chunks : List (List ℕ)}
    (h : (initEnumeration n key batchSize).Returns (.ok chunks)) {i : ℕ} (hi : i < batchSize * (n / batchSize)) :
    chunks.flatten.count i = 1 := by
  obtain ⟨c, hc, -, -, hp⟩ := C43_epoch h0 hn h
  cases hc
  rw [hp.count_eq, List.count_eq_one_of_mem List.nodup_range (List.mem_range.2 hi)]

/-- **C43.**  The last `n mod batchSize` data are not visited, in this or in any other epoch. -/
theorem C43_tail {n batchSize : ℕ} {key : Key} (h0 : 0 < batchSize) (hn : batchSize ≤ n) {chunks : List (List ℕ)}
    (h : (initEnumeration n key batchSize).Returns (.ok chunks)) {i : ℕ} (hi : n - n % batchSize ≤ i) :
    ∀ c ∈ chunks, i ∉ c := by
  obtain ⟨c, hc, -, -, hp⟩ := C43_epoch h0 hn h
  cases hc
  intro c hc hic
  have := List.mem_range.1 (hp.mem_iff.1 (List.mem_flatten.2 ⟨c, hc, hic⟩))
  have h2 := Nat.div_add_mod n batchSize
  omega

/-- **C43.**  Conversely every arrangement of the retained indices into chunks of the batch size can be drawn. -/
theorem C43_every_split {n batchSize : ℕ} (key : Key) (h0 : 0 < batchSize) (hn : batchSize ≤ n)
    {chunks : List (List ℕ)} (hs : ∀ c ∈ chunks, c.length = batchSize)
    (hp : chunks.flatten.Perm (List.range (batchSize * (n / batchSize)))) :
    (initEnumeration n key batchSize).Returns (.ok chunks) := by
  have hk : 0 < n / batchSize := Nat.div_pos hn h0
  have hlen : chunks.flatten.length = batchSize * (n / batchSize) := by simpa using hp.length_eq
  have hcut : ∀ cs : List (List ℕ), (∀ c ∈ cs, c.length = batchSize) →
      cs.flatten.length = batchSize * cs.length ∧ cut (List.replicate cs.length batchSize) cs.flatten = cs := by
    intro cs
    induction cs with
    | nil => intro _; simp [cut]
    | cons c cs ih =>
      intro h
      obtain ⟨h1, h2⟩ := ih fun c hc => h c (List.mem_cons_of_mem _ hc)
      have hc := h c (List.mem_cons_self)
      refine ⟨by simp [h1, hc, Nat.mul_succ, Nat.add_comm], ?_⟩
      simp only [List.length_cons, List.replicate_succ, List.flatten_cons, cut]
      rw [List.take_append_of_le_length hc.ge, List.drop_append_of_le_length hc.ge, ← hc, List.take_length,
        List.drop_length, List.nil_append, hc, h2]
  obtain ⟨h1, h2⟩ := hcut chunks hs
  have hcl : chunks.length = n / batchSize := Nat.eq_of_mul_eq_mul_left h0 (h1.symm.trans hlen)
  rw [initEnumeration, if_neg h0.ne']
  refine Rand.returns_map.2 ⟨.ok chunks.flatten, ?_, ?_⟩
  · rw [choiceNoReplace, if_neg (lt_irrefl _)]
    refine Rand.returns_map.2 ⟨_, permutation_returns key hp, ?_⟩
    rw [← hlen, List.take_length]
  · have hmod : chunks.flatten.length % (n / batchSize) = 0 := by rw [hlen, Nat.mul_mod_left]
    have hdiv : chunks.flatten.length / (n / batchSize) = batchSize := by rw [hlen, Nat.mul_div_cancel _ hk]
    simp only [Except.bind, arraySplit, if_neg hk.ne', hmod, hdiv, List.replicate_zero, List.nil_append, Nat.sub_zero]
    rw [← hcl, h2]

theorem gather_eq [Inhabited α] (xs : List α) {inds : List ℕ} (h : ∀ i ∈ inds, i < xs.length) :
    (gather xs inds).map some = inds.map fun i => xs[i]? := by
  rw [gather, List.map_map]
  refine List.map_congr_left fun i hi => ?_
  have := h i hi
  have h2 : min i (xs.length - 1) = i := by omega
  simp [h2, List.getD, List.getElem?_eq_getElem this]

/-- **C43.**  An index past the end of the data selects the last row; nothing is raised. -/
theorem C43_index_past_end [Inhabited α] {xs : List α} (h : xs ≠ []) {inds : List ℕ} (hi : ∀ i ∈ inds, xs.length ≤ i) :
    gather xs inds = List.replicate inds.length (xs.getLast h) := by
  have h0 := List.length_pos_iff.2 h
  refine List.eq_replicate_iff.2 ⟨by simp [gather], fun b hb => ?_⟩
  obtain ⟨i, hi', rfl⟩ := List.mem_map.1 hb
  have h1 : min i (xs.length - 1) = xs.length - 1 := by have := hi i hi'; omega
  rw [h1, List.getLast_eq_getElem, List.getD, List.getElem?_eq_getElem (by omega), Option.getD_some]

example : gather [(5 : ℕ), 6, 7] [3, 9] = [7, 7] := C43_index_past_end (by simp) (by simp)

/-- **C43.**  `enumerate_subset` returns the data of the chunk, for every chunk (negative indices count from the end),
and an `IndexError` for every other index. -/
theorem C43_batch [Inhabited α] (xs : List α) {batchSize : ℕ} {key : Key} (h0 : 0 < batchSize)
    (hn : batchSize ≤ xs.length) {chunks : List (List ℕ)}
    (h : (initEnumeration xs.length key batchSize).Returns (.ok chunks)) (i : ℤ) :
    (∀ j : ℕ, (hj : j < chunks.length) → (i = j ∨ i = j - chunks.length) →
      ∃ batch, enumerateSubset xs chunks i = .ok batch ∧ batch.map some = chunks[j].map fun k => xs[k]?) ∧
    (chunks.length ≤ i ∨ i < -chunks.length → enumerateSubset xs chunks i = .error "IndexError") := by
  obtain ⟨c, hc, -, -, hp⟩ := C43_epoch h0 hn h
  cases hc
  have hlt : ∀ c ∈ chunks, ∀ i ∈ c, i < xs.length := fun c hc i hi => by
    have := List.mem_range.1 (hp.mem_iff.1 (List.mem_flatten.2 ⟨c, hc, hi⟩))
    exact this.trans_le (Nat.mul_div_le _ _)
  refine ⟨fun j hj hij => ⟨gather xs chunks[j], ?_, gather_eq xs (hlt _ (List.getElem_mem _))⟩, fun hi => ?_⟩
  · have hg : pyGet chunks i = .ok chunks[j] := by
      rcases hij with rfl | rfl
      · simp [pyGet, hj]
      · have h1 : ¬ (0 : ℤ) ≤ j - chunks.length := by omega
        have h2 : -(chunks.length : ℤ) ≤ j - chunks.length := by omega
        have h3 : ((chunks.length : ℤ) + (j - chunks.length)).toNat = j := by omega
        simp only [pyGet, h1, h2, h3, if_true, if_false, List.getElem?_eq_getElem hj]
    simp [enumerateSubset, hg, Except.map]
  · have hg : pyGet chunks i = .error "IndexError" := by
      rcases hi with hi | hi
      · have h1 : (0 : ℤ) ≤ i := by omega
        have h2 : chunks.length ≤ i.toNat := by omega
        simp [pyGet, h1, List.getElem?_eq_none h2]
      · have h1 : ¬ (0 : ℤ) ≤ i := by omega
        have h2 : ¬ -(chunks.length : ℤ) ≤ i := by omega
        simp [pyGet, h1, h2]
    simp [enumerateSubset, hg, Except.map]

/-- **C43.**  `init_enumeration` raises exactly when the batch size is zero or larger than the data set. -/
theorem C43_errors {n batchSize : ℕ} {key : Key} (h : batchSize = 0 ∨ n < batchSize)
    {r : Except String (List (List ℕ))} (hr : (initEnumeration n key batchSize).Returns r) :
    r = .error "ZeroDivisionError" := by
  by_cases h0 : batchSize = 0
  · rw [initEnumeration, if_pos h0] at hr
    exact Rand.returns_ret.1 hr
  · have hlt := h.resolve_left h0
    rw [initEnumeration, if_neg h0] at hr
    obtain ⟨r', h', rfl⟩ := Rand.returns_map.1 hr
    rw [choiceNoReplace, if_neg (lt_irrefl _)] at h'
    obtain ⟨l, hl, rfl⟩ := Rand.returns_map.1 h'
    simp [Except.bind, arraySplit, Nat.div_eq_of_lt hlt]

/-- **C43.**  `draw_subset` returns `batchSize` data at distinct positions, and raises when there are too few. -/
theorem C43_draw [Inhabited α] (xs : List α) {batchSize : ℕ} {key : Key} {r : Except String (List α)}
    (hr : (drawSubset xs key batchSize).Returns r) :
    (batchSize ≤ xs.length → ∃ (inds : List ℕ) (batch : List α), r = .ok batch ∧ inds.length = batchSize ∧ inds.Nodup ∧
      (∀ i ∈ inds, i < xs.length) ∧ batch.map some = inds.map fun k => xs[k]?) ∧
    (xs.length < batchSize → r = .error "ValueError") := by
  obtain ⟨r', h', rfl⟩ := Rand.returns_map.1 hr
  refine ⟨fun hb => ?_, fun hb => ?_⟩
  · rw [choiceNoReplace, if_neg (not_lt.2 hb)] at h'
    obtain ⟨l, hl, rfl⟩ := Rand.returns_map.1 h'
    have hp := returns_permutation hl
    have hlt : ∀ i ∈ l.take batchSize, i < xs.length := fun i hi =>
      List.mem_range.1 (hp.mem_iff.1 (List.mem_of_mem_take hi))
    refine ⟨l.take batchSize, _, rfl, ?_, (List.take_sublist _ _).nodup (hp.nodup_iff.2 List.nodup_range), hlt,
      gather_eq xs hlt⟩
    rw [List.length_take, hp.length_eq, List.length_range, min_eq_left hb]
  · rw [choiceNoReplace, if_pos hb] at h'
    rw [Rand.returns_ret.1 h']; rfl

/-- A uniform permutation sends a given place to a given value with probability `1 / m`. -/
theorem perm_place {m : ℕ} (j i : Fin m) :
    ∫⁻ σ : Equiv.Perm (Fin m), (if σ j = i then 1 else 0) ∂((m.factorial : ℝ≥0∞)⁻¹ • Measure.count) = (m : ℝ≥0∞)⁻¹ := by
  have hsym : ∀ i', ∑ σ : Equiv.Perm (Fin m), (if σ j = i' then (1 : ℝ≥0∞) else 0) =
      ∑ σ : Equiv.Perm (Fin m), (if σ j = i then (1 : ℝ≥0∞) else 0) := by
    intro i'
    refine Fintype.sum_equiv (Equiv.mulLeft (Equiv.swap i' i)) _ _ fun σ => ?_
    have : (Equiv.swap i' i * σ) j = i ↔ σ j = i' := by
      rw [Equiv.Perm.mul_apply, Equiv.swap_apply_eq_iff, Equiv.swap_apply_right]
    simp only [Equiv.coe_mulLeft, this]
  have htot : ∑ i', ∑ σ : Equiv.Perm (Fin m), (if σ j = i' then (1 : ℝ≥0∞) else 0) = m.factorial := by
    rw [Finset.sum_comm]
    simp [Fintype.card_perm]
  simp only [hsym, Finset.sum_const, Finset.card_univ, Fintype.card_fin, nsmul_eq_mul] at htot
  have hm : (m : ℝ≥0∞) ≠ 0 := by
    have := j.pos
    exact_mod_cast this.ne'
  have hf : (m.factorial : ℝ≥0∞) ≠ 0 := by exact_mod_cast m.factorial_ne_zero
  rw [lintegral_smul_measure, lintegral_count, tsum_fintype, smul_eq_mul]
  set A := ∑ σ : Equiv.Perm (Fin m), (if σ j = i then (1 : ℝ≥0∞) else 0)
  rw [← htot, ENNReal.mul_inv (Or.inl hm) (Or.inl (ENNReal.natCast_ne_top m)), mul_assoc]
  have hA0 : A ≠ 0 := fun h => hf (by rw [← htot, h, mul_zero])
  have hA1 : A ≠ ⊤ := fun h => by
    rw [h, ENNReal.mul_top hm] at htot
    exact (ENNReal.natCast_ne_top _) htot.symm
  rw [ENNReal.inv_mul_cancel hA0 hA1, mul_one]

open Classical in
/-- **C43.**  Random subsets are fair: `draw_subset` picks every position with probability `batchSize / n`. -/
theorem C43_draw_fair (key : Key) {n batchSize : ℕ} (hb : batchSize ≤ n) {i : ℕ} (hi : i < n) :
    (choiceNoReplace key n batchSize).E (fun r => if ∃ l, r = .ok l ∧ i ∈ l then 1 else 0) = (batchSize : ℝ≥0∞) / n := by
  rw [choiceNoReplace, if_neg (not_lt.2 hb), Rand.E_map, permutation, Rand.E_map, Rand.E_sample]
  have h : ∀ σ : Equiv.Perm (Fin n), (if ∃ l, (Except.ok ((List.ofFn fun j => (σ j : ℕ)).take batchSize) :
      Except String (List ℕ)) = .ok l ∧ i ∈ l then (1 : ℝ≥0∞) else 0) =
      ∑ j : Fin batchSize, if σ (Fin.castLE hb j) = ⟨i, hi⟩ then 1 else 0 := by
    intro σ
    have hmem : (∃ l, (Except.ok ((List.ofFn fun j => (σ j : ℕ)).take batchSize) :
        Except String (List ℕ)) = .ok l ∧ i ∈ l) ↔ ∃ j : Fin batchSize, σ (Fin.castLE hb j) = ⟨i, hi⟩ := by
      constructor
      · rintro ⟨l, hl, hil⟩
        cases hl
        obtain ⟨k, hk, hk'⟩ := List.mem_iff_getElem.1 hil
        simp only [List.length_take, List.length_ofFn, lt_min_iff] at hk
        simp only [List.getElem_take, List.getElem_ofFn] at hk'
        exact ⟨⟨k, hk.1⟩, Fin.ext hk'⟩
      · rintro ⟨j, hj⟩
        refine ⟨_, rfl, List.mem_iff_getElem.2 ⟨j, by simp; omega, ?_⟩⟩
        simp only [List.getElem_take, List.getElem_ofFn]
        exact congrArg Fin.val hj
    by_cases hex : ∃ j : Fin batchSize, σ (Fin.castLE hb j) = ⟨i, hi⟩
    · rw [if_pos (hmem.2 hex)]
      obtain ⟨j, hj⟩ := hex
      rw [Finset.sum_eq_single j (fun j' _ hne => if_neg fun h' => hne ?_) (by simp), if_pos hj]
      exact Fin.ext (by simpa using congrArg Fin.val (σ.injective (h'.trans hj.symm)))
    · rw [if_neg (mt hmem.1 hex)]
      push Not at hex
      simp [hex]
  rw [lintegral_congr h, lintegral_finsetSum _ fun j _ => measurable_from_top]
  simp only [perm_place, Finset.sum_const, Finset.card_univ, Fintype.card_fin, nsmul_eq_mul]
  rfl

/-! ### The hypotheses can be met -/

/-- Seven data in batches of three: two chunks, the seventh datum is never visited. -/
example (key : Key) : (initEnumeration 7 key 3).Returns (.ok [[4, 0, 2], [5, 1, 3]]) :=
  C43_every_split key (by norm_num) (by norm_num) (by simp) (by decide)

end Props
end Fbs
