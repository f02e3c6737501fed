import Verif.Model.Datasets
import Verif.Props.Data
import Verif.Lemmas.GibbsLaw
import Mathlib.Logic.Equiv.Fintype
import Mathlib.Data.Fintype.Powerset

/-!
# C85: the image data sets and the split into training and test images
-/

open MeasureTheory
open scoped ENNReal

namespace Fbs
namespace Props

open Data Datasets

variable {α : Type}

/-! ### Shuffling and reshaping -/

theorem permuteRows_perm {inds : List ℕ} {a : Arr α} (h : inds.Perm (List.range a.rows.length)) :
    (permuteRows inds a).rows.Perm a.rows := by
  have h1 := h.map fun i => a.rows.getD i []
  refine h1.trans (List.Perm.of_eq ?_)
  refine List.ext_getElem (by simp) fun i h1 h2 => ?_
  simp [h2]

theorem returns_shuffle {key : Key} {a r : Arr α} (h : (shuffle key a).Returns r) :
    r.rest = a.rest ∧ r.rows.Perm a.rows := by
  obtain ⟨l, hl, rfl⟩ := Rand.returns_map.1 h
  exact ⟨rfl, permuteRows_perm (returns_permutation hl)⟩

theorem cut_flatten_rows (s : ℕ) : ∀ rows : List (List α), (∀ r ∈ rows, r.length = s) →
    cut (List.replicate rows.length s) rows.flatten = rows
  | [], _ => rfl
  | r :: rs, h => by
    have hr : r.length = s := h r (by simp)
    have ih := cut_flatten_rows s rs fun r' h' => h r' (by simp [h'])
    simp [List.replicate_succ, cut, ← hr] at ih ⊢
    exact ih

theorem flatten_length (s : ℕ) : ∀ rows : List (List α), (∀ r ∈ rows, r.length = s) →
    rows.flatten.length = rows.length * s
  | [], _ => by simp
  | r :: rs, h => by
    have ih := flatten_length s rs fun r' h' => h r' (by simp [h'])
    rw [List.flatten_cons, List.length_append, ih, h r (by simp), List.length_cons]
    ring

/-- A reshape that keeps the number of rows keeps the rows. -/
theorem reshape_rows {a : Arr α} (hw : a.Wf) {n : ℕ} {rest : List ℕ} (hn : a.rows.length = n)
    (hr : a.rest.prod = rest.prod) : reshape a n rest = .ok ⟨rest, a.rows⟩ := by
  subst hn
  have hw' : ∀ r ∈ a.rows, r.length = rest.prod := fun r h => hr ▸ hw r h
  rw [reshape, if_pos (flatten_length _ _ hw'), cut_flatten_rows _ _ hw']

theorem wf_of_perm {a b : Arr α} (hw : a.Wf) (hr : b.rest = a.rest) (hp : b.rows.Perm a.rows) : b.Wf :=
  fun r h => hr ▸ hw r (hp.mem_iff.1 h)

/-! ### MNIST and CIFAR10 -/

/-- **C85.**  `MNIST` holds every image of the array it was asked for exactly once, as 28 by 28 images, and `n` is the number of
images, when that array has the official size. -/
theorem C85_mnist {key : Key} {train testData : Arr α} {test : Bool} {r : Except String (ImageSet α)}
    (hr : (mnist key train testData test).Returns r)
    (hw : (if test then testData else train).Wf) (hs : (if test then testData else train).rest.prod = 784)
    (hn : (if test then testData else train).rows.length = if test then 10000 else 60000) :
    ∃ d, r = .ok d ∧ d.n = d.xs.rows.length ∧ d.xs.rest = [28, 28, 1] ∧ d.imageShape = (28, 28, 1) ∧
      d.xs.rows.Perm (if test then testData else train).rows := by
  obtain ⟨xs, hxs, h2⟩ := Rand.returns_bind.1 hr
  cases Rand.returns_ret.1 h2
  obtain ⟨h3, h4⟩ := returns_shuffle hxs
  have hl : xs.rows.length = if test then 10000 else 60000 := h4.length_eq.trans hn
  rw [reshape_rows (wf_of_perm hw h3 h4) hl (by rw [h3, hs]; rfl)]
  exact ⟨_, rfl, hl.symm, rfl, rfl, h4⟩

/-- **C85.**  `MNIST` raises when the number of pixels of the array is not the official one. -/
theorem C85_mnist_error {key : Key} {train testData : Arr α} {test : Bool} {r : Except String (ImageSet α)}
    (hr : (mnist key train testData test).Returns r)
    (hn : (if test then testData else train).rows.flatten.length ≠ (if test then 10000 else 60000) * 784) :
    r = .error "TypeError" := by
  obtain ⟨xs, hxs, h2⟩ := Rand.returns_bind.1 hr
  cases Rand.returns_ret.1 h2
  have h4 := (returns_shuffle hxs).2.flatten.length_eq
  have h5 : reshape xs (if test then 10000 else 60000) [28, 28, 1] = .error "TypeError" := by
    unfold reshape
    exact if_neg (by rw [h4]; exact hn)
  rw [h5]
  rfl

/-- **C85.**  `CIFAR10` holds every image of the array it was asked for exactly once, in the shape of the file. -/
theorem C85_cifar {key : Key} {train testData : Arr α} {test : Bool} {r : Except String (ImageSet α)}
    (hr : (cifar10 key train testData test).Returns r)
    (hw : (if test then testData else train).Wf) (hs : (if test then testData else train).rest.prod = 3072)
    (hn : (if test then testData else train).rows.length = if test then 10000 else 50000) :
    ∃ d, r = .ok d ∧ d.n = d.xs.rows.length ∧ d.imageShape = (32, 32, 3) ∧
      d.xs.rest = (if test then testData else train).rest ∧ d.xs.rows.Perm (if test then testData else train).rows := by
  obtain ⟨xs, hxs, h2⟩ := Rand.returns_bind.1 hr
  cases Rand.returns_ret.1 h2
  obtain ⟨h3, h4⟩ := returns_shuffle hxs
  have hl : xs.rows.length = if test then 10000 else 50000 := h4.length_eq.trans hn
  rw [reshape_rows (wf_of_perm hw h3 h4) hl (by rw [h3, hs]; rfl)]
  exact ⟨_, rfl, hl.symm, rfl, h3, h4⟩

/-- **C85.**  The reshape of `CIFAR10` is lost: of a file of flat images the data set keeps the flat images, though its
`image_shape` says 32 by 32 by 3. -/
theorem C85_cifar_flat (key : Key) (train testData : Arr ℝ) (ht : train = ⟨[3072], List.replicate 50000 (List.replicate 3072 0)⟩)
    {r : Except String (ImageSet ℝ)} (hr : (cifar10 key train testData false).Returns r) :
    ∃ d, r = .ok d ∧ d.imageShape = (32, 32, 3) ∧ d.xs.rest = [3072] := by
  subst ht
  obtain ⟨d, h1, -, h2, h3, -⟩ := C85_cifar hr
    (by
      intro r hr'
      simp only [Bool.false_eq_true, if_false] at hr' ⊢
      rw [List.eq_of_mem_replicate hr', List.length_replicate]; rfl)
    rfl (List.length_replicate ..)
  exact ⟨d, h1, h2, h3⟩

/-! ### CelebA-HQ -/

/-- **C85.**  Test and training set of CelebA-HQ cut from the same shuffled file: every image of the file is in exactly one of
the two, once. -/
theorem C85_celeba_partition {key : Key} {file data : Arr α} (h : (shuffle key file).Returns data) (resolution : ℕ) :
    ((celebaSplit (imageStandardise data) resolution true).xs.rows ++
      (celebaSplit (imageStandardise data) resolution false).xs.rows).Perm file.rows ∧
    (file.rows.Nodup → List.Disjoint (celebaSplit (imageStandardise data) resolution true).xs.rows
      (celebaSplit (imageStandardise data) resolution false).xs.rows) := by
  have h4 := (returns_shuffle h).2
  have h5 : ((celebaSplit (imageStandardise data) resolution true).xs.rows ++
      (celebaSplit (imageStandardise data) resolution false).xs.rows).Perm file.rows := by
    refine (List.Perm.of_eq ?_).trans h4
    exact List.take_append_drop 1000 data.rows
  exact ⟨h5, fun hd => List.disjoint_of_nodup_append (h5.nodup_iff.2 hd)⟩

/-- **C85.**  The attribute `n` of the training set is the number of its images exactly for a file of 30000 images; of the test
set, for a file of at least 1000. -/
theorem C85_celeba_count {key : Key} {file : Arr α} {resolution : ℕ} {test : Bool} {d : ImageSet α}
    (h : (celeba key file resolution test).Returns d) :
    d.n = d.xs.rows.length ↔ if test then 1000 ≤ file.rows.length else file.rows.length = 30000 := by
  obtain ⟨xs, hxs, h2⟩ := Rand.returns_bind.1 h
  cases Rand.returns_ret.1 h2
  have h4 := (returns_shuffle hxs).2.length_eq
  cases test
  · simp only [celebaSplit, imageStandardise, Bool.false_eq_true, if_false, List.length_drop, h4]
    omega
  · simp only [celebaSplit, imageStandardise, if_true, List.length_take, h4]
    omega

/-! ### Uniform permutations -/

theorem E_permutation (key : Key) (m : ℕ) (f : List ℕ → ℝ≥0∞) : (permutation key m).E f =
    ∫⁻ σ : Equiv.Perm (Fin m), f (List.ofFn fun i => (σ i : ℕ)) ∂((m.factorial : ℝ≥0∞)⁻¹ • Measure.count) := by
  rw [permutation, Rand.E_map, Rand.E_sample]

theorem E_permutation_const (key : Key) (m : ℕ) (c : ℝ≥0∞) : (permutation key m).E (fun _ => c) = c := by
  have hf : (m.factorial : ℝ≥0∞) ≠ 0 := by exact_mod_cast m.factorial_ne_zero
  rw [E_permutation, lintegral_smul_measure, lintegral_count, tsum_fintype, Finset.sum_const, Finset.card_univ,
    Fintype.card_perm, Fintype.card_fin, smul_eq_mul, nsmul_eq_mul, ← mul_assoc,
    ENNReal.inv_mul_cancel hf (ENNReal.natCast_ne_top _), one_mul]

theorem E_permutation_sum {ι : Type} (key : Key) (m : ℕ) (s : Finset ι) (f : ι → List ℕ → ℝ≥0∞) :
    (permutation key m).E (fun l => ∑ i ∈ s, f i l) = ∑ i ∈ s, (permutation key m).E (f i) := by
  simp only [E_permutation]
  exact lintegral_finsetSum _ fun j _ => measurable_from_top

theorem E_permutation_add (key : Key) (m : ℕ) (f g : List ℕ → ℝ≥0∞) :
    (permutation key m).E (fun l => f l + g l) = (permutation key m).E f + (permutation key m).E g := by
  simp only [E_permutation]
  exact lintegral_add_left measurable_from_top _

theorem ofFn_perm {m : ℕ} (σ : Equiv.Perm (Fin m)) : (List.ofFn fun i => (σ i : ℕ)).Perm (List.range m) :=
  returns_permutation (key := []) (Rand.returns_map.2 ⟨σ, Rand.returns_sample.2 trivial, rfl⟩)

theorem E_permutation_congr (key : Key) (m : ℕ) {f g : List ℕ → ℝ≥0∞} (h : ∀ l, l.Perm (List.range m) → f l = g l) :
    (permutation key m).E f = (permutation key m).E g := by
  simp only [E_permutation]
  exact lintegral_congr fun σ => h _ (ofFn_perm σ)

open Classical in
theorem permutation_take (key : Key) {n k : ℕ} (hk : k ≤ n) {i : ℕ} (hi : i < n) :
    (permutation key n).E (fun l => if i ∈ l.take k then 1 else 0) = (k : ℝ≥0∞) / n := by
  have h := C43_draw_fair key hk hi
  rw [choiceNoReplace, if_neg (not_lt.2 hk), Rand.E_map] at h
  rw [← h]
  exact Rand.E_congr _ fun l => by simp

open Classical in
/-- A given number is behind place `k` of a random permutation with probability `(n - k) / n`. -/
theorem permutation_drop (key : Key) {n k : ℕ} (hk : k ≤ n) {i : ℕ} (hi : i < n) :
    (permutation key n).E (fun l => if i ∈ l.drop k then 1 else 0) = ((n - k : ℕ) : ℝ≥0∞) / n := by
  have h1 : (permutation key n).E (fun l => (if i ∈ l.take k then (1 : ℝ≥0∞) else 0) + if i ∈ l.drop k then 1 else 0) = 1 := by
    refine Eq.trans ?_ (E_permutation_const key n 1)
    refine E_permutation_congr key n fun l hl => ?_
    have hnd : (l.take k ++ l.drop k).Nodup := by
      rw [List.take_append_drop]; exact hl.nodup_iff.2 List.nodup_range
    have hmem : i ∈ l.take k ++ l.drop k := by
      rw [List.take_append_drop]; exact hl.mem_iff.2 (List.mem_range.2 hi)
    have hdis := List.disjoint_of_nodup_append hnd
    rcases List.mem_append.1 hmem with h | h
    · rw [if_pos h, if_neg (hdis h), add_zero]
    · rw [if_pos h, if_neg (fun h' => hdis h' h), zero_add]
  rw [E_permutation_add, permutation_take key hk hi] at h1
  have hn0 : (n : ℝ≥0∞) ≠ 0 := by exact_mod_cast (by omega : n ≠ 0)
  have h2 : (k : ℝ≥0∞) / n + ((n - k : ℕ) : ℝ≥0∞) / n = 1 := by
    rw [← ENNReal.add_div, ← Nat.cast_add, Nat.add_sub_cancel' hk, ENNReal.div_self hn0 (ENNReal.natCast_ne_top n)]
  refine (ENNReal.add_right_inj (a := (k : ℝ≥0∞) / n) ?_).1 (h1.trans h2.symm)
  exact ENNReal.div_ne_top (ENNReal.natCast_ne_top k) hn0

open Classical in
/-- The set of the first `k` values of a random permutation is uniform on the sets of `k` numbers. -/
theorem permutation_head (key : Key) {n k : ℕ} (hk : k ≤ n) {S : Finset ℕ} (hS : S ⊆ Finset.range n) (hc : S.card = k) :
    (permutation key n).E (fun l => if (l.take k).toFinset = S then 1 else 0) = ((n.choose k : ℕ) : ℝ≥0∞)⁻¹ := by
  set A : Finset ℕ → ℝ≥0∞ := fun S => (permutation key n).E (fun l => if (l.take k).toFinset = S then 1 else 0) with hA
  -- all sets are equally likely
  have hsym : ∀ S' ∈ (Finset.range n).powersetCard k, A S' = A S := by
    intro S' hS'
    obtain ⟨hs1, hs2⟩ := Finset.mem_powersetCard.1 hS'
    have hcard : Fintype.card {x : Fin n // (x : ℕ) ∈ S'} = Fintype.card {x : Fin n // (x : ℕ) ∈ S} := by
      have key : ∀ U : Finset ℕ, U ⊆ Finset.range n → Fintype.card {x : Fin n // (x : ℕ) ∈ U} = U.card := by
        intro U hU
        rw [Fintype.card_subtype]
        refine Finset.card_bij (fun x _ => (x : ℕ)) (fun x hx => by simpa using hx) (fun x _ y _ h => Fin.ext h) fun b hb => ?_
        exact ⟨⟨b, Finset.mem_range.1 (hU hb)⟩, by simpa using hb, rfl⟩
      rw [key _ hs1, key _ hS, hs2, hc]
    let e : {x : Fin n // (x : ℕ) ∈ S'} ≃ {x : Fin n // (x : ℕ) ∈ S} := Fintype.equivOfCardEq hcard
    let π : Equiv.Perm (Fin n) := e.extendSubtype
    have hπ : ∀ x : Fin n, (x : ℕ) ∈ S' ↔ (π x : ℕ) ∈ S := fun x =>
      ⟨fun h => e.extendSubtype_mem x h, fun h => by
        by_contra hx
        exact e.extendSubtype_not_mem x hx h⟩
    have hcount : ∀ f : List ℕ → ℝ≥0∞, (permutation key n).E f =
        (n.factorial : ℝ≥0∞)⁻¹ * ∑ σ : Equiv.Perm (Fin n), f (List.ofFn fun i => (σ i : ℕ)) := fun f => by
      rw [E_permutation, lintegral_smul_measure, lintegral_count, tsum_fintype, smul_eq_mul]
    show (permutation key n).E _ = (permutation key n).E _
    rw [hcount, hcount]
    congr 1
    refine Fintype.sum_equiv (Equiv.mulLeft π) _ _ fun σ => ?_
    have hmem : ∀ (τ : Equiv.Perm (Fin n)) (U : Finset ℕ), U ⊆ Finset.range n → U.card = k →
        (((List.ofFn fun i => (τ i : ℕ)).take k).toFinset = U ↔ ∀ j : Fin n, (j : ℕ) < k → (τ j : ℕ) ∈ U) := by
      intro τ U hU hUk
      have hin : ∀ a, a ∈ (List.ofFn fun i => (τ i : ℕ)).take k ↔ ∃ j : Fin n, (j : ℕ) < k ∧ (τ j : ℕ) = a := by
        intro a
        rw [List.mem_iff_getElem]
        constructor
        · rintro ⟨j, hj, h⟩
          simp only [List.length_take, List.length_ofFn, lt_min_iff] at hj
          simp only [List.getElem_take, List.getElem_ofFn] at h
          exact ⟨⟨j, hj.2⟩, hj.1, h⟩
        · rintro ⟨j, hj, h⟩
          refine ⟨j, by simp [hj], ?_⟩
          simpa using h
      constructor
      · intro h j hj
        rw [← h, List.mem_toFinset, hin]
        exact ⟨j, hj, rfl⟩
      · intro h
        refine Finset.eq_of_subset_of_card_le (fun a ha => ?_) ?_
        · rw [List.mem_toFinset, hin] at ha
          obtain ⟨j, hj, rfl⟩ := ha
          exact h j hj
        · have hnd : ((List.ofFn fun i => (τ i : ℕ)).take k).Nodup :=
            (List.take_sublist _ _).nodup ((ofFn_perm τ).nodup_iff.2 List.nodup_range)
          rw [List.toFinset_card_of_nodup hnd, hUk]
          simp [hk]
    have hiff : ((List.ofFn fun i => (σ i : ℕ)).take k).toFinset = S' ↔
        ((List.ofFn fun i => ((Equiv.mulLeft π σ) i : ℕ)).take k).toFinset = S := by
      rw [hmem σ S' hs1 hs2, hmem _ S hS hc]
      exact forall_congr' fun j => imp_congr_right fun _ => hπ (σ j)
    simp only [hiff]
  have htot : ∑ S' ∈ (Finset.range n).powersetCard k, A S' = 1 := by
    rw [hA, ← E_permutation_sum]
    refine Eq.trans ?_ (E_permutation_const key n 1)
    refine E_permutation_congr key n fun l hl => ?_
    have hnd := hl.nodup_iff.2 List.nodup_range
    rw [Finset.sum_ite_eq, if_pos]
    refine Finset.mem_powersetCard.2 ⟨fun a ha => ?_, ?_⟩
    · exact Finset.mem_range.2 (List.mem_range.1 (hl.mem_iff.1 (List.mem_of_mem_take (List.mem_toFinset.1 ha))))
    · rw [List.toFinset_card_of_nodup ((List.take_sublist _ _).nodup hnd), List.length_take, hl.length_eq, List.length_range,
        min_eq_left hk]
  rw [Finset.sum_congr rfl hsym, Finset.sum_const, Finset.card_powersetCard, Finset.card_range, nsmul_eq_mul] at htot
  exact ENNReal.eq_inv_of_mul_eq_one_left (by rw [mul_comm]; exact htot)

/-! ### Two different keys -/

theorem mem_permuteRows_drop {file : Arr α} (hd : file.rows.Nodup) {l : List ℕ} (hl : l.Perm (List.range file.rows.length))
    {i : ℕ} (hi : i < file.rows.length) (k : ℕ) : file.rows[i] ∈ (permuteRows l file).rows.drop k ↔ i ∈ l.drop k := by
  have hlt : ∀ j ∈ l.drop k, j < file.rows.length := fun j hj => List.mem_range.1 (hl.mem_iff.1 (List.mem_of_mem_drop hj))
  simp only [permuteRows, ← List.map_drop, List.mem_map]
  constructor
  · rintro ⟨j, hj, h⟩
    have hj' := hlt j hj
    simp only [List.getD_eq_getElem?_getD, List.getElem?_eq_getElem hj', Option.getD_some] at h
    rwa [(hd.getElem_inj_iff).1 h] at hj
  · intro h
    exact ⟨i, h, by simp [hi]⟩

theorem E_celeba (key : Key) (file : Arr α) (resolution : ℕ) (test : Bool) (f : ImageSet α → ℝ≥0∞) :
    (celeba key file resolution test).E f = (permutation key file.rows.length).E fun l =>
      f (celebaSplit (permuteRows l file) resolution test) := by
  rw [celeba, Rand.E_bind, shuffle, Rand.E_map]
  rfl

open Classical in
/-- **C85.**  A training set drawn with its own key contains a given image of the file with probability `(m - 1000) / m`, that
is 29/30 for the 30000 images: the images of a test set made with another key are no exception. -/
theorem C85_leak (key : Key) {file : Arr α} (hd : file.rows.Nodup) (hm : 1000 ≤ file.rows.length) (resolution : ℕ)
    {img : List α} (hi : img ∈ file.rows) :
    (celeba key file resolution false).E (fun d => if img ∈ d.xs.rows then 1 else 0) =
      ((file.rows.length - 1000 : ℕ) : ℝ≥0∞) / file.rows.length := by
  obtain ⟨i, hi', rfl⟩ := List.mem_iff_getElem.1 hi
  rw [E_celeba, ← permutation_drop key hm hi']
  refine E_permutation_congr _ _ fun l hl => ?_
  have := mem_permuteRows_drop hd hl hi' 1000
  simp only [celebaSplit, Bool.false_eq_true, if_false, this]

open Classical in
/-- **C85.**  Training and test set made with different keys: the expected number of test images among the training images is
`1000 (m - 1000) / m`, which is more than 966 of the 1000 for the 30000 images. -/
theorem C85_leak_count (key key' : Key) {file : Arr α} (hd : file.rows.Nodup) (hm : 1000 ≤ file.rows.length) (resolution : ℕ) :
    (celeba key' file resolution true).E (fun t => (celeba key file resolution false).E fun d =>
      ((t.xs.rows.countP fun img => decide (img ∈ d.xs.rows) : ℕ) : ℝ≥0∞)) =
      1000 * (((file.rows.length - 1000 : ℕ) : ℝ≥0∞) / file.rows.length) := by
  rw [E_celeba, ← E_permutation_const key' file.rows.length (1000 * _)]
  refine E_permutation_congr _ _ fun l hl => ?_
  have hp := permuteRows_perm hl
  set t := (celebaSplit (permuteRows l file) resolution true).xs.rows with ht
  have ht' : t = (permuteRows l file).rows.take 1000 := by simp [ht, celebaSplit]
  have hsub : ∀ img ∈ t, img ∈ file.rows := fun img h => hp.mem_iff.1 (List.mem_of_mem_take (ht' ▸ h))
  have hlen : t.length = 1000 := by rw [ht', List.length_take, hp.length_eq, min_eq_left hm]
  have key1 : ∀ u : List (List α), (∀ img ∈ u, img ∈ file.rows) →
      (celeba key file resolution false).E (fun d => ((u.countP fun img => decide (img ∈ d.xs.rows) : ℕ) : ℝ≥0∞)) =
        u.length * (((file.rows.length - 1000 : ℕ) : ℝ≥0∞) / file.rows.length) := by
    intro u hu
    induction u with
    | nil =>
      rw [E_celeba]
      simp only [List.countP_nil, List.length_nil, Nat.cast_zero, zero_mul]
      exact E_permutation_const _ _ _
    | cons a u ih =>
      have h1 := C85_leak key hd hm resolution (hu a (by simp))
      have h2 := ih fun img h => hu img (by simp [h])
      rw [E_celeba] at h1 h2 ⊢
      simp only [List.countP_cons, Nat.cast_add, List.length_cons]
      rw [E_permutation_add, h2, add_mul, ← h1]
      congr 1
      simp only [decide_eq_true_eq, Nat.cast_ite, Nat.cast_one, Nat.cast_zero, one_mul]
  rw [key1 t hsub, hlen]
  norm_cast

open Classical in
/-- **C85.**  Made with different keys, training and test set have no image in common only with probability `1 / C(m, 1000)`. -/
theorem C85_no_leak (key key' : Key) {file : Arr α} (hd : file.rows.Nodup) (hm : 1000 ≤ file.rows.length) (resolution : ℕ) :
    (celeba key' file resolution true).E (fun t => (celeba key file resolution false).E fun d =>
      if List.Disjoint t.xs.rows d.xs.rows then 1 else 0) = ((file.rows.length.choose 1000 : ℕ) : ℝ≥0∞)⁻¹ := by
  rw [E_celeba, ← E_permutation_const key' file.rows.length (_⁻¹)]
  refine E_permutation_congr _ _ fun l hl => ?_
  have hlt : ∀ j ∈ l.take 1000, j < file.rows.length := fun j hj =>
    List.mem_range.1 (hl.mem_iff.1 (List.mem_of_mem_take hj))
  have hnd := hl.nodup_iff.2 List.nodup_range
  have hcard : (l.take 1000).toFinset.card = 1000 := by
    rw [List.toFinset_card_of_nodup ((List.take_sublist _ _).nodup hnd), List.length_take, hl.length_eq, List.length_range,
      min_eq_left hm]
  rw [E_celeba, ← permutation_head key hm (S := (l.take 1000).toFinset)
    (fun a ha => Finset.mem_range.2 (hlt a (List.mem_toFinset.1 ha))) hcard]
  refine E_permutation_congr _ _ fun l' hl' => ?_
  have hnd' := hl'.nodup_iff.2 List.nodup_range
  have hcard' : (l'.take 1000).toFinset.card = 1000 := by
    rw [List.toFinset_card_of_nodup ((List.take_sublist _ _).nodup hnd'), List.length_take, hl'.length_eq, List.length_range,
      min_eq_left hm]
  have hsplit : ∀ j, j < file.rows.length → (j ∉ l'.drop 1000 ↔ j ∈ l'.take 1000) := by
    intro j hj
    have hmem : j ∈ l'.take 1000 ++ l'.drop 1000 := by
      rw [List.take_append_drop]; exact hl'.mem_iff.2 (List.mem_range.2 hj)
    have hdis : List.Disjoint (l'.take 1000) (l'.drop 1000) :=
      List.disjoint_of_nodup_append (by rw [List.take_append_drop]; exact hnd')
    exact ⟨fun h => (List.mem_append.1 hmem).resolve_right h, fun h h' => hdis h h'⟩
  have hiff : List.Disjoint (celebaSplit (permuteRows l file) resolution true).xs.rows
      (celebaSplit (permuteRows l' file) resolution false).xs.rows ↔ (l'.take 1000).toFinset = (l.take 1000).toFinset := by
    have hrow : (celebaSplit (permuteRows l file) resolution true).xs.rows =
        (l.take 1000).map fun i => file.rows.getD i [] := by
      simp [celebaSplit, permuteRows, List.map_take]
    have hrow' : (celebaSplit (permuteRows l' file) resolution false).xs.rows = (permuteRows l' file).rows.drop 1000 := by
      simp [celebaSplit]
    have hA : List.Disjoint (celebaSplit (permuteRows l file) resolution true).xs.rows
        (celebaSplit (permuteRows l' file) resolution false).xs.rows ↔ ∀ j ∈ l.take 1000, j ∈ l'.take 1000 := by
      rw [hrow, hrow']
      constructor
      · intro h j hj
        refine (hsplit j (hlt j hj)).1 fun h' => ?_
        refine h (List.mem_map.2 ⟨j, hj, rfl⟩) ?_
        have := (mem_permuteRows_drop hd hl' (hlt j hj) 1000).2 h'
        simpa [hlt j hj] using this
      · intro h img h1 h2
        obtain ⟨j, hj, rfl⟩ := List.mem_map.1 h1
        have hj' := hlt j hj
        simp only [List.getD_eq_getElem?_getD, List.getElem?_eq_getElem hj', Option.getD_some] at h2
        exact (hsplit j hj').2 (h j hj) ((mem_permuteRows_drop hd hl' hj' 1000).1 h2)
    rw [hA]
    constructor
    · intro h
      refine (Finset.eq_of_subset_of_card_le (fun a ha => ?_) (by rw [hcard, hcard'])).symm
      exact List.mem_toFinset.2 (h a (List.mem_toFinset.1 ha))
    · intro h j hj
      exact List.mem_toFinset.1 (h ▸ List.mem_toFinset.2 hj)
  simp only [hiff]

open Classical in
/-- **C85.**  The numbers of the experiments: trained with seed 666 and tested with seed 996 on the 30000 images, a test image is
a training image with probability 29/30. -/
theorem C85_leak_experiment (trainSeed : Key) {file : Arr α} (hd : file.rows.Nodup) (hm : file.rows.length = 30000)
    (task : Restore.Task) (resolution : ℕ) {img : List α} (hi : img ∈ file.rows) :
    (celebaRestore (dataKey trainSeed) file resolution task false).E (fun d => if img ∈ d.xs.rows then 1 else 0) = 29 / 30 := by
  rw [celebaRestore, Rand.E_map]
  have h := C85_leak (dataKey trainSeed) hd (by omega) resolution hi
  refine Eq.trans h ?_
  rw [hm]
  have h1 : ((30000 - 1000 : ℕ) : ℝ≥0∞) = 1000 * 29 := by norm_num
  have h2 : ((30000 : ℕ) : ℝ≥0∞) = 1000 * 30 := by norm_num
  rw [h1, h2]
  exact ENNReal.mul_div_mul_left _ _ (by norm_num) (by norm_num)

/-- **C85.**  The constructors of the restoration data sets change nothing of the data, and their `unobs_shape` counts the
unobserved pixels and the channels. -/
theorem C85_restore (d : ImageSet α) (task : Restore.Task) :
    (restoreInit d task).toImageSet = d ∧ (restoreInit d task).srRandom = true ∧ (restoreInit d task).unobsShape.2 = d.imageShape.2.2 ∧
    (∀ s, task = .inpaint s → (restoreInit d task).unobsShape.1 = s ^ 2) ∧
    ∀ s, task = .supr s → s ^ 2 ∣ d.imageShape.1 * d.imageShape.2.1 → 0 < s →
      (restoreInit d task).unobsShape.1 + d.imageShape.1 * d.imageShape.2.1 / s ^ 2 = d.imageShape.1 * d.imageShape.2.1 := by
  refine ⟨rfl, rfl, rfl, fun s h => by subst h; rfl, fun s h hs h0 => ?_⟩
  subst h
  obtain ⟨q, hq⟩ := hs
  have hpos : 0 < s ^ 2 := by positivity
  show d.imageShape.1 * d.imageShape.2.1 * (s ^ 2 - 1) / s ^ 2 + _ = _
  rw [hq, Nat.mul_div_cancel_left _ hpos, mul_assoc, Nat.mul_div_cancel_left _ hpos]
  obtain ⟨p, hp⟩ : ∃ p, s ^ 2 = p + 1 := ⟨s ^ 2 - 1, by omega⟩
  rw [hp, Nat.add_sub_cancel]
  ring

/-- **C85.**  `MNISTRestore` holds the images of the array it was asked for, with the unobserved shape of its task. -/
theorem C85_mnist_restore {key : Key} {train testData : Arr α} {task : Restore.Task} {test : Bool}
    {r : Except String (RestoreSet α)} (hr : (mnistRestore key train testData task test).Returns r)
    (hw : (if test then testData else train).Wf) (hs : (if test then testData else train).rest.prod = 784)
    (hn : (if test then testData else train).rows.length = if test then 10000 else 60000) :
    ∃ d, r = .ok d ∧ d.n = d.xs.rows.length ∧ d.xs.rest = [28, 28, 1] ∧ d.imageShape = (28, 28, 1) ∧
      d.xs.rows.Perm (if test then testData else train).rows ∧ d.unobsShape.2 = 1 ∧
      ∀ s, task = .inpaint s → d.unobsShape.1 = s ^ 2 := by
  obtain ⟨r', hr', rfl⟩ := Rand.returns_map.1 hr
  obtain ⟨d, rfl, h1, h2, h3, h4⟩ := C85_mnist hr' hw hs hn
  obtain ⟨g1, -, g2, g3, -⟩ := C85_restore d task
  refine ⟨restoreInit d task, rfl, ?_, ?_, ?_, ?_, ?_, g3⟩
  · rw [g1]; exact h1
  · rw [g1]; exact h2
  · rw [g1]; exact h3
  · rw [g1]; exact h4
  · rw [g2, h3]

/-- **C85.**  The images of `CelebAHQ` are announced as square colour images of the resolution asked for, and their rows keep
the shape they have in the file. -/
theorem C85_celeba_shape {key : Key} {file : Arr α} {resolution : ℕ} {test : Bool} {d : ImageSet α}
    (h : (celeba key file resolution test).Returns d) :
    d.imageShape = (resolution, resolution, 3) ∧ d.xs.rest = file.rest := by
  obtain ⟨xs, hxs, h2⟩ := Rand.returns_bind.1 h
  cases Rand.returns_ret.1 h2
  have h3 := (returns_shuffle hxs).1
  cases test <;> exact ⟨rfl, h3⟩

/-- **C85.**  The key of the data set is independent of both keys that the script uses afterwards: the key of the mini-batches
(`data_key`) and the key it splits further. -/
theorem C85_data_key (seed : Key) :
    Key.Indep (dataKey seed) (split seed 2 1) ∧ Key.Indep (dataKey seed) (split (split seed 2 0) 2 0) := by
  refine ⟨?_, Key.indep_split _ _ one_ne_zero⟩
  have h := (Key.indep_split seed 2 (i := 0) (j := 1) zero_ne_one).append [(2, 1)] []
  rw [List.append_nil] at h
  exact h

/-! ### `Dataset.reshape` -/

/-- **C85.**  `Dataset.reshape` gives an array of at least two dimensions with the same number of entries and changes no array
that has two already; the first axis stays the first axis, so that a vector becomes a column. -/
theorem C85_base_reshape (s : List ℕ) : 2 ≤ (baseReshape s).length ∧ (baseReshape s).prod = s.prod ∧
    (baseReshape s).head? = some (s.headD 1) ∧
    (2 ≤ s.length → baseReshape s = s) ∧ baseReshape (baseReshape s) = baseReshape s := by
  match s with
  | [] => exact ⟨by simp [baseReshape], by simp [baseReshape], rfl, by simp, rfl⟩
  | [k] => exact ⟨by simp [baseReshape], by simp [baseReshape], rfl, by simp, rfl⟩
  | a :: b :: s => exact ⟨by simp [baseReshape], rfl, rfl, fun _ => rfl, rfl⟩

/-! ### The hypotheses can be met -/

/-- A file of different images of one pixel. -/
def pixelFile (m : ℕ) : Arr ℕ := ⟨[1], (List.range m).map fun i => [i]⟩

theorem pixelFile_nodup (m : ℕ) : (pixelFile m).rows.Nodup :=
  List.Nodup.map (fun a b h => by simpa using h) List.nodup_range

theorem pixelFile_length (m : ℕ) : (pixelFile m).rows.length = m := by simp [pixelFile]

theorem mem_pixelFile {m i : ℕ} (h : i < m) : [i] ∈ (pixelFile m).rows := List.mem_map.2 ⟨i, List.mem_range.2 h, rfl⟩

open Classical in
example (seed : Key) {m : ℕ} (hm : m = 30000) : (celebaRestore (dataKey seed) (pixelFile m) 1 (.inpaint 1) false).E
    (fun d => if [17] ∈ d.xs.rows then 1 else 0) = 29 / 30 := by
  convert C85_leak_experiment seed (pixelFile_nodup m) ((pixelFile_length m).trans hm) (.inpaint 1) 1
    (mem_pixelFile (i := 17) (by omega))

open Classical in
example (key key' : Key) {m : ℕ} (hm : 1000 ≤ m) : (celeba key' (pixelFile m) 1 true).E (fun t =>
    (celeba key (pixelFile m) 1 false).E fun d => if List.Disjoint t.xs.rows d.xs.rows then 1 else 0) =
      ((m.choose 1000 : ℕ) : ℝ≥0∞)⁻¹ := by
  have h := C85_no_leak key key' (pixelFile_nodup m) (by rw [pixelFile_length]; exact hm) 1
  rwa [pixelFile_length] at h

/-- A file of 60000 and 10000 digits. -/
example (key : Key) {r : Except String (ImageSet ℝ)}
    (hr : (mnist key ⟨[784], List.replicate 60000 (List.replicate 784 0.5)⟩
      ⟨[784], List.replicate 10000 (List.replicate 784 1)⟩ true).Returns r) : ∃ d, r = .ok d ∧ d.n = 10000 := by
  obtain ⟨d, h1, h2, -, -, h3⟩ := C85_mnist hr
    (by
      intro r hr'
      simp only [if_true] at hr' ⊢
      rw [List.eq_of_mem_replicate hr', List.length_replicate]; rfl) rfl (List.length_replicate ..)
  refine ⟨d, h1, ?_⟩
  rw [h2, h3.length_eq]
  exact List.length_replicate ..

end Props
end Fbs
