import Verif.Model.Train
import Verif.Props.Simulators
import Verif.Props.Data
import Verif.Props.ExpKeys
import Verif.Props.DsbOptimal
import Verif.Props.Losses
import Verif.Lemmas.OrderStat

/-!
# C76: the training scripts
-/

open MeasureTheory
open scoped ENNReal

namespace Fbs
namespace Spec

variable {α P : Type}

/-- The key of gradient step `j` of an epoch with key `key`. -/
def stepKey (key : Key) (j : ℕ) : Key := key ++ List.replicate j (2, 0) ++ [(2, 1)]

/-- Gradient steps `j, j + 1, …` on the given batches. -/
def runSteps (step : ℕ → P → Key → List α → Rand P) (key : Key) : ℕ → P → List (List α) → Rand P
  | _, p, [] => pure p
  | j, p, b :: bs => step j p (stepKey key j) b >>= fun p => runSteps step key (j + 1) p bs

/-- In every run no key is consumed twice and all consumed keys are derived from `key` (or equal to it). -/
def DistinctFrom {β : Type} (key : Key) (p : Rand β) : Prop :=
  ∀ ks a, p.Runs ks a → ks.Nodup ∧ ∀ k ∈ ks, key <+: k

/-- The times of a grid as a sequence. -/
def seqOf (ts : Arr1 ℝ) (k : ℕ) : ℝ := ts.toList.getD k 0

/-- On the grid `ts`, simulating the drift `f` from `π`: each simulated point has a continuous positive density `p_k`, and
the networks of smallest expected loss are exactly those equal to the reversed drift `σ² ∇ log p_k - f`, almost everywhere
at every time. -/
def LearnsReversal {κ : Type} [Fintype κ] [DecidableEq κ] (n : ℕ) (key : Key) (π : Measure (κ → ℝ)) (ts : Arr1 ℝ)
    (f : (κ → ℝ) → ℝ → (κ → ℝ)) (σ : ℝ → ℝ) : Prop :=
  ∃ p : ℕ → (κ → ℝ) → ℝ,
    (∀ k < ts.2.length, Continuous (p k) ∧ (∀ x, 0 < p k x) ∧
      chainLaw f σ (seqOf ts) π (k + 1) = (volume : Measure (κ → ℝ)).withDensity fun x => ENNReal.ofReal (p k x)) ∧
    ∀ b' : (κ → ℝ) → ℝ → (κ → ℝ),
      (∀ k < ts.2.length, ∀ x i, b' x (seqOf ts (k + 1)) i =
        σ (seqOf ts k) ^ 2 * deriv (fun y => Real.log (p k (Function.update x i y))) (x i) - f x (seqOf ts k) i) →
      ∀ b : (κ → ℝ) → ℝ → (κ → ℝ), (∀ k < ts.2.length, Measurable fun x => b x (seqOf ts (k + 1))) →
        expectedIpf n key π ts b' f σ ≤ expectedIpf n key π ts b f σ ∧
        (expectedIpf n key π ts b f σ = expectedIpf n key π ts b' f σ ↔
          ∀ k < ts.2.length, ∀ᵐ x : κ → ℝ, b x (seqOf ts (k + 1)) = b' x (seqOf ts (k + 1)))

/-- Which times a simulation looks at: `DependsOn τ prog` says that the simulation is the same for all drifts that agree at
the times `τ`. -/
def DependsOn {ι β : Type} (τ : Set ℝ) (prog : ((ι → ℝ) → ℝ → (ι → ℝ)) → Rand β) : Prop :=
  ∀ f g : (ι → ℝ) → ℝ → (ι → ℝ), (∀ t ∈ τ, ∀ x, f x t = g x t) → prog f = prog g

end Spec

namespace Props

open Rand Train Spec Jax

variable {α P : Type}

/-! ### Epochs -/

theorem pyGet_ofNat {β : Type} (l : List β) (j : ℕ) (h : j < l.length) : Data.pyGet l (j : ℤ) = .ok l[j] := by
  simp [Data.pyGet, List.getElem?_eq_getElem h]

theorem replicate_snoc_key (key : Key) (j : ℕ) :
    split (key ++ List.replicate j (2, 0)) 2 0 = key ++ List.replicate (j + 1) (2, 0) := by
  rw [split, List.append_assoc, List.replicate_succ']

theorem epochSteps_eq [Inhabited α] (xs : List α) (step : Step P (List α)) (key : Key) (chunks : List (List ℕ)) :
    ∀ (rest : List (List ℕ)) (j : ℕ) (p : P), chunks.drop j = rest →
      epochSteps xs chunks step ((List.range rest.length).map (j + ·)) (key ++ List.replicate j (2, 0)) p =
        .ok <$> runSteps step key j p (rest.map (Data.gather xs))
  | [], j, p, _ => rfl
  | c :: rest, j, p, h => by
    have hj : j < chunks.length := by
      by_contra hj
      rw [List.drop_eq_nil_of_le (by omega)] at h
      exact absurd h (by simp)
    have hc : chunks[j] = c := by
      have := List.drop_eq_getElem_cons hj
      rw [h] at this
      exact (List.cons.inj this).1.symm
    have hr : chunks.drop (j + 1) = rest := by
      have := List.drop_eq_getElem_cons hj
      rw [h] at this
      exact (List.cons.inj this).2.symm
    have hm : ((List.range (rest.length + 1)).map (j + ·)) = j :: (List.range rest.length).map (j + 1 + ·) := by
      rw [List.range_succ_eq_map, List.map_cons, List.map_map]
      simp only [Nat.add_zero, List.cons.injEq, true_and]
      exact List.map_congr_left fun i _ => by simp only [Function.comp_apply]; omega
    have he : Data.enumerateSubset xs chunks (j : ℤ) = .ok (Data.gather xs c) := by
      rw [Data.enumerateSubset, pyGet_ofNat _ _ hj, hc]; rfl
    have hk : split (key ++ List.replicate j (2, 0)) 2 1 = stepKey key j := rfl
    rw [List.length_cons, hm, epochSteps, he, replicate_snoc_key, hk]
    simp only [List.map_cons, runSteps, map_bind]
    congr 1
    funext p'
    exact epochSteps_eq xs step key chunks rest (j + 1) p' hr

theorem gather_perm_take [Inhabited α] (xs : List α) {m : ℕ} (hm : m ≤ xs.length) {inds : List ℕ}
    (h : inds.Perm (List.range m)) : (Data.gather xs inds).Perm (xs.take m) := by
  refine (h.map _).trans (List.Perm.of_eq ?_)
  refine List.ext_getElem (by simp [hm]) fun i h1 h2 => ?_
  have hi : i < m := by simpa using h1
  simp only [List.getElem_map, List.getElem_range, List.getElem_take]
  rw [Nat.min_eq_left (by omega), List.getD, List.getElem?_eq_getElem (by omega), Option.getD_some]

theorem gather_flatten [Inhabited α] (xs : List α) (cs : List (List ℕ)) :
    (cs.map (Data.gather xs)).flatten = Data.gather xs cs.flatten := by
  simp only [Data.gather, List.map_flatten]
  rfl

/-- **C76, epochs.**  With a batch size between one and the size of the data, no epoch fails: it consumes the key it was
given for the permutation and then makes `n / batchSize` gradient steps, numbered from 0, with pairwise different keys,
on batches of the batch size.  Together the batches are a rearrangement of the first `batchSize · (n / batchSize)` data. -/
theorem C76_epoch [Inhabited α] (xs : List α) {batchSize : ℕ} (h0 : 0 < batchSize) (hn : batchSize ≤ xs.length)
    (step : Step P (List α)) (key : Key) (p : P) {ks : List Key} {r : Except String P}
    (h : (epoch xs batchSize step key p).Runs ks r) :
    ∃ (batches : List (List α)) (p' : P) (ks' : List Key), r = .ok p' ∧ ks = key :: ks' ∧
      batches.length = xs.length / batchSize ∧ (∀ b ∈ batches, b.length = batchSize) ∧
      batches.flatten.Perm (xs.take (batchSize * (xs.length / batchSize))) ∧
      (runSteps step key 0 p batches).Runs ks' p' := by
  obtain ⟨ks₁, r₁, ks₂, rfl, h1, h2⟩ := runs_bind.1 h
  obtain ⟨chunks, rfl, hl, hs, hp⟩ := C43_epoch h0 hn ⟨ks₁, h1⟩
  have hks : ks₁ = [key] := by
    rw [Data.initEnumeration, if_neg h0.ne'] at h1
    obtain ⟨r', h', -⟩ := runs_map.1 h1
    rw [Data.choiceNoReplace, if_neg (lt_irrefl _)] at h'
    obtain ⟨l, hl', -⟩ := runs_map.1 h'
    obtain ⟨σ, hσ, -⟩ := runs_map.1 hl'
    exact (runs_sample.1 hσ).1
  have e := epochSteps_eq xs step key chunks chunks 0 p rfl
  simp only [Nat.zero_add, List.map_id', List.replicate_zero, List.append_nil] at e
  have h3 : (epochSteps xs chunks step (List.range (xs.length / batchSize)) key p).Runs ks₂ r := h2
  rw [← hl, e] at h3
  obtain ⟨p', h4, rfl⟩ := runs_map.1 h3
  refine ⟨chunks.map (Data.gather xs), p', ks₂, rfl, by rw [hks]; rfl, by simp [hl], ?_, ?_, h4⟩
  · intro b hb
    obtain ⟨c, hc, rfl⟩ := List.mem_map.1 hb
    simpa [Data.gather] using hs c hc
  · rw [gather_flatten]
    exact gather_perm_take xs (Nat.mul_div_le _ _) hp

/-- **C76, data that are never used.**  The last `n mod batchSize` data are in no batch of any epoch of any training
run (if the data are pairwise different). -/
theorem C76_tail [Inhabited α] (xs : List α) (hd : xs.Nodup) {batchSize : ℕ} (h0 : 0 < batchSize)
    (hn : batchSize ≤ xs.length) (step : Step P (List α)) (key : Key) (p : P) {ks : List Key} {r : Except String P}
    (h : (epoch xs batchSize step key p).Runs ks r) :
    ∃ (batches : List (List α)) (p' : P), r = .ok p' ∧ (runSteps step key 0 p batches).Returns p' ∧
      ∀ x ∈ xs.drop (xs.length - xs.length % batchSize), ∀ b ∈ batches, x ∉ b := by
  obtain ⟨batches, p', ks', hr, -, -, -, hp, hs⟩ := C76_epoch xs h0 hn step key p h
  refine ⟨batches, p', hr, ⟨ks', hs⟩, fun x hx b hb hxb => ?_⟩
  have h1 := hp.mem_iff.1 (List.mem_flatten.2 ⟨b, hb, hxb⟩)
  have h2 : batchSize * (xs.length / batchSize) = xs.length - xs.length % batchSize := by
    have := Nat.div_add_mod xs.length batchSize
    omega
  rw [h2] at h1
  have h3 := List.take_append_drop (xs.length - xs.length % batchSize) xs
  rw [← h3] at hd
  exact (List.nodup_append.1 hd).2.2 x h1 x hx rfl

/-- Five data in batches of two, with a step that records its batch: some run gives the batches `[3, 0]`, `[1, 2]`; the
datum `4` is never seen. -/
example (key : Key) : (epoch [0, 1, 2, 3, 4] 2 (fun _ log k b => (fun _ => log ++ [b]) <$> uniform k) key []).Returns
    (.ok [[3, 0], [1, 2]]) := by
  refine returns_bind.2 ⟨_, C43_every_split (chunks := [[3, 0], [1, 2]]) key (by norm_num) (by simp) (by simp) (by decide), ?_⟩
  have e := epochSteps_eq [0, 1, 2, 3, 4] (fun _ log k b => (fun _ => log ++ [b]) <$> uniform k) key [[3, 0], [1, 2]]
    [[3, 0], [1, 2]] 0 [] rfl
  simp only [Nat.zero_add, List.map_id', List.replicate_zero, List.append_nil] at e
  show (epochSteps [0, 1, 2, 3, 4] [[3, 0], [1, 2]] _ (List.range 2) key []).Returns _
  have e' : epochSteps [0, 1, 2, 3, 4] [[3, 0], [1, 2]] (fun _ log k b => (fun _ => log ++ [b]) <$> uniform k)
    (List.range 2) key [] = _ := e
  rw [e']
  have h0 : ∀ k, (uniform k).Returns 0 := fun k => returns_sample.2 (by simp)
  exact returns_map.2 ⟨_, returns_bind.2 ⟨_, returns_map.2 ⟨0, h0 _, rfl⟩,
    returns_bind.2 ⟨_, returns_map.2 ⟨0, h0 _, rfl⟩, returns_ret.2 rfl⟩⟩, by simp [Data.gather]⟩

/-! ### Keys -/

/-- Every run consumes pairwise different keys from `R`. -/
def DrawsOnce {β : Type} (R : Set Key) (p : Rand β) : Prop := ∀ ks a, p.Runs ks a → ks.Nodup ∧ ∀ k ∈ ks, k ∈ R

theorem draws_pure {β : Type} (R : Set Key) (a : β) : DrawsOnce R (pure a : Rand β) := by
  rintro ks x ⟨rfl, -⟩
  simp

theorem DrawsOnce.mono {β : Type} {R R' : Set Key} {p : Rand β} (h : DrawsOnce R p) (hR : R ⊆ R') : DrawsOnce R' p :=
  fun ks a hr => ⟨(h ks a hr).1, fun k hk => hR ((h ks a hr).2 k hk)⟩

theorem DrawsOnce.bind' {β γ : Type} {R R' : Set Key} {p : Rand β} {g : β → Rand γ} (hp : DrawsOnce R p)
    (hg : ∀ a, p.Returns a → DrawsOnce R' (g a)) (hd : ∀ k ∈ R, k ∉ R') : DrawsOnce (R ∪ R') (p >>= g) := by
  intro ks b hb
  obtain ⟨ks₁, a, ks₂, rfl, h1, h2⟩ := runs_bind.1 hb
  obtain ⟨p1, q1⟩ := hp _ _ h1
  obtain ⟨p2, q2⟩ := hg a ⟨_, h1⟩ _ _ h2
  refine ⟨List.nodup_append.2 ⟨p1, p2, fun x hx y hy e => ?_⟩, fun k hk => ?_⟩
  · exact hd x (q1 x hx) (e ▸ q2 y hy)
  · rcases List.mem_append.1 hk with hk | hk
    · exact Or.inl (q1 k hk)
    · exact Or.inr (q2 k hk)

theorem DrawsOnce.map {β γ : Type} {R : Set Key} {p : Rand β} (h : DrawsOnce R p) (f : β → γ) : DrawsOnce R (f <$> p) := by
  intro ks b hb
  obtain ⟨a, ha, -⟩ := runs_map.1 hb
  exact h ks a ha

theorem DrawsOnce.of_fresh {β : Type} {k : Key} {p : Rand β} (h : FreshFrom k p) : DrawsOnce {x | k <+: x} p :=
  fun ks a hr => ⟨(h ks a hr).2.imp fun hh => hh.1, (h ks a hr).1⟩

theorem not_prefix_of_len {k k' x : Key} (hl : k.length = k'.length) (hne : k ≠ k') (h : k <+: x) : ¬ k' <+: x :=
  fun h' => hne ((List.prefix_of_prefix_length_le h h' hl.le).eq_of_length hl)

theorem split_ne_prefix {key x : Key} {i j : ℕ} (hij : i ≠ j) (h : split key 2 i <+: x) : ¬ split key 2 j <+: x :=
  not_prefix_of_len (by simp [split]) (by simp [split, hij]) h

theorem draws_epochSteps [Inhabited α] (xs : List α) (chunks : List (List ℕ)) {step : Step P (List α)}
    (hs : ∀ j p k b, FreshFrom k (step j p k b)) : ∀ (js : List ℕ) (key : Key) (p : P),
    DrawsOnce {k | split key 2 0 <+: k ∨ split key 2 1 <+: k} (epochSteps xs chunks step js key p)
  | [], _, _ => draws_pure _ _
  | j :: js, key, p => by
    rw [epochSteps]
    cases h : Data.enumerateSubset xs chunks (j : ℤ) with
    | error e => exact draws_pure _ _
    | ok x0s =>
      refine (DrawsOnce.bind' (R' := {k | split key 2 0 <+: k}) (DrawsOnce.of_fresh (hs j p _ x0s)) (fun p' _ => ?_) ?_).mono ?_
      · refine (draws_epochSteps xs chunks hs js (split key 2 0) p').mono ?_
        rintro k (hk | hk)
        · exact (split_prefix _ _ _).trans hk
        · exact (split_prefix _ _ _).trans hk
      · exact fun k hk => split_ne_prefix (by norm_num) hk
      · rintro k (hk | hk)
        · exact Or.inr hk
        · exact Or.inl hk

theorem draws_initEnumeration (n : ℕ) (key : Key) (b : ℕ) : DrawsOnce {key} (Data.initEnumeration n key b) := by
  unfold Data.initEnumeration
  split_ifs
  · exact draws_pure _ _
  · refine DrawsOnce.map (p := Data.choiceNoReplace key (b * (n / b)) (b * (n / b))) ?_ _
    rw [Data.choiceNoReplace, if_neg (lt_irrefl _)]
    refine DrawsOnce.map (DrawsOnce.map ?_ _) _
    intro ks a h
    rw [(runs_sample.1 h).1]
    simp

theorem split_ne_self {key k : Key} {i : ℕ} (h : split key 2 i <+: k) : k ≠ key := by
  rintro rfl
  have := h.length_le
  simp [split] at this

theorem draws_epoch [Inhabited α] (xs : List α) (b : ℕ) {step : Step P (List α)}
    (hs : ∀ j p k b, FreshFrom k (step j p k b)) (key : Key) (p : P) :
    DrawsOnce {k | key <+: k} (epoch xs b step key p) := by
  refine (DrawsOnce.bind' (R' := {k | split key 2 0 <+: k ∨ split key 2 1 <+: k}) (draws_initEnumeration _ _ _)
    (fun r _ => ?_) ?_).mono ?_
  · cases r with
    | error e => exact draws_pure _ _
    | ok chunks => exact draws_epochSteps xs chunks hs _ _ _
  · rintro k rfl (hk | hk)
    · exact split_ne_self hk rfl
    · exact split_ne_self hk rfl
  · rintro k (hk | hk | hk)
    · rw [Set.mem_singleton_iff.1 hk]; exact List.prefix_refl _
    · exact (split_prefix _ _ _).trans hk
    · exact (split_prefix _ _ _).trans hk

/-- Keys below one of the first `n` epoch keys. -/
def Below (key : Key) (n : ℕ) : Set Key := {k | ∃ i < n, stepKey key i <+: k}

theorem stepKey_succ (key : Key) (i : ℕ) : stepKey (split key 2 0) i = stepKey key (i + 1) := by
  simp only [stepKey, split, List.append_assoc, List.replicate_succ, List.cons_append, List.nil_append]

theorem below_succ (key : Key) (n : ℕ) : Below key (n + 1) = {k | split key 2 1 <+: k} ∪ Below (split key 2 0) n := by
  ext k
  constructor
  · rintro ⟨i, hi, h⟩
    cases i with
    | zero => exact Or.inl (by simpa [stepKey, split] using h)
    | succ i => exact Or.inr ⟨i, by omega, by rw [stepKey_succ]; exact h⟩
  · rintro (h | ⟨i, hi, h⟩)
    · exact ⟨0, by omega, by simpa [stepKey, split] using h⟩
    · exact ⟨i + 1, by omega, by rw [← stepKey_succ]; exact h⟩

theorem prefix_of_below {key k : Key} {n : ℕ} (h : k ∈ Below key n) : key <+: k := by
  obtain ⟨i, -, h⟩ := h
  exact List.IsPrefix.trans ⟨_, by rw [stepKey, List.append_assoc]⟩ h

/-- The keys used by the epochs and the key left over. -/
theorem draws_epochs [Inhabited α] (xs : List α) (b : ℕ) {step : Step P (List α)}
    (hs : ∀ j p k b, FreshFrom k (step j p k b)) : ∀ (n : ℕ) (key : Key) (p : P),
    DrawsOnce (Below key n) (epochs xs b step n key p) ∧
      ∀ p' key', (epochs xs b step n key p).Returns (.ok p', key') → key' = key ++ List.replicate n (2, 0)
  | 0, key, p => ⟨draws_pure _ _, fun p' key' h => by
      have := returns_ret.1 h
      simpa using (Prod.ext_iff.1 this).2⟩
  | n + 1, key, p => by
    refine ⟨?_, fun p' key' h => ?_⟩
    · rw [below_succ]
      refine DrawsOnce.bind' (draws_epoch xs b hs _ p) (fun r _ => ?_) fun k hk hk' => ?_
      · cases r with
        | error e => exact draws_pure _ _
        | ok p' => exact (draws_epochs xs b hs n _ p').1
      · exact split_ne_prefix (by norm_num) hk (prefix_of_below hk')
    · obtain ⟨r, hr, h'⟩ := returns_bind.1 h
      cases r with
      | error e =>
        have := (Prod.ext_iff.1 (returns_ret.1 h')).1
        simp at this
      | ok p'' =>
        rw [(draws_epochs xs b hs n _ p'').2 p' key' h', split, List.append_assoc, List.replicate_succ]
        rfl

section Sb

variable {ι S : Type} [Fintype ι] {b : ℕ}

theorem draws_refSteps {step : Step P (Fin b × ι → ℝ)} (hs : ∀ j p k x, FreshFrom k (step j p k x)) :
    ∀ (js : List ℕ) (key : Key) (p : P),
    DrawsOnce {k | split key 2 0 <+: k ∨ split key 2 1 <+: k} (refSteps b step js key p)
  | [], _, _ => draws_pure _ _
  | j :: js, key, p => by
    refine (DrawsOnce.bind' (R := {split key 2 0}) (R' := {k | split key 2 1 <+: k} ∪
      {k | split (split key 2 0) 2 0 <+: k ∨ split (split key 2 0) 2 1 <+: k}) ?_ (fun x _ => DrawsOnce.bind'
        (DrawsOnce.of_fresh (hs j p _ x)) (fun p' _ => draws_refSteps hs js _ p') ?_) ?_).mono ?_
    · intro ks a h
      rw [(runs_sample.1 h).1]
      simp
    · rintro k hk (hk' | hk')
      · exact split_ne_prefix (by norm_num) hk ((split_prefix _ _ _).trans hk')
      · exact split_ne_prefix (by norm_num) hk ((split_prefix _ _ _).trans hk')
    · rintro k rfl (hk | hk | hk)
      · exact split_ne_prefix (by norm_num) hk (List.prefix_refl _)
      · exact split_ne_self hk rfl
      · exact split_ne_self hk rfl
    · rintro k (hk | hk | hk | hk)
      · rw [Set.mem_singleton_iff.1 hk]; exact Or.inl (List.prefix_refl _)
      · exact Or.inr hk
      · exact Or.inl ((split_prefix _ _ _).trans hk)
      · exact Or.inl ((split_prefix _ _ _).trans hk)

theorem draws_refEpochs (m : ℕ) {step : Step P (Fin b × ι → ℝ)} (hs : ∀ j p k x, FreshFrom k (step j p k x)) :
    ∀ (n : ℕ) (key : Key) (p : P), DrawsOnce (Below key n) (refEpochs b m step n key p)
  | 0, _, _ => draws_pure _ _
  | n + 1, key, p => by
    rw [below_succ]
    refine DrawsOnce.bind' ((draws_refSteps hs _ _ p).mono ?_) (fun p' _ => draws_refEpochs m hs n _ p') fun k hk hk' => ?_
    · rintro k (hk | hk)
      · exact (split_prefix _ _ _).trans hk
      · exact (split_prefix _ _ _).trans hk
    · exact split_ne_prefix (by norm_num) hk (prefix_of_below hk')

theorem below_disjoint {key k : Key} {n : ℕ} (h : k ∈ Below key n) : ¬ key ++ List.replicate n (2, 0) <+: k := by
  obtain ⟨i, hi, h⟩ := h
  intro h'
  have e : key ++ List.replicate n (2, 0) = split (key ++ List.replicate i (2, 0)) 2 0 ++ List.replicate (n - i - 1) (2, 0) := by
    rw [replicate_snoc_key, List.append_assoc, List.replicate_append_replicate]
    congr 2
    omega
  exact split_ne_prefix (key := key ++ List.replicate i (2, 0)) (i := 1) (j := 0) (by norm_num) h
    (List.IsPrefix.trans ⟨_, e.symm⟩ h')

theorem draws_sbKernel [Inhabited α] (xs : List α) (nepochs : ℕ) {k : Kernels P S α ι b}
    (h1 : ∀ p s q key x, FreshFrom key (k.init p s q key x)) (h2 : ∀ p s q key x, FreshFrom key (k.bwd p s q key x))
    (h3 : ∀ p s q key x, FreshFrom key (k.fwd p s q key x)) (pf pb : P) (sf sb : S) (key : Key) (i : ℕ) :
    DrawsOnce {x | key <+: x} (sbKernel xs nepochs k pf pb sf sb key i) := by
  have hstep : ∀ (j : ℕ) (p : P × S) (key : Key) (x : List α), FreshFrom key
      (if i = 0 then k.init p.1 p.2 pf key x else k.bwd p.1 p.2 pf key x) := by
    intro j p key x
    split_ifs
    · exact h1 _ _ _ _ _
    · exact h2 _ _ _ _ _
  have hd := draws_epochs xs b (step := fun _ p key x => if i = 0 then k.init p.1 p.2 pf key x else
    k.bwd p.1 p.2 pf key x) hstep nepochs key (pb, sb)
  refine (DrawsOnce.bind' (R' := {x | key ++ List.replicate nepochs (2, 0) <+: x}) hd.1 ?_ ?_).mono ?_
  · rintro ⟨r, key'⟩ hr
    cases r with
    | error e => exact draws_pure _ _
    | ok p =>
      have hk := hd.2 p key' hr
      subst hk
      refine DrawsOnce.map (DrawsOnce.mono (draws_refEpochs _ (fun _ p key x => h3 p.1 p.2 _ key x) nepochs _ _)
        fun x hx => prefix_of_below hx) _
  · exact fun x hx => below_disjoint hx
  · rintro x (hx | hx)
    · exact prefix_of_below hx
    · exact List.IsPrefix.trans ⟨_, rfl⟩ hx

theorem draws_sbLoop [Inhabited α] (xs : List α) (nepochs : ℕ) {k : Kernels P S α ι b}
    (h1 : ∀ p s q key x, FreshFrom key (k.init p s q key x)) (h2 : ∀ p s q key x, FreshFrom key (k.bwd p s q key x))
    (h3 : ∀ p s q key x, FreshFrom key (k.fwd p s q key x)) : ∀ (m i : ℕ) (key : Key) (p : P × P × S × S),
    DrawsOnce (Below key m) (sbLoop xs nepochs k m i key p)
  | 0, _, _, _ => draws_pure _ _
  | m + 1, i, key, (pf, pb, sf, sb) => by
    rw [below_succ]
    refine DrawsOnce.bind' (draws_sbKernel xs nepochs h1 h2 h3 pf pb sf sb _ i) (fun r _ => ?_) fun k hk hk' => ?_
    · cases r with
      | error e => exact draws_pure _ _
      | ok p => exact draws_sbLoop xs nepochs h1 h2 h3 m (i + 1) _ p
    · exact split_ne_prefix (by norm_num) hk (prefix_of_below hk')

/-- **C76, keys (partial).**  If the gradient steps keep the key discipline, the training loops of both scripts never
consume a key twice, and all consumed keys are derived from the given one.  (Not proved, because false: that no consumed
key was split to obtain another one; see `C76_not_fresh` and `C76_ref_not_fresh`.) -/
theorem C76_keys_partial [Inhabited α] (xs : List α) (batchSize nepochs nsbs : ℕ) {step : Step P (List α)}
    (hs : ∀ j p key x, FreshFrom key (step j p key x)) {k : Kernels P S α ι b}
    (h1 : ∀ p s q key x, FreshFrom key (k.init p s q key x)) (h2 : ∀ p s q key x, FreshFrom key (k.bwd p s q key x))
    (h3 : ∀ p s q key x, FreshFrom key (k.fwd p s q key x)) (key : Key) (p : P) (pf pb : P) (sf sb : S) (i : ℕ) :
    DistinctFrom key (epochs xs batchSize step nepochs key p) ∧
    DistinctFrom key (sbKernel xs nepochs k pf pb sf sb key i) ∧
    DistinctFrom key (sbLoop xs nepochs k nsbs i key (pf, pb, sf, sb)) :=
  ⟨fun ks a hr => ⟨((draws_epochs xs batchSize hs nepochs key p).1 ks a hr).1, fun x hx =>
      prefix_of_below (((draws_epochs xs batchSize hs nepochs key p).1 ks a hr).2 x hx)⟩,
    fun ks a hr => draws_sbKernel xs nepochs h1 h2 h3 pf pb sf sb key i ks a hr,
    fun ks a hr => ⟨(draws_sbLoop xs nepochs h1 h2 h3 nsbs i key _ ks a hr).1, fun x hx =>
      prefix_of_below ((draws_sbLoop xs nepochs h1 h2 h3 nsbs i key _ ks a hr).2 x hx)⟩⟩

end Sb

/-- **C76, keys of the gradient steps.**  Within an epoch the gradient steps do keep the key discipline. -/
theorem C76_steps_fresh {step : Step P (List α)} (hs : ∀ j p key x, Consumes {key} (step j p key x)) (key : Key) (p : P)
    (batches : List (List α)) : FreshFrom key (runSteps step key 0 p batches) := by
  have h : ∀ (batches : List (List α)) (j : ℕ) (p : P),
      Consumes {key ++ List.replicate j (2, 0)} (runSteps step key j p batches) := by
    intro batches
    induction batches with
    | nil => exact fun j p => consumes_pure _ _
    | cons b bs ih =>
      intro j p
      refine Consumes.bind_split (n := 2) (i := 1) (j := 0) (by norm_num) (hs j p _ b) fun p' => ?_
      rw [replicate_snoc_key]
      exact ih (j + 1) p'
  have := h batches 0 p
  simp only [List.replicate_zero, List.append_nil] at this
  exact this.freshFrom

theorem live_runSteps {step : Step P (List α)} (hl : ∀ j p key x, (step j p key x).Live) (key : Key) :
    ∀ (batches : List (List α)) (j : ℕ) (p : P), (runSteps step key j p batches).Live
  | [], _, _ => live_pure _
  | _ :: bs, j, _ => (hl j _ _ _).bind fun p' => live_runSteps hl key bs (j + 1) p'

/-- **C76, the permutation of an epoch uses an ancestor key.**  Both scripts draw the permutation of an epoch from a key
and then split that same key to obtain the keys of the gradient steps. -/
theorem C76_not_fresh [Inhabited α] (xs : List α) {batchSize : ℕ} (h0 : 0 < batchSize) (hn : batchSize ≤ xs.length)
    {step : Step P (List α)} (hl : ∀ j p key x, (step j p key x).Live)
    (hs : ∀ j p key x ks a, (step j p key x).Runs ks a → ks ≠ [] ∧ ∀ k ∈ ks, key <+: k) (key : Key) (p : P) :
    ¬ FreshKeys (epoch xs batchSize step key p) := by
  intro hf
  have hli : (Data.initEnumeration xs.length key batchSize).Live := by
    rw [Data.initEnumeration, if_neg h0.ne']
    refine Live.map _ ?_
    rw [Data.choiceNoReplace, if_neg (lt_irrefl _)]
    exact Live.map _ (Live.map _ (live_sample ⟨1, trivial⟩))
  obtain ⟨r₁, hr₁⟩ := hli.returns
  obtain ⟨chunks, rfl, hlen, -, -⟩ := C43_epoch h0 hn hr₁
  have e := epochSteps_eq xs step key chunks chunks 0 p rfl
  simp only [Nat.zero_add, List.map_id', List.replicate_zero, List.append_nil] at e
  obtain ⟨r, hr⟩ := ((live_runSteps hl key (chunks.map (Data.gather xs)) 0 p).map Except.ok (β := Except String P)).returns
  rw [← e, hlen] at hr
  obtain ⟨ks, hks⟩ : (epoch xs batchSize step key p).Returns r := returns_bind.2 ⟨_, hr₁, hr⟩
  have hfr := hf ks r hks
  obtain ⟨batches, p', ks', -, rfl, hbl, -, -, hrun⟩ := C76_epoch xs h0 hn step key p hks
  have hpos : 0 < xs.length / batchSize := Nat.div_pos hn h0
  match batches, hbl, hrun with
  | [], hbl, _ => simp at hbl; omega
  | B :: Bs, _, hrun =>
    obtain ⟨ks₁, a, ks₂, rfl, h1, -⟩ := runs_bind.1 hrun
    obtain ⟨hne, hpre⟩ := hs _ _ _ _ _ _ h1
    obtain ⟨k, hk⟩ := List.exists_mem_of_ne_nil ks₁ hne
    have := (List.pairwise_cons.1 hfr).1 k (List.mem_append_left _ hk)
    exact this.2.1 (List.IsPrefix.trans ⟨[(2, 1)], by simp [stepKey]⟩ (hpre k hk))

/-- A gradient step that draws one number meets the hypotheses. -/
example (key : Key) : ¬ FreshKeys (epoch [3, 4, 5] 2 (fun _ (p : ℝ) k _ => (p + ·) <$> uniform k) key 0) :=
  C76_not_fresh [3, 4, 5] (by norm_num) (by simp) (fun _ _ k _ => (live_uniform k).map _)
    (fun _ _ k _ ks a h => by
      obtain ⟨b, hb, -⟩ := runs_map.1 h
      rw [(runs_sample.1 hb).1]
      simp) key 0

/-- **C76, the reference samples use ancestor keys.**  With at least two steps per epoch, the key of the reference
samples of the first step is split to obtain the keys of the second step. -/
theorem C76_ref_not_fresh {ι : Type} [Fintype ι] {b : ℕ} {step : Step P (Fin b × ι → ℝ)}
    (hl : ∀ j p key x, (step j p key x).Live) (i j : ℕ) (js : List ℕ) (key : Key) (p : P) :
    ¬ FreshKeys (refSteps b step (i :: j :: js) key p) := by
  intro hf
  have hlr : ∀ (js : List ℕ) (key : Key) (p : P), (refSteps b step js key p).Live := by
    intro js
    induction js with
    | nil => exact fun _ _ => live_pure _
    | cons j js ih =>
      exact fun key p => (live_sample ⟨0, trivial⟩ : (normal (split key 2 0) (Fin b × ι)).Live).bind fun x =>
        (hl _ _ _ _).bind fun p' => ih _ _
  obtain ⟨ks₁, x, hx⟩ : ∃ ks x, (normal (split key 2 0) (Fin b × ι)).Runs ks x := ⟨_, 0, runs_sample.2 ⟨rfl, trivial⟩⟩
  obtain ⟨p', ks₂, hp'⟩ := (hl i p (split key 2 1) x).returns
  obtain ⟨ks₃, y, hy⟩ : ∃ ks x, (normal (split (split key 2 0) 2 0) (Fin b × ι)).Runs ks x :=
    ⟨_, 0, runs_sample.2 ⟨rfl, trivial⟩⟩
  obtain ⟨p'', ks₄, hp''⟩ := (hl j p' (split (split key 2 0) 2 1) y).returns
  obtain ⟨r, ks₅, hr⟩ := (hlr js (split (split key 2 0) 2 0) p'').returns
  have h := hf _ _ (show (refSteps b step (i :: j :: js) key p).Runs _ r from
    runs_bind.2 ⟨ks₁, x, _, rfl, hx, runs_bind.2 ⟨ks₂, p', _, rfl, hp', runs_bind.2 ⟨ks₃, y, _, rfl, hy,
      runs_bind.2 ⟨ks₄, p'', ks₅, rfl, hp'', hr⟩⟩⟩⟩)
  rw [(runs_sample.1 hx).1, (runs_sample.1 hy).1] at h
  have := (List.pairwise_cons.1 h).1 (split (split key 2 0) 2 0) (by simp)
  exact this.2.1 (split_prefix _ _ _)

/-! ### Losses -/

section Loss

variable {ι : Type} [Fintype ι]

theorem consumes_rndTs (key : Key) (T : ℝ) (m : ℕ) : Consumes {key} (rndTs key T m) :=
  ((consumes_uniforms _ _).map _).map _

theorem consumes_ipfLoss (v : Bool) (key : Key) (x : ι → ℝ) (ts : Arr1 ℝ) (b f : (ι → ℝ) → ℝ → (ι → ℝ)) (σ : ℝ → ℝ) :
    Consumes {key} (ipfLoss v key x ts b f σ) := by
  cases v
  · exact ((consumes_normalRows _ _).bind_pure _).under (split_prefix _ _ _)
  · exact ((consumes_normalRows _ _).bind_pure _).under (split_prefix _ _ _)

/-- **C76, keys of the losses.** -/
theorem C76_loss_keys (v : Bool) (sde : Linear.SDE) (nn : (ι → ℝ) → ℝ → P → (ι → ℝ)) (T : ℝ) (m : ℕ) (p q : P) (key : Key)
    (x : ι → ℝ) : FreshFrom key (lossInit v sde nn T m p key x) ∧ FreshFrom key (lossBwd v sde nn T m p q key x) ∧
      FreshFrom key (lossFwd v sde nn T m p q key x) :=
  ⟨(Consumes.bind_split (by norm_num) (consumes_rndTs _ _ _) fun _ => consumes_ipfLoss _ _ _ _ _ _ _).freshFrom,
    (Consumes.bind_split (by norm_num) (consumes_rndTs _ _ _) fun _ => consumes_ipfLoss _ _ _ _ _ _ _).freshFrom,
    (Consumes.bind_split (by norm_num) (consumes_rndTs _ _ _) fun _ => consumes_ipfLoss _ _ _ _ _ _ _).freshFrom⟩

/-- **C76, times.**  The random grids start at `0`, end at `T`, have `nsteps` steps and never decrease; all times but the
first are at least `1e-5`. -/
theorem C76_times {key : Key} {T : ℝ} {nsteps : ℕ} (hn : nsteps ≠ 0) (hT : 1e-5 ≤ T) {ts : Arr1 ℝ}
    (h : (rndTs key T nsteps).Returns ts) :
    ts.1 = 0 ∧ ts.2.length = nsteps ∧ ts.2.getLast? = some T ∧ ts.2.Pairwise (· ≤ ·) ∧ ∀ t ∈ ts.2, 1e-5 ≤ t ∧ t ≤ T := by
  have h' := C38_random_times (key := key) (t0 := 0) hn (by rw [Losses.eps, zero_add]; exact hT) h
  simpa only [Losses.eps, zero_add] using h'

theorem ae_injective_unif (m : ℕ) : ∀ᵐ u ∂(Measure.pi fun _ : Fin m => unifMeasure),
    Function.Injective u ∧ ∀ i, u i ∈ Set.Ico (0 : ℝ) 1 := by
  have h : (Measure.pi fun _ : Fin m => unifMeasure) =
      (volume : Measure (Fin m → ℝ)).restrict (Set.univ.pi fun _ => Set.Ico (0 : ℝ) 1) := by
    rw [volume_pi, Measure.restrict_pi_pi]; rfl
  rw [h]
  have hm : MeasurableSet (Set.univ.pi fun _ : Fin m => Set.Ico (0 : ℝ) 1) :=
    MeasurableSet.univ_pi fun _ => measurableSet_Ico
  filter_upwards [ae_restrict_of_ae OrderStat.ae_injective, ae_restrict_mem hm] with u h1 h2
  exact ⟨h1, fun i => h2 i trivial⟩

theorem sort_strict {m : ℕ} {v : Fin m → ℝ} (h : Function.Injective v) : (Losses.sort v).Pairwise (· < ·) := by
  have h1 : (Losses.sort v).Pairwise (· ≤ ·) := by
    have := List.pairwise_mergeSort (le := fun a b : ℝ => decide (a ≤ b))
      (by simp only [decide_eq_true_eq]; exact fun a b c => le_trans)
      (by simp only [Bool.or_eq_true, decide_eq_true_eq]; exact fun a b => le_total a b) (List.ofFn v)
    simpa only [decide_eq_true_eq, Losses.sort] using this
  have h2 : (Losses.sort v).Nodup := ((List.mergeSort_perm _ _).nodup_iff).2 (List.nodup_ofFn.2 h)
  exact (h1.and h2).imp fun ⟨a, b⟩ => lt_of_le_of_ne a b

/-- Properties that hold for strictly increasing grids hold almost surely. -/
theorem rndTs_ae {key : Key} {T : ℝ} {nsteps : ℕ} (hn : nsteps ≠ 0) (hT : 1e-5 < T) {F : Arr1 ℝ → ℝ≥0∞}
    (hF : ∀ ts : Arr1 ℝ, ts.1 = 0 → ts.2.length = nsteps → ts.2.getLast? = some T → ts.toList.Pairwise (· < ·) →
      (∀ t ∈ ts.toList, 0 ≤ t ∧ t ≤ T) → F ts = 0) :
    (rndTs key T nsteps).E F = 0 := by
  rw [rndTs, Rand.E_map, Losses.uniformIn, Rand.E_map, uniforms, Rand.E_sample]
  refine (lintegral_congr_ae ?_).trans lintegral_zero
  filter_upwards [ae_injective_unif (nsteps - 1)] with u hu
  have hd : 0 < T - (0 + 1e-5 : ℝ) := by linarith
  have hret : (rndTs key T nsteps).Returns
      (0, Losses.sort (fun i => max (0 + 1e-5) (u i * (T - (0 + 1e-5)) + (0 + 1e-5))) ++ [T]) :=
    Rand.returns_map.2 ⟨_, Rand.returns_map.2 ⟨u, Rand.returns_sample.2 hu.2, rfl⟩, rfl⟩
  obtain ⟨h1, h2, h3, -, h5⟩ := C76_times hn hT.le hret
  have hval : ∀ i, max (0 + 1e-5 : ℝ) (u i * (T - (0 + 1e-5)) + (0 + 1e-5)) = u i * (T - (0 + 1e-5)) + (0 + 1e-5) :=
    fun i => max_eq_right (by nlinarith [(hu.2 i).1])
  refine hF _ h1 h2 h3 ?_ ?_
  · refine List.pairwise_cons.2 ⟨fun t ht => lt_of_lt_of_le (by norm_num) (h5 t ht).1, ?_⟩
    refine List.pairwise_append.2 ⟨sort_strict ?_, by simp, fun a ha b hb => ?_⟩
    · intro i j hij
      simp only [hval] at hij
      exact hu.1 (mul_right_cancel₀ hd.ne' (add_right_cancel hij))
    · rw [List.mem_singleton.1 hb]
      simp only [Losses.sort, List.mem_mergeSort, List.mem_ofFn'] at ha
      obtain ⟨i, rfl⟩ := ha
      simp only [hval]
      nlinarith [(hu.2 i).2]
  · intro t ht
    rcases List.mem_cons.1 ht with rfl | ht
    · exact ⟨le_rfl, by linarith⟩
    · exact ⟨le_trans (by norm_num) (h5 t ht).1, (h5 t ht).2⟩

theorem seqOf_grid (ts : Arr1 ℝ) : grid (seqOf ts) ts.2.length = ts := by
  obtain ⟨a, l⟩ := ts
  refine Prod.ext (by simp [grid, seqOf, Arr1.toList]) ?_
  refine List.ext_getElem (by simp [grid]) fun k h1 h2 => ?_
  simp only [grid, List.getElem_map, List.getElem_range, seqOf, Arr1.toList, List.getD_cons_succ]
  rw [List.getD, List.getElem?_eq_getElem h2, Option.getD_some]

theorem seqOf_mem {ts : Arr1 ℝ} {k : ℕ} (hk : k < ts.2.length + 1) : seqOf ts k ∈ ts.toList := by
  have h : k < ts.toList.length := by simpa [Arr1.toList] using hk
  rw [seqOf, List.getD, List.getElem?_eq_getElem h, Option.getD_some]
  exact List.getElem_mem h

theorem seqOf_ne {ts : Arr1 ℝ} (hp : ts.toList.Pairwise (· ≠ ·)) {k : ℕ} (hk : k < ts.2.length) :
    seqOf ts (k + 1) ≠ seqOf ts k := by
  have h1 : k + 1 < ts.toList.length := by simpa [Arr1.toList] using hk
  have h0 : k < ts.toList.length := by omega
  simp only [seqOf, List.getD, List.getElem?_eq_getElem h1, List.getElem?_eq_getElem h0, Option.getD_some]
  exact (List.pairwise_iff_getElem.1 hp k (k + 1) h0 h1 (by omega)).symm

theorem learnsReversal {κ : Type} [Fintype κ] [DecidableEq κ] [Nonempty κ] (n : ℕ) [NeZero n] (key : Key)
    (π : Measure (κ → ℝ)) [IsProbabilityMeasure π] {f : (κ → ℝ) → ℝ → (κ → ℝ)} {σ : ℝ → ℝ} {ts : Arr1 ℝ}
    (hf : ∀ t ∈ ts.toList, Measurable fun x => f x t) (hσ : ∀ t ∈ ts.toList, σ t ≠ 0)
    (hp : ts.toList.Pairwise (· ≠ ·)) : LearnsReversal n key π ts f σ := by
  have := C75_minimiser (f := f) (σ := σ) n key π (seqOf ts) ts.2.length (fun k hk => hf _ (seqOf_mem (by omega)))
    (fun k hk => hσ _ (seqOf_mem (by omega))) (fun k hk => seqOf_ne hp hk)
  rw [seqOf_grid] at this
  exact this

open Classical in
/-- **C76, what the script trains.**  Let the time range be longer than `1e-5`, the dispersion non-zero and the simulated
drift measurable at every time in `[0, T]`.  For almost every random grid `ts` the loss on that grid is minimised exactly
by the reversal of the simulated drift, both forwards (`loss_fn_init`, `loss_fn_bwd`) and on the grid `T - ts`
(`loss_fn_fwd`). -/
theorem C76_learns {κ : Type} [Fintype κ] [DecidableEq κ] [Nonempty κ] (n : ℕ) [NeZero n] (key key' : Key)
    (π : Measure (κ → ℝ)) [IsProbabilityMeasure π] {f : (κ → ℝ) → ℝ → (κ → ℝ)} {σ : ℝ → ℝ} {T : ℝ} (hT : 1e-5 < T)
    {nsteps : ℕ} (hn : nsteps ≠ 0) (hf : ∀ t ∈ Set.Icc 0 T, Measurable fun x => f x t)
    (hσ : ∀ t ∈ Set.Icc 0 T, σ t ≠ 0) :
    (rndTs key T nsteps).E (fun ts => if LearnsReversal n key' π ts f σ then 0 else 1) = 0 ∧
    (rndTs key T nsteps).E (fun ts => if LearnsReversal n key' π (ts.map fun t => T - t) f σ then 0 else 1) = 0 := by
  refine ⟨rndTs_ae hn hT fun ts _ _ _ h4 h5 => if_pos ?_, rndTs_ae hn hT fun ts _ _ _ h4 h5 => if_pos ?_⟩
  · exact learnsReversal n key' π (fun t ht => hf t (h5 t ht)) (fun t ht => hσ t (h5 t ht)) (h4.imp fun h => h.ne)
  · have e : (ts.map fun t => T - t).toList = ts.toList.map fun t => T - t := rfl
    have hmem : ∀ t ∈ (ts.map fun t => T - t).toList, t ∈ Set.Icc 0 T := by
      intro t ht
      rw [e] at ht
      obtain ⟨s, hs, rfl⟩ := List.mem_map.1 ht
      have := h5 s hs
      exact ⟨by linarith, by linarith⟩
    refine learnsReversal n key' π (fun t ht => hf t (hmem t ht)) (fun t ht => hσ t (hmem t ht)) ?_
    rw [e, List.pairwise_map]
    exact h4.imp fun h h' => h.ne (by linarith)

/-- **C76, the losses.**  For either implementation of the loss, the value of each loss function has the law of the
iterative proportional fitting loss on a random grid, with noise independent of the grid; `loss_fn_init` simulates the
reference drift, `loss_fn_bwd` the forward network and `loss_fn_fwd` the backward network from `T` down to `0`. -/
theorem C76_losses (v : Bool) (sde : Linear.SDE) (nn : (ι → ℝ) → ℝ → P → (ι → ℝ)) (T : ℝ) (m : ℕ) (p q : P) (key : Key)
    (x : ι → ℝ) (F : ℝ → ℝ≥0∞) :
    (lossInit v sde nn T m p key x).E F = (rndTs (split key 2 1) T m).E (fun ts =>
      (Dsb.ipfLossCont (split key 2 0) x ts (fun x t => nn x t p) (fun x t i => Linear.drift sde (x i) t)
        (Linear.dispersion sde)).E F) ∧
    (lossBwd v sde nn T m p q key x).E F = (rndTs (split key 2 1) T m).E (fun ts =>
      (Dsb.ipfLossCont (split key 2 0) x ts (fun x t => nn x t p) (fun x t => nn x t q) (Linear.dispersion sde)).E F) ∧
    (lossFwd v sde nn T m p q key x).E F = (rndTs (split key 2 1) T m).E (fun ts =>
      (Dsb.ipfLossCont (split key 2 0) x (ts.map fun t => T - t) (fun x t => nn x t p) (fun x t => nn x t q)
        (Linear.dispersion sde)).E F) := by
  have hv : ∀ (key : Key) (ts : Arr1 ℝ) (b f : (ι → ℝ) → ℝ → (ι → ℝ)) (σ : ℝ → ℝ),
      ipfLoss v key x ts b f σ = Dsb.ipfLossCont key x ts b f σ := by
    intro key ts b f σ
    cases v
    · rfl
    · exact (C37_agree key x ts b f σ).symm
  refine ⟨?_, ?_, ?_⟩
  all_goals
    simp only [lossInit, lossBwd, lossFwd, Rand.E_bind, hv]

/-- **C76, the dispersions of the script** (`beta_min = 0.02`, `beta_max = 5`, or constant) are positive on a neighbourhood
of `[0, T]` that contains the times used by `rev_sim`. -/
theorem C76_dispersion {T t : ℝ} (hT : 0 < T) (h0 : -(T / 1280) ≤ t) (_hs : t ≤ T) :
    0 < Linear.dispersion (.const (-0.5) 1) t ∧ 0 < Linear.dispersion (.lin 0.02 5 0 T) t := by
  refine ⟨by simp [Linear.dispersion], ?_⟩
  simp only [Linear.dispersion, Linear.beta]
  refine Real.sqrt_pos.2 ?_
  have e : (5 - 0.02) / (T - 0) * t + (0.02 * T - 5 * 0) / (T - 0) = (4.98 * t + 0.02 * T) / T := by
    rw [sub_zero]; field_simp; norm_num; ring
  rw [e]
  refine div_pos ?_ hT
  linarith

open Classical in
/-- The hypotheses of `C76_learns` hold for the first loss of the script: linear schedule, reference drift. -/
example (key key' : Key) : (rndTs key 0.5 4).E (fun ts => if LearnsReversal 2 key' (stdNormal (Fin 3)) ts
    (fun x t i => Linear.drift (.lin 0.02 5 0 0.5) (x i) t) (Linear.dispersion (.lin 0.02 5 0 0.5)) then 0 else 1) = 0 :=
  (C76_learns (T := 0.5) (nsteps := 4) (f := fun x t i => Linear.drift (.lin 0.02 5 0 0.5) (x i) t)
    (σ := Linear.dispersion (.lin 0.02 5 0 0.5)) 2 key key' (stdNormal (Fin 3)) (by norm_num) (by norm_num)
    (fun t _ => by
      refine measurable_pi_iff.2 fun i => ?_
      simp only [Linear.drift]
      exact (measurable_pi_apply i).const_mul _)
    (fun t ht => (C76_dispersion (by norm_num) (by have := ht.1; norm_num; linarith) ht.2).2.ne')).1

/-! ### Simulators of the script -/

omit [Fintype ι] in
theorem emStep_congr_times {f g : (ι → ℝ) → ℝ → (ι → ℝ)} {σ : ℝ → ℝ} {m : ℕ} {t t' : ℝ}
    (h : ∀ s ∈ Simulators.substepTimes m t t', ∀ x, f x s = g x s) (x : ι → ℝ) (w : List (ι → ℝ)) :
    Simulators.emStep f σ m x t t' w = Simulators.emStep g σ m x t t' w := by
  have : ∀ (l : List ((ι → ℝ) × ℝ)), (∀ e ∈ l, ∀ x, f x e.2 = g x e.2) → ∀ (ddt : ℝ) (x : ι → ℝ),
      (Jax.scan (Simulators.emInner f σ ddt) x l).1 = (Jax.scan (Simulators.emInner g σ ddt) x l).1 := by
    intro l
    induction l with
    | nil => exact fun _ _ _ => rfl
    | cons e l ih =>
      intro hl ddt x
      have h1 : Simulators.emInner f σ ddt x e = Simulators.emInner g σ ddt x e := by
        simp only [Simulators.emInner, hl e (List.mem_cons_self)]
      simp only [Jax.scan]
      rw [h1]
      exact ih (fun e he => hl e (List.mem_cons_of_mem _ he)) ddt _
  exact this _ (fun e he x => h e.2 (List.of_mem_zip he).2 x) _ x

theorem eulerLast_congr {f g : (ι → ℝ) → ℝ → (ι → ℝ)} {σ : ℝ → ℝ} {m : ℕ} (key : Key) (x : ι → ℝ) (ts : Arr1 ℝ)
    (h : ∀ p ∈ ts.init.zip ts.2, ∀ s ∈ Simulators.substepTimes m p.1 p.2, ∀ x, f x s = g x s) :
    Simulators.eulerLast key x ts f σ m = Simulators.eulerLast key x ts g σ m := by
  have : ∀ (l : List (Key × ℝ × ℝ)), (∀ e ∈ l, ∀ s ∈ Simulators.substepTimes m e.2.1 e.2.2, ∀ x, f x s = g x s) →
      ∀ x : ι → ℝ, Rand.scan (Simulators.emBody f σ m fun _ => ()) x l = Rand.scan (Simulators.emBody g σ m fun _ => ()) x l := by
    intro l
    induction l with
    | nil => exact fun _ _ => rfl
    | cons e l ih =>
      intro hl x
      have h1 : Simulators.emBody f σ m (fun _ => ()) x e = Simulators.emBody g σ m (fun _ => ()) x e := by
        simp only [Simulators.emBody]
        congr 1
        funext w
        rw [emStep_congr_times (hl e (List.mem_cons_self))]
      simp only [Rand.scan]
      rw [h1]
      congr 1
      funext r
      rw [ih fun e he => hl e (List.mem_cons_of_mem _ he)]
  rw [Simulators.eulerLast, Simulators.eulerLast, this (Simulators.emInputs key ts) fun e he => h e.2 (List.of_mem_zip he).2]

theorem scriptTs_eq (T : ℝ) (m : ℕ) : scriptTs T m = grid (fun k => k * (T / m)) m := by
  refine Prod.ext (by simp [scriptTs, grid]) ?_
  simp only [scriptTs, grid, linspace_tail]
  refine List.map_congr_left fun k _ => ?_
  push_cast
  ring

theorem mem_grid_zip {t : ℕ → ℝ} {K : ℕ} {p : ℝ × ℝ} (h : p ∈ (grid t K).init.zip (grid t K).2) :
    ∃ k < K, p = (t k, t (k + 1)) := by
  obtain ⟨k, hk, rfl⟩ := List.mem_iff_getElem.1 h
  have hk' : k < K := by
    have := List.length_zip (l₁ := (grid t K).init) (l₂ := (grid t K).2)
    rw [this] at hk
    simp [grid] at hk
    omega
  refine ⟨k, hk', ?_⟩
  rw [List.getElem_zip]
  refine Prod.ext ?_ (by simp [grid])
  simp only [Arr1.init, grid, List.getElem_dropLast]
  cases k with
  | zero => rfl
  | succ k => simp

theorem substep_mem {t t' s : ℝ} (hs : s ∈ Simulators.substepTimes 10 t t') :
    ∃ i : ℝ, 0 ≤ i ∧ i ≤ 9 ∧ s = t + i * ((t' - |t' - t| / 10 - t) / 9) := by
  obtain ⟨i, hi, rfl⟩ := List.mem_map.1 hs
  refine ⟨i, Nat.cast_nonneg i, by exact_mod_cast Nat.lt_succ_iff.1 (List.mem_range.1 hi), ?_⟩
  norm_num

theorem scriptTs_rev_eq (T : ℝ) (m : ℕ) : (scriptTs T m).map (fun t => T - t) = grid (fun k => T - k * (T / m)) m := by
  rw [scriptTs_eq]
  simp [grid, Arr1.map]

theorem grid_zip_mem {t : ℕ → ℝ} {K k : ℕ} (hk : k < K) : (t k, t (k + 1)) ∈ (grid t K).init.zip (grid t K).2 := by
  refine List.mem_iff_getElem.2 ⟨k, by simp [grid, Arr1.init, hk], ?_⟩
  rw [List.getElem_zip]
  refine Prod.ext ?_ (by simp [grid])
  simp only [Arr1.init, grid, List.getElem_dropLast]
  cases k with
  | zero => rfl
  | succ k => simp

/-- **C76, `fwd_sim`** depends on the network at times in `[0, T)` only. -/
theorem C76_fwd_sim (sde : Linear.SDE) {T : ℝ} (hT : 0 < T) (key : Key) (x : ι → ℝ) :
    DependsOn (Set.Ico 0 T) fun f => fwdSim sde (fun x t (_ : Unit) => f x t) T () key x := by
  intro f g h
  refine eulerLast_congr key x _ ?_
  rw [scriptTs_eq]
  intro p hp s hs
  obtain ⟨k, hk, rfl⟩ := mem_grid_zip hp
  obtain ⟨i, hi0, hi, rfl⟩ := substep_mem hs
  refine h _ ?_
  have hk' : (k : ℝ) ≤ 127 := by exact_mod_cast Nat.lt_succ_iff.1 hk
  have hk0 : (0 : ℝ) ≤ k := Nat.cast_nonneg k
  push_cast
  have e : ((k : ℝ) + 1) * (T / 128) - k * (T / 128) = T / 128 := by ring
  rw [e, abs_of_pos (by positivity)]
  have e2 : (k : ℝ) * (T / 128) + i * ((((k : ℝ) + 1) * (T / 128) - T / 128 / 10 - k * (T / 128)) / 9) =
      T * ((k + i / 10) / 128) := by ring
  rw [e2]
  exact ⟨by positivity, mul_lt_of_lt_one_right hT (by linarith)⟩

theorem revSim_times {T : ℝ} (hT : 0 < T) {p : ℝ × ℝ}
    (hp : p ∈ ((scriptTs T 128).map fun t => T - t).init.zip ((scriptTs T 128).map fun t => T - t).2) {s : ℝ}
    (hs : s ∈ Simulators.substepTimes 10 p.1 p.2) : s ∈ Set.Icc (-(T / 1280)) T := by
  rw [scriptTs_rev_eq] at hp
  obtain ⟨k, hk, rfl⟩ := mem_grid_zip hp
  obtain ⟨i, hi0, hi, rfl⟩ := substep_mem hs
  have hk' : (k : ℝ) ≤ 127 := by exact_mod_cast Nat.lt_succ_iff.1 hk
  have hk0 : (0 : ℝ) ≤ k := Nat.cast_nonneg k
  push_cast
  have e : T - ((k : ℝ) + 1) * (T / 128) - (T - k * (T / 128)) = -(T / 128) := by ring
  rw [e, abs_neg, abs_of_pos (by positivity)]
  have e2 : T - (k : ℝ) * (T / 128) + i * ((T - ((k : ℝ) + 1) * (T / 128) - T / 128 / 10 - (T - k * (T / 128))) / 9) =
      T - T * ((k + 11 * i / 90) / 128) := by ring
  rw [e2]
  have h1 : (k + 11 * i / 90) / 128 ≤ 1 + 1 / 1280 := by linarith
  have h2 : 0 ≤ (k + 11 * i / 90) / 128 := by positivity
  exact ⟨by nlinarith, by nlinarith⟩

/-- **C76, `rev_sim`** depends on the network at times in `[-T/1280, T]` only ... -/
theorem C76_rev_sim (sde : Linear.SDE) {T : ℝ} (hT : 0 < T) (key : Key) (x : ι → ℝ) :
    DependsOn (Set.Icc (-(T / 1280)) T) fun f => revSim sde (fun x t (_ : Unit) => f x t) T () key x := by
  intro f g h
  exact eulerLast_congr key x _ fun p hp s hs => h _ (revSim_times hT hp hs)

omit [Fintype ι] in
theorem emStep_det (c : ℝ → ℝ) (m : ℕ) (x : ι → ℝ) (t t' : ℝ) (w : List (ι → ℝ)) (hw : w.length = m) :
    Simulators.emStep (fun _ s _ => c s) (fun _ => 0) m x t t' w =
      fun i => x i + ((Simulators.substepTimes m t t').map c).sum * (|t' - t| / m) := by
  have : ∀ (l : List ((ι → ℝ) × ℝ)) (ddt : ℝ) (x : ι → ℝ),
      (Jax.scan (Simulators.emInner (fun _ s _ => c s) (fun _ => 0) ddt) x l).1 =
        fun i => x i + ((l.map Prod.snd).map c).sum * ddt := by
    intro l
    induction l with
    | nil => intro _ x; funext i; simp [Jax.scan]
    | cons e l ih =>
      intro ddt x
      simp only [Jax.scan]
      rw [ih]
      funext i
      simp only [Simulators.emInner, List.map_cons, List.sum_cons]
      ring
  simp only [Simulators.emStep]
  rw [this, List.map_snd_zip (by simp [Simulators.substepTimes, Simulators.linspace, hw])]

theorem emE_det (c : ℝ → ℝ) (m : ℕ) (F : (ι → ℝ) → ℝ≥0∞) : ∀ (l : List (ℝ × ℝ)) (x : ι → ℝ),
    emE (fun _ s _ => c s) (fun _ => 0) m l x F =
      F fun i => x i + (l.map fun p => ((Simulators.substepTimes m p.1 p.2).map c).sum * (|p.2 - p.1| / m)).sum := by
  intro l
  induction l with
  | nil => intro x; simp [emE]
  | cons p l ih =>
    intro x
    simp only [emE]
    have : ∀ w : Fin m → ι → ℝ, emE (fun _ s _ => c s) (fun _ => 0) m l
        (Simulators.emStep (fun _ s _ => c s) (fun _ => 0) m x p.1 p.2 (List.ofFn w)) F = F fun i => x i +
          ((Simulators.substepTimes m p.1 p.2).map c).sum * (|p.2 - p.1| / m) +
          (l.map fun p => ((Simulators.substepTimes m p.1 p.2).map c).sum * (|p.2 - p.1| / m)).sum := by
      intro w
      rw [emStep_det c m x p.1 p.2 _ (by simp), ih]
    rw [lintegral_congr this, lintegral_const, measure_univ, mul_one]
    congr 1
    funext i
    simp only [List.map_cons, List.sum_cons]
    ring

/-- ... and it does look at the network before time `0`: two networks that agree at all times `t ≥ 0` can give
different simulations. -/
theorem C76_rev_sim_not [Nonempty ι] {T : ℝ} (hT : 0 < T) (key : Key) (x : ι → ℝ) :
    ¬ DependsOn (Set.Ici 0) fun f => revSim (.const 0 0) (fun x t (_ : Unit) => f x t) T () key x := by
  intro h
  have h1 := h (fun _ _ _ => 0) (fun _ s _ => if s < 0 then 1 else 0) fun t ht x => by
    funext i
    rw [if_neg (not_lt.2 ht)]
  classical
  have h2 := congrArg (fun p => p.E fun y => if y = x then 1 else 0) h1
  have h0 : Linear.dispersion (.const 0 0) = fun _ => (0 : ℝ) := rfl
  simp only [revSim, E_eulerLast, h0] at h2
  rw [emE_det (fun _ => 0), emE_det (fun s => if s < 0 then 1 else 0)] at h2
  rw [if_pos (by funext i; simp)] at h2
  rw [if_neg] at h2
  · exact one_ne_zero h2
  intro h3
  obtain ⟨i⟩ := ‹Nonempty ι›
  have h4 := congrFun h3 i
  simp only [add_eq_left] at h4
  have hn : ∀ p : ℝ × ℝ, 0 ≤ ((Simulators.substepTimes 10 p.1 p.2).map fun s => if s < 0 then (1 : ℝ) else 0).sum *
      (|p.2 - p.1| / (10 : ℕ)) := by
    intro p
    refine mul_nonneg (List.sum_nonneg fun a ha => ?_) (by positivity)
    obtain ⟨s, -, rfl⟩ := List.mem_map.1 ha
    split <;> norm_num
  have h5 := List.single_le_sum (l := ((((scriptTs T 128).map fun t => T - t).init.zip
    ((scriptTs T 128).map fun t => T - t).2).map fun p => ((Simulators.substepTimes 10 p.1 p.2).map fun s =>
      if s < 0 then (1 : ℝ) else 0).sum * (|p.2 - p.1| / (10 : ℕ))))
    (fun a ha => by obtain ⟨p, -, rfl⟩ := List.mem_map.1 ha; exact hn p) _
    (List.mem_map.2 ⟨_, by rw [scriptTs_rev_eq]; exact grid_zip_mem (by norm_num : 127 < 128), rfl⟩)
  have e1 : T - ((127 : ℕ) : ℝ) * (T / ((128 : ℕ) : ℝ)) = T / 128 := by push_cast; ring
  have e2 : T - ((127 + 1 : ℕ) : ℝ) * (T / ((128 : ℕ) : ℝ)) = 0 := by push_cast; ring
  have h6 := (h5.trans_eq h4).antisymm (hn _)
  simp only [e1, e2] at h6
  have h7 : |0 - T / 128| / ((10 : ℕ) : ℝ) ≠ 0 := by
    rw [zero_sub, abs_neg, abs_of_pos (by positivity)]; positivity
  have h8 := (mul_eq_zero.1 h6).resolve_right h7
  have h9 := List.single_le_sum (l := (Simulators.substepTimes 10 (T / 128) 0).map fun s =>
      if s < 0 then (1 : ℝ) else 0) (fun a ha => by
    obtain ⟨s, -, rfl⟩ := List.mem_map.1 ha
    split <;> norm_num) _ (List.mem_map.2 ⟨-(T / 1280), List.mem_map.2 ⟨9, List.mem_range.2 (by norm_num), by
    rw [abs_sub_comm, sub_zero, abs_of_pos (by positivity)]; push_cast; ring⟩, rfl⟩)
  rw [if_pos (by linarith [show 0 < T / 1280 by positivity]), h8] at h9
  linarith

end Loss

/-! ### Iterative proportional fitting -/

theorem returns_pure' {β : Type} {a x : β} : (pure a : Rand β).Returns x ↔ x = a := returns_ret

theorem returns_runSteps {φ : P → Prop} {step : Step P (List α)} (hs : ∀ j p key x r, (step j p key x).Returns r → φ r)
    (key : Key) : ∀ (batches : List (List α)) (j : ℕ) (p r : P), (runSteps step key j p batches).Returns r →
      φ p ∨ batches ≠ [] → φ r
  | [], _, p, r, h, h' => by
    rw [show runSteps step key _ p ([] : List (List α)) = pure p from rfl, returns_pure'] at h
    exact h ▸ h'.resolve_right (by simp)
  | b :: bs, j, p, r, h, _ => by
    obtain ⟨p', h1, h2⟩ := returns_bind.1 h
    exact returns_runSteps hs key bs (j + 1) p' r h2 (.inl (hs _ _ _ _ _ h1))

theorem returns_epochs [Inhabited α] {φ : P → Prop} (xs : List α) {batchSize : ℕ} (h0 : 0 < batchSize)
    (hn : batchSize ≤ xs.length) {step : Step P (List α)} (hs : ∀ j p key x r, (step j p key x).Returns r → φ r) :
    ∀ (n : ℕ) (key : Key) (p : P) (r : Except String P × Key), (epochs xs batchSize step n key p).Returns r →
      φ p ∨ 0 < n → ∃ p', r.1 = .ok p' ∧ φ p'
  | 0, key, p, r, h, h' => by
    rw [epochs, returns_pure'] at h
    exact ⟨p, by rw [h], h'.resolve_right (lt_irrefl _)⟩
  | n + 1, key, p, r, h, _ => by
    obtain ⟨a, ⟨ks, h1⟩, h2⟩ := returns_bind.1 h
    obtain ⟨batches, p', ks', rfl, -, hl, -, -, hr⟩ := C76_epoch xs h0 hn step _ p h1
    have hp : φ p' := returns_runSteps hs _ batches 0 p p' ⟨ks', hr⟩ (.inr fun hb => by
      rw [hb] at hl
      exact (Nat.div_pos hn h0).ne hl)
    exact returns_epochs xs h0 hn hs n _ p' r h2 (.inl hp)

theorem returns_refSteps {ι : Type} [Fintype ι] {φ : P → Prop} {b : ℕ} {step : Step P (Fin b × ι → ℝ)}
    (hs : ∀ j p key x r, (step j p key x).Returns r → φ r) : ∀ (js : List ℕ) (key : Key) (p r : P),
      (refSteps b step js key p).Returns r → φ p ∨ js ≠ [] → φ r
  | [], _, p, r, h, h' => by
    rw [refSteps, returns_pure'] at h
    exact h ▸ h'.resolve_right (by simp)
  | j :: js, key, p, r, h, _ => by
    obtain ⟨x, -, h⟩ := returns_bind.1 h
    obtain ⟨p', h1, h2⟩ := returns_bind.1 h
    exact returns_refSteps hs js _ p' r h2 (.inl (hs _ _ _ _ _ h1))

theorem returns_refEpochs {ι : Type} [Fintype ι] {φ : P → Prop} {b nsteps : ℕ} (hk : 0 < nsteps)
    {step : Step P (Fin b × ι → ℝ)} (hs : ∀ j p key x r, (step j p key x).Returns r → φ r) : ∀ (n : ℕ) (key : Key) (p r : P),
      (refEpochs b nsteps step n key p).Returns r → φ p ∨ 0 < n → φ r
  | 0, _, p, r, h, h' => by
    rw [refEpochs, returns_pure'] at h
    exact h ▸ h'.resolve_right (lt_irrefl _)
  | n + 1, key, p, r, h, _ => by
    obtain ⟨p', h1, h2⟩ := returns_bind.1 h
    refine returns_refEpochs hk hs n _ p' r h2 (.inl (returns_refSteps hs _ _ _ _ h1 (.inr ?_)))
    simpa using hk.ne'

theorem returns_sbKernel {ι S : Type} [Fintype ι] [Inhabited α] {b : ℕ} (xs : List α) (hb : 0 < b) (hn : b ≤ xs.length)
    {nepochs : ℕ} (he : 0 < nepochs) {k : Kernels P S α ι b} {B0 : P} {B F : P → P}
    (h1 : ∀ p s q key x r, (k.init p s q key x).Returns r → r.1 = B0)
    (h2 : ∀ p s q key x r, (k.bwd p s q key x).Returns r → r.1 = B q)
    (h3 : ∀ p s q key x r, (k.fwd p s q key x).Returns r → r.1 = F q) (pf pb : P) (sf sb : S) (key : Key) (i : ℕ)
    {r : Except String (P × P × S × S)} (hr : (sbKernel xs nepochs k pf pb sf sb key i).Returns r) :
    ∃ s, r = .ok (F (if i = 0 then B0 else B pf), if i = 0 then B0 else B pf, s) := by
  obtain ⟨⟨r', key'⟩, ha, hr⟩ := returns_bind.1 hr
  obtain ⟨⟨pb', sb'⟩, e, hp⟩ := returns_epochs (φ := fun p => p.1 = if i = 0 then B0 else B pf) xs hb hn
    (fun j p key x r h => by
      split at h
      · rw [if_pos ‹_›]; exact h1 _ _ _ _ _ _ h
      · rw [if_neg ‹_›]; exact h2 _ _ _ _ _ _ h) nepochs _ _ _ ha (.inr he)
  simp only at e hp
  subst e
  obtain ⟨⟨pf', sf'⟩, hf, hr⟩ := returns_bind.1 hr
  have hp' := returns_refEpochs (φ := fun p => p.1 = F pb') (Nat.div_pos hn hb)
    (fun j p key x r h => h3 _ _ _ _ _ _ h) nepochs _ _ _ hf (.inr he)
  simp only at hp'
  refine ⟨(sf', sb'), (returns_pure'.1 hr).trans ?_⟩
  rw [hp', hp]

/-- **C76, iterative proportional fitting.**  Suppose that a gradient step of `loss_fn_init` always gives the network `B0`
and that gradient steps of `loss_fn_bwd` and `loss_fn_fwd` simulating the network `q` always give `B q` and `F q`.  Then `m + 1`
iterations give the networks of iteration `m` of iterative proportional fitting: the first backward network is `B0`, every
forward network is fitted to the backward network of the same iteration, and every later backward network to the forward
network of the iteration before. -/
theorem C76_ipf {ι S : Type} [Fintype ι] [Inhabited α] {b : ℕ} (xs : List α) (hb : 0 < b) (hn : b ≤ xs.length)
    {nepochs : ℕ} (he : 0 < nepochs) {k : Kernels P S α ι b} {B0 : P} {B F : P → P}
    (h1 : ∀ p s q key x r, (k.init p s q key x).Returns r → r.1 = B0)
    (h2 : ∀ p s q key x r, (k.bwd p s q key x).Returns r → r.1 = B q)
    (h3 : ∀ p s q key x r, (k.fwd p s q key x).Returns r → r.1 = F q) (bwd fwd : ℕ → P) (h0 : bwd 0 = B0)
    (hf : ∀ n, fwd n = F (bwd n)) (hB : ∀ n, bwd (n + 1) = B (fwd n)) (m : ℕ) (key : Key) (p : P × P × S × S)
    {r : Except String (P × P × S × S)} (hr : (sbLoop xs nepochs k (m + 1) 0 key p).Returns r) :
    ∃ s, r = .ok (fwd m, bwd m, s) := by
  have later : ∀ (m n : ℕ) (key : Key) (s : S × S) (r : Except String (P × P × S × S)),
      (sbLoop xs nepochs k m (n + 1) key (fwd n, bwd n, s)).Returns r → ∃ s, r = .ok (fwd (n + m), bwd (n + m), s) := by
    intro m
    induction m with
    | zero =>
      intro n key s r h
      exact ⟨s, returns_pure'.1 h⟩
    | succ m ih =>
      intro n key s r h
      obtain ⟨r', h, h'⟩ := returns_bind.1 h
      obtain ⟨s', rfl⟩ := returns_sbKernel xs hb hn he h1 h2 h3 _ _ _ _ _ _ h
      rw [if_neg (Nat.succ_ne_zero n), ← hB, ← hf] at h'
      obtain ⟨s'', e⟩ := ih (n + 1) _ s' r h'
      exact ⟨s'', by rw [e, show n + 1 + m = n + (m + 1) by omega]⟩
  obtain ⟨r', h, h'⟩ := returns_bind.1 hr
  obtain ⟨s', rfl⟩ := returns_sbKernel xs hb hn he h1 h2 h3 _ _ _ _ _ _ h
  rw [if_pos rfl, ← h0, ← hf] at h'
  obtain ⟨s'', e⟩ := later m 0 _ s' r h'
  exact ⟨s'', by rw [e, Nat.zero_add]⟩

/-- The hypotheses can be met: networks are numbers, `B q = q + 1`, `F q = 2 q`. -/
example (key : Key) (r : Except String (ℕ × ℕ × Unit × Unit))
    (hr : (sbLoop [(), (), ()] 2 (⟨fun _ _ _ _ _ => pure (7, ()), fun _ _ q _ _ => pure (q + 1, ()),
      fun _ _ q _ _ => pure (2 * q, ())⟩ : Kernels ℕ Unit Unit (Fin 1) 2) 2 0 key (0, 0, (), ())).Returns r) :
    ∃ s, r = .ok (30, 15, s) :=
  C76_ipf (B0 := 7) (B := fun q => q + 1) (F := fun q => 2 * q) [(), (), ()] (by norm_num) (by simp) (by norm_num)
    (fun _ _ _ _ _ r h => by rw [returns_pure'.1 h]) (fun _ _ _ _ _ r h => by rw [returns_pure'.1 h])
    (fun _ _ _ _ _ r h => by rw [returns_pure'.1 h])
    (fun n => Nat.rec 7 (fun _ q => 2 * q + 1) n) (fun n => 2 * Nat.rec 7 (fun _ q => 2 * q + 1) n) rfl (fun _ => rfl)
    (fun _ => rfl) 1 key _ hr

end Props
end Fbs
