import Verif.Model.Gibbs

/-! Bookkeeping of consumed keys. -/

namespace Fbs

/-- Every run of `p` consumes pairwise independent keys, each derived from (or equal to) a key in `R`. -/
def Rand.Consumes {α : Type} (R : Set Key) (p : Rand α) : Prop :=
  ∀ ks a, p.Runs ks a → ks.Pairwise Key.Indep ∧ ∀ k ∈ ks, ∃ r ∈ R, r <+: k

namespace Rand

variable {α β : Type}

theorem consumes_ret (R : Set Key) (a : α) : Consumes R (ret a) := by
  rintro ks x ⟨rfl, -⟩
  simp

theorem consumes_pure (R : Set Key) (a : α) : Consumes R (pure a : Rand α) := consumes_ret R a

theorem consumes_sample [MeasurableSpace β] (k : Key) (S : Set β) (μ : MeasureTheory.Measure β) :
    Consumes {k} (sample k S μ) := by
  intro ks a h
  obtain ⟨rfl, -⟩ := runs_sample.1 h
  simp

theorem Consumes.mono {R R' : Set Key} {p : Rand α} (h : Consumes R p)
    (hR : ∀ r ∈ R, ∃ r' ∈ R', r' <+: r) : Consumes R' p := by
  intro ks a hr
  refine ⟨(h ks a hr).1, fun k hk => ?_⟩
  obtain ⟨r, hr, hrk⟩ := (h ks a hr).2 k hk
  obtain ⟨r', hr', h'⟩ := hR r hr
  exact ⟨r', hr', h'.trans hrk⟩

theorem Consumes.under {k r : Key} {p : Rand α} (h : Consumes {r} p) (hk : k <+: r) : Consumes {k} p :=
  h.mono fun x hx => ⟨k, rfl, by rw [Set.mem_singleton_iff.1 hx]; exact hk⟩

theorem indep_of_prefix {k k' a b : Key} (h : Key.Indep k k') (ha : k <+: a) (hb : k' <+: b) : Key.Indep a b := by
  obtain ⟨x, rfl⟩ := ha
  obtain ⟨y, rfl⟩ := hb
  exact h.append x y

theorem Consumes.bind {R R' : Set Key} {p : Rand α} {g : α → Rand β} (hp : Consumes R p)
    (hg : ∀ a, Consumes R' (g a)) (h : ∀ r ∈ R, ∀ r' ∈ R', Key.Indep r r') :
    Consumes (R ∪ R') (p >>= g) := by
  intro ks b hb
  obtain ⟨ks₁, a, ks₂, rfl, h1, h2⟩ := runs_bind.1 hb
  obtain ⟨p1, q1⟩ := hp _ _ h1
  obtain ⟨p2, q2⟩ := hg a _ _ h2
  refine ⟨List.pairwise_append.2 ⟨p1, p2, fun x hx y hy => ?_⟩, fun k hk => ?_⟩
  · obtain ⟨r, hr, hrx⟩ := q1 x hx
    obtain ⟨r', hr', hry⟩ := q2 y hy
    exact indep_of_prefix (h r hr r' hr') hrx hry
  · rcases List.mem_append.1 hk with hk | hk
    · obtain ⟨r, hr, h⟩ := q1 k hk
      exact ⟨r, Or.inl hr, h⟩
    · obtain ⟨r, hr, h⟩ := q2 k hk
      exact ⟨r, Or.inr hr, h⟩

theorem Consumes.map {R : Set Key} {p : Rand α} (hp : Consumes R p) (f : α → β) : Consumes R (f <$> p) := by
  intro ks b hb
  obtain ⟨a, ha, -⟩ := runs_map.1 hb
  exact hp ks a ha

/-- Sequencing where only the first program draws. -/
theorem Consumes.bind_pure {R : Set Key} {p : Rand α} (hp : Consumes R p) (f : α → β) :
    Consumes R (p >>= fun a => pure (f a)) := hp.map f

/-- Two programs run on different pieces of one split. -/
theorem Consumes.bind_split {k : Key} {n i j : ℕ} (hij : i ≠ j) {p : Rand α} {g : α → Rand β}
    (hp : Consumes {split k n i} p) (hg : ∀ a, Consumes {split k n j} (g a)) :
    Consumes {k} (p >>= g) := by
  refine (hp.bind hg ?_).mono ?_
  · rintro r rfl r' rfl
    exact Key.indep_split k n hij
  · rintro r (rfl | rfl)
    · exact ⟨k, rfl, ⟨_, rfl⟩⟩
    · exact ⟨k, rfl, ⟨_, rfl⟩⟩

/-- The pieces `i` of the split of `k` into `n` with `i` in `s`. -/
def pieces (k : Key) (n : ℕ) (s : Set ℕ) : Set Key := split k n '' s

theorem Consumes.bind_pieces {k : Key} {n : ℕ} {s s' : Set ℕ} (hs : Disjoint s s') {p : Rand α}
    {g : α → Rand β} (hp : Consumes (pieces k n s) p) (hg : ∀ a, Consumes (pieces k n s') (g a)) :
    Consumes (pieces k n (s ∪ s')) (p >>= g) := by
  rw [pieces, Set.image_union]
  refine hp.bind hg ?_
  rintro r ⟨i, hi, rfl⟩ r' ⟨j, hj, rfl⟩
  exact Key.indep_split k n fun h => Set.disjoint_left.1 hs hi (h ▸ hj)

theorem Consumes.piece {k : Key} {n i : ℕ} {p : Rand α} (h : Consumes {split k n i} p) :
    Consumes (pieces k n {i}) p := by
  rwa [pieces, Set.image_singleton]

theorem Consumes.of_pieces {k : Key} {n : ℕ} {s : Set ℕ} {p : Rand α} (h : Consumes (pieces k n s) p) :
    Consumes {k} p := by
  refine h.mono ?_
  rintro r ⟨i, -, rfl⟩
  exact ⟨k, rfl, ⟨_, rfl⟩⟩

/-- A scan whose body consumes the key carried by its input. -/
theorem Consumes.scan {σ ι ο : Type} {body : σ → ι → Rand (σ × ο)} (key : ι → Key)
    (hb : ∀ s i, Consumes {key i} (body s i)) : ∀ (is : List ι) (s : σ),
    (is.map key).Pairwise Key.Indep → Consumes {k | k ∈ is.map key} (Rand.scan body s is)
  | [], s, _ => consumes_pure _ _
  | i :: is, s, h => by
    rw [List.map_cons, List.pairwise_cons] at h
    have h1 : ∀ r : σ × ο, Consumes {k | k ∈ is.map key}
        (Rand.scan body r.1 is >>= fun rs => pure (rs.1, r.2 :: rs.2)) := fun r =>
      (Consumes.scan key hb is r.1 h.2).bind_pure _
    refine ((hb s i).bind h1 ?_).mono ?_
    · rintro r rfl r' hr'
      exact h.1 r' hr'
    · rintro r (rfl | hr)
      · exact ⟨key i, by simp, List.prefix_refl _⟩
      · exact ⟨r, by simp only [List.map_cons, Set.mem_ofPred_eq, List.mem_cons]; exact Or.inr hr,
          List.prefix_refl _⟩

end Rand

theorem pairwise_splitAll (k : Key) (n : ℕ) : (splitAll k n).Pairwise Key.Indep := by
  unfold splitAll
  rw [List.pairwise_map]
  exact List.nodup_range.imp fun h => Key.indep_split k n h

theorem prefix_of_mem_splitAll {k r : Key} {n : ℕ} (h : r ∈ splitAll k n) : k <+: r := by
  obtain ⟨i, -, rfl⟩ := List.mem_map.1 h
  exact ⟨_, rfl⟩

theorem Rand.Consumes.scan_sublist {σ ι ο : Type} {body : σ → ι → Rand (σ × ο)} (key : ι → Key)
    (hb : ∀ s i, Rand.Consumes {key i} (body s i)) (is : List ι) (s : σ) {k : Key} {n : ℕ}
    (h : (is.map key).Sublist (splitAll k n)) : Rand.Consumes {k} (Rand.scan body s is) := by
  refine (Rand.Consumes.scan key hb is s ((pairwise_splitAll k n).sublist h)).mono fun r hr => ?_
  exact ⟨k, rfl, prefix_of_mem_splitAll (h.subset hr)⟩

end Fbs
