import Verif.Model.SbRuns
import Verif.Props.ImgRuns

/-!
# C99: what the super-resolution script of the Schrödinger bridge stores
-/

open MeasureTheory
open scoped ENNReal

namespace Fbs
namespace Props

open SbRuns Spec Rand Chains Jax

variable {D U X S P σ : Type}

/-! ### The reused array -/

theorem take_set_succ (arr : List X) (i : ℕ) (x : X) (h : i < arr.length) :
    (arr.set i x).take (i + 1) = arr.take i ++ [x] := by
  rw [List.take_add_one, List.take_set_of_le le_rfl, List.getElem?_set_self h]
  rfl

theorem gibbsInto_storeLoop (next : Key → σ → Rand σ) (out : σ → X) : ∀ (n i : ℕ) (key : Key) (s : σ) (arr : List X)
    (_ : arr.length = i + n),
    gibbsInto next out n i key s arr = (fun l => (arr.take i ++ l, after key n)) <$> storeLoop next out n key s
  | 0, i, key, s, arr, h => by
    rw [gibbsInto, storeLoop, map_pure, after_zero, List.append_nil, List.take_of_length_le (by omega)]
  | n + 1, i, key, s, arr, h => by
    rw [gibbsInto, storeLoop]
    simp only [map_bind, map_pure]
    refine congrArg _ (funext fun s' => ?_)
    rw [gibbsInto_storeLoop next out n (i + 1) _ _ _ (by rw [List.length_set]; omega), take_set_succ _ _ _ (by omega), after_split]
    simp only [List.append_assoc, List.singleton_append, ← bind_pure_comp]

theorem filterInto_replay (g : Gen) (x0s : Key → Rand U) (pf : Key → U → Rand X) : ∀ (n i : ℕ) (key : Key) (arr : List X)
    (_ : arr.length = i + n) {r : List X × Key}, (filterInto x0s pf n i key arr).replay g = some r →
    r.2 = after key (2 * n) ∧ r.1.length = arr.length ∧ (∀ j < i, r.1[j]? = arr[j]?) ∧
      ∀ j < n, ∃ u x, (x0s (split (after key (2 * j)) 2 1)).replay g = some u ∧
        (pf (split (after key (2 * j + 1)) 2 1) u).replay g = some x ∧ r.1[i + j]? = some x
  | 0, i, key, arr, h, r, hr => by
    obtain rfl : (arr, key) = r := by simpa [filterInto] using hr
    exact ⟨(after_zero key).symm, rfl, fun _ _ => rfl, fun j hj => absurd hj (Nat.not_lt_zero j)⟩
  | n + 1, i, key, arr, h, r, hr => by
    rw [filterInto, replay_bind] at hr
    obtain ⟨u, hu, hr⟩ := Option.bind_eq_some_iff.1 hr
    rw [replay_bind] at hr
    obtain ⟨x, hx, hr⟩ := Option.bind_eq_some_iff.1 hr
    obtain ⟨h1, h2, h3, h4⟩ := filterInto_replay g x0s pf n (i + 1) _ _ (by rw [List.length_set]; omega) hr
    rw [List.length_set] at h2
    simp only [after_split] at h1 h4
    refine ⟨h1, h2, fun j hj => ?_, fun j hj => ?_⟩
    · rw [h3 j (by omega), List.getElem?_set_ne (by omega)]
    · cases j with
      | zero =>
        refine ⟨u, x, by rw [Nat.mul_zero, after_zero]; exact hu, ?_, ?_⟩
        · rw [Nat.mul_zero, ← after_split, after_zero]; exact hx
        · rw [Nat.add_zero, h3 i (by omega), List.getElem?_set_self (by omega)]
      | succ j =>
        obtain ⟨u', x', e1, e2, e3⟩ := h4 j (by omega)
        refine ⟨u', x', e1, e2, ?_⟩
        rw [← e3, show i + 1 + j = i + (j + 1) by omega]

/-! ### The loop over the starts -/

theorem starts_filter (g : Gen) (pf : Key → U → Rand X) (ns : ℕ) : ∀ (L : List (String × (Key → Rand U))) (key : Key) (arr : List X)
    (_ : arr.length = ns) {files : List (String × File X)}, (starts (.filter pf) ns L key arr).replay g = some files →
    files.length = L.length ∧ ∀ j name x0s, L[j]? = some (name, x0s) → ∃ a, files[j]? = some ("filter-" ++ name, .arr a) ∧
      a.length = ns ∧ ∀ i < ns, ∃ u x, (x0s (split (after key (2 * (ns * j + i))) 2 1)).replay g = some u ∧
        (pf (split (after key (2 * (ns * j + i) + 1)) 2 1) u).replay g = some x ∧ a[i]? = some x
  | [], key, arr, h, files, hf => by
    obtain rfl : [] = files := by simpa [starts] using hf
    exact ⟨rfl, fun j name x0s hj => by simp at hj⟩
  | (name, x0s) :: L, key, arr, h, files, hf => by
    rw [starts, replay_bind] at hf
    obtain ⟨r, hr, hf⟩ := Option.bind_eq_some_iff.1 hf
    rw [replay_bind] at hf
    obtain ⟨rest, hrest, hf⟩ := Option.bind_eq_some_iff.1 hf
    obtain rfl : ("filter-" ++ name, File.arr r.1) :: rest = files := by simpa using hf
    obtain ⟨h1, h2, -, h4⟩ := filterInto_replay g x0s pf ns 0 key arr (by omega) hr
    obtain ⟨hl, ih⟩ := starts_filter g pf ns L r.2 r.1 (by omega) hrest
    refine ⟨by rw [List.length_cons, hl, List.length_cons], fun j name' x0s' hj => ?_⟩
    cases j with
    | zero =>
      obtain ⟨rfl, rfl⟩ : name = name' ∧ x0s = x0s' := by simpa using hj
      refine ⟨r.1, rfl, by omega, fun i hi => ?_⟩
      have := h4 i hi
      simpa using this
    | succ j =>
      rw [List.getElem?_cons_succ] at hj
      obtain ⟨a, e1, e2, e3⟩ := ih j name' x0s' hj
      refine ⟨a, by rw [List.getElem?_cons_succ]; exact e1, e2, fun i hi => ?_⟩
      have := e3 i hi
      rw [h1] at this
      simp only [after_after] at this
      rw [show 2 * (ns * (j + 1) + i) = 2 * ns + 2 * (ns * j + i) by ring]
      exact this

theorem starts_gibbs (g : Gen) (init : Key → U → Rand σ) (next : Key → σ → Rand σ) (out : σ → X) (ns : ℕ) :
    ∀ (L : List (String × (Key → Rand U))) (key : Key) (arr : List X)
    (_ : arr.length = ns) {files : List (String × File X)}, (starts (.gibbs σ init next out) ns L key arr).replay g = some files →
    files.length = 2 * L.length ∧ ∀ j name x0s, L[j]? = some (name, x0s) → ∃ u s a,
      (x0s (split (after key ((ns + 2) * j)) 2 1)).replay g = some u ∧
      (init (split (after key ((ns + 2) * j + 1)) 2 1) u).replay g = some s ∧
      (storeLoop next out ns (after key ((ns + 2) * j + 2)) s).replay g = some a ∧
      files[2 * j]? = some ("gibbs-init", .img (out s)) ∧ files[2 * j + 1]? = some ("gibbs-eb-ef-" ++ name, .arr a)
  | [], key, arr, h, files, hf => by
    obtain rfl : [] = files := by simpa [starts] using hf
    exact ⟨rfl, fun j name x0s hj => by simp at hj⟩
  | (name, x0s) :: L, key, arr, h, files, hf => by
    rw [starts, replay_bind] at hf
    obtain ⟨u, hu, hf⟩ := Option.bind_eq_some_iff.1 hf
    rw [replay_bind] at hf
    obtain ⟨s, hs, hf⟩ := Option.bind_eq_some_iff.1 hf
    rw [gibbsInto_storeLoop _ _ _ _ _ _ _ (by omega), replay_bind, replay_map] at hf
    obtain ⟨r, hr, hf⟩ := Option.bind_eq_some_iff.1 hf
    obtain ⟨a, ha, rfl⟩ := Option.map_eq_some_iff.1 hr
    rw [replay_bind] at hf
    obtain ⟨rest, hrest, hf⟩ := Option.bind_eq_some_iff.1 hf
    simp only [List.take_zero, List.nil_append] at hf hrest
    obtain rfl : ("gibbs-init", File.img (out s)) :: ("gibbs-eb-ef-" ++ name, File.arr a) :: rest = files := by simpa using hf
    have hal : a.length = ns := storeLoop_length g next out ns _ _ ha
    obtain ⟨hl, ih⟩ := starts_gibbs g init next out ns L _ a hal hrest
    refine ⟨by rw [List.length_cons, List.length_cons, hl, List.length_cons]; ring, fun j name' x0s' hj => ?_⟩
    cases j with
    | zero =>
      obtain ⟨rfl, rfl⟩ : name = name' ∧ x0s = x0s' := by simpa using hj
      refine ⟨u, s, a, by rw [Nat.mul_zero, after_zero]; exact hu, ?_, ?_, rfl, rfl⟩
      · rw [Nat.mul_zero, ← after_split, after_zero]; exact hs
      · rw [Nat.mul_zero, Nat.zero_add, ← after_split, ← after_split, after_zero]; exact ha
    | succ j =>
      rw [List.getElem?_cons_succ] at hj
      obtain ⟨u', s', a', e1, e2, e3, e4, e5⟩ := ih j name' x0s' hj
      simp only [after_split, after_after] at e1 e2 e3
      rw [show (ns + 2) * (j + 1) = ns + 1 + 1 + (ns + 2) * j by ring]
      exact ⟨u', s', a', e1, e2, e3, e4, e5⟩
where
  storeLoop_length (g : Gen) (next : Key → σ → Rand σ) (out : σ → X) : ∀ (n : ℕ) (key : Key) (s : σ) {a : List X},
      (storeLoop next out n key s).replay g = some a → a.length = n
    | 0, _, _, a, h => by
      obtain rfl : [] = a := by simpa [storeLoop] using h
      rfl
    | n + 1, key, s, a, h => by
      rw [storeLoop, replay_bind] at h
      obtain ⟨s', -, h⟩ := Option.bind_eq_some_iff.1 h
      rw [replay_bind] at h
      obtain ⟨r, hr, h⟩ := Option.bind_eq_some_iff.1 h
      obtain rfl : out s' :: r = a := by simpa using h
      rw [List.length_cons, storeLoop_length g next out n _ _ hr]

/-! ### C99 -/

theorem dataLoop_dataKey (seed : Key) (n : ℕ) :
    dataLoop n (split (split seed 2 1) 2 0) (split (split seed 2 1) 2 1) = dataKey seed n := by
  have h : ∀ (n : ℕ) (dk : Key), dataLoop n (split dk 2 0) (split dk 2 1) = split (after dk n) 2 1 := by
    intro n
    induction n with
    | zero => intro dk; rw [after_zero]; rfl
    | succ n ih => intro dk; rw [dataLoop, ih, after_split]
  rw [h, dataKey_eq]

theorem script_replay (g : Gen) (mkData : Key → Rand S) (nnInit : Key → Rand P) (sampler : S → Key → Rand D)
    (x0s : D → List (String × (Key → Rand U))) (m : D → SbRuns.Method U X) (blank : X) (ns id : ℕ) (seed : Key) {d : D}
    {files : List (String × File X)} (h : (SbRuns.script mkData nnInit sampler x0s m blank ns id seed).replay g = some (d, files)) :
    (∃ ds, (mkData (seed ++ [(2, 0), (2, 1)])).replay g = some ds ∧ (sampler ds (dataKey seed id)).replay g = some d) ∧
      (starts (m d) ns (x0s d) (samplerKey seed 0) (List.replicate ns blank)).replay g = some files := by
  rw [SbRuns.script, replay_bind] at h
  obtain ⟨ds, hds, h⟩ := Option.bind_eq_some_iff.1 h
  rw [replay_bind] at h
  obtain ⟨_, -, h⟩ := Option.bind_eq_some_iff.1 h
  rw [replay_bind] at h
  obtain ⟨d', hd, h⟩ := Option.bind_eq_some_iff.1 h
  rw [replay_bind] at h
  obtain ⟨files', hf, h⟩ := Option.bind_eq_some_iff.1 h
  obtain ⟨rfl, rfl⟩ : d' = d ∧ files' = files := by simpa using h
  rw [dataLoop_dataKey] at hd
  refine ⟨⟨ds, by simpa [split] using hds, hd⟩, ?_⟩
  rw [← samplerKey_eq, after_zero]
  exact hf

/-- **C99, the test image.**  A run with `y0_id = id` restores the image that the image scripts of C98, started with the same seed
and data, call number `id`, whatever they do with it. -/
theorem C99_image {P' X' : Type} (g : Gen) (mkData : Key → Rand S) (nnInit : Key → Rand P) (nnInit' : Key → Rand P')
    (sampler : S → Key → Rand D) (x0s : D → List (String × (Key → Rand U))) (m : D → SbRuns.Method U X)
    (m' : S → ImgRuns.Method D X') (blank : X) (ns id ns' ny0s st : ℕ) (seed : Key) {d d' : D} {xs : List X'}
    {files : List (String × File X)} {out : List (ℕ × D × List X')}
    (h : (SbRuns.script mkData nnInit sampler x0s m blank ns id seed).replay g = some (d, files))
    (h' : (ImgRuns.script mkData nnInit' sampler m' ns' ny0s st seed).replay g = some out) (hm : (id, d', xs) ∈ out) : d = d' := by
  obtain ⟨⟨ds, h1, h2⟩, -⟩ := script_replay g mkData nnInit sampler x0s m blank ns id seed h
  obtain ⟨hl, ds', hds, he⟩ := C98_entries g mkData nnInit' sampler m' ns' ny0s st seed h'
  obtain rfl : ds = ds' := Option.some.inj (h1.symm.trans hds)
  obtain ⟨j, hj⟩ := List.mem_iff_getElem?.1 hm
  have hjl : j < out.length := (List.getElem?_eq_some_iff.1 hj).1
  obtain ⟨d1, xs1, e1, -, e3⟩ := he (st + j) (by omega) (by omega)
  rw [Nat.add_sub_cancel_left, hj] at e3
  obtain ⟨hid, rfl, -⟩ : id = st + j ∧ d' = d1 ∧ xs = xs1 := by simpa using e3
  rw [hid] at h2
  exact Option.some.inj (h2.symm.trans e1)

theorem stored_of_nodup {files : List (String × File X)} (h : (files.map Prod.fst).Nodup) {name : String} {f : File X}
    (hf : (name, f) ∈ files) : stored files name = some f := by
  unfold stored
  have h1 : (files.reverse.find? fun f => decide (f.1 = name)) = some (name, f) := by
    cases hfind : files.reverse.find? fun f => decide (f.1 = name) with
    | none =>
      rw [List.find?_eq_none] at hfind
      exact absurd (by simp) (hfind (name, f) (List.mem_reverse.2 hf))
    | some q =>
      have hq := List.find?_some hfind
      have hq' := List.mem_reverse.1 (List.mem_of_find?_eq_some hfind)
      have := List.inj_on_of_nodup_map h hq' hf (by simpa using hq)
      rw [this]
  rw [h1]
  rfl

theorem append_inj_left (p : String) {a b : String} (h : p ++ a = p ++ b) : a = b := by
  have := congrArg String.toList h
  simp only [String.toList_append, List.append_cancel_left_eq] at this
  exact String.toList_inj.1 this

/-- **C99, the filter.**  If the starts have different names, then after a run the file of start `j` holds exactly `ns` restorations:
number `i` is what the filter makes of a guess drawn from start `j`, both with keys of their own.  Nothing of the zeros the array
was made of, or of the restorations for the starts before, is left in it. -/
theorem C99_filter (g : Gen) (mkData : Key → Rand S) (nnInit : Key → Rand P) (sampler : S → Key → Rand D)
    (x0s : D → List (String × (Key → Rand U))) (m : D → SbRuns.Method U X) (blank : X) (ns id : ℕ) (seed : Key) {d : D}
    {files : List (String × File X)} (h : (SbRuns.script mkData nnInit sampler x0s m blank ns id seed).replay g = some (d, files))
    {pf : Key → U → Rand X} (hm : m d = .filter pf) (hn : ((x0s d).map Prod.fst).Nodup) {j : ℕ} {name : String}
    {x0 : Key → Rand U} (hj : (x0s d)[j]? = some (name, x0)) :
    ∃ a, stored files ("filter-" ++ name) = some (.arr a) ∧ a.length = ns ∧ ∀ i < ns, ∃ u x,
      (x0 (split (samplerKey seed (2 * (ns * j + i))) 2 1)).replay g = some u ∧
      (pf (split (samplerKey seed (2 * (ns * j + i) + 1)) 2 1) u).replay g = some x ∧ a[i]? = some x := by
  obtain ⟨-, hf⟩ := script_replay g mkData nnInit sampler x0s m blank ns id seed h
  rw [hm] at hf
  obtain ⟨hl, he⟩ := starts_filter g pf ns _ _ _ List.length_replicate hf
  have names : files.map Prod.fst = ((x0s d).map Prod.fst).map ("filter-" ++ ·) := by
    apply List.ext_getElem?
    intro i
    rw [List.map_map, List.getElem?_map, List.getElem?_map]
    rcases hi : (x0s d)[i]? with _ | ⟨nm, x⟩
    · have : files[i]? = none := by
        rw [List.getElem?_eq_none_iff] at hi ⊢
        omega
      rw [this]
      rfl
    · obtain ⟨a, ha, -⟩ := he i nm x hi
      rw [ha]
      rfl
  have nd : (files.map Prod.fst).Nodup := by
    rw [names]
    exact hn.map fun a b hab => append_inj_left _ hab
  obtain ⟨a, e1, e2, e3⟩ := he j name x0 hj
  refine ⟨a, stored_of_nodup nd (List.mem_of_getElem? e1), e2, fun i hi => ?_⟩
  have := e3 i hi
  rw [← samplerKey_eq seed 0, after_after, after_after, Nat.zero_add, Nat.zero_add, samplerKey_eq, samplerKey_eq] at this
  exact this

theorem init_ne_chain (name : String) : "gibbs-init" ≠ "gibbs-eb-ef-" ++ name := by
  intro h
  have := congrArg String.toList h
  rw [String.toList_append] at this
  simp at this

/-- `stored` is what the last of the writes to that name wrote. -/
theorem stored_last {files : List (String × File X)} {i : ℕ} {name : String} {f : File X} (hi : files[i]? = some (name, f))
    (h : ∀ j > i, ∀ q, files[j]? = some q → q.1 ≠ name) : stored files name = some f := by
  induction files generalizing i with
  | nil => simp at hi
  | cons q files ih =>
    unfold stored
    rw [List.reverse_cons, List.find?_append]
    cases i with
    | zero =>
      obtain rfl : q = (name, f) := by simpa using hi
      have : (files.reverse.find? fun f => decide (f.1 = name)) = none := by
        rw [List.find?_eq_none]
        intro p hp
        obtain ⟨j, hj⟩ := List.mem_iff_getElem?.1 (List.mem_reverse.1 hp)
        simpa using h (j + 1) (by omega) p (by simpa using hj)
      rw [this]
      simp
    | succ i =>
      have e := ih (i := i) (by simpa using hi) (fun j hj p hp => h (j + 1) (by omega) p (by simpa using hp))
      unfold stored at e
      obtain ⟨p, hp, rfl⟩ := Option.map_eq_some_iff.1 e
      rw [hp]
      rfl

/-- **C99, the chain.**  If the starts have different names, then after a run the file of start `j` holds the `ns` states of a chain
begun with a guess drawn from start `j`. -/
theorem C99_gibbs (g : Gen) (mkData : Key → Rand S) (nnInit : Key → Rand P) (sampler : S → Key → Rand D)
    (x0s : D → List (String × (Key → Rand U))) (m : D → SbRuns.Method U X) (blank : X) (ns id : ℕ) (seed : Key) {d : D}
    {files : List (String × File X)} (h : (SbRuns.script mkData nnInit sampler x0s m blank ns id seed).replay g = some (d, files))
    {init : Key → U → Rand σ} {next : Key → σ → Rand σ} {out : σ → X} (hm : m d = .gibbs σ init next out)
    (hn : ((x0s d).map Prod.fst).Nodup) {j : ℕ} {name : String} {x0 : Key → Rand U} (hj : (x0s d)[j]? = some (name, x0)) :
    ∃ u s a, (x0 (split (samplerKey seed ((ns + 2) * j)) 2 1)).replay g = some u ∧
      (init (split (samplerKey seed ((ns + 2) * j + 1)) 2 1) u).replay g = some s ∧
      (storeLoop next out ns (samplerKey seed ((ns + 2) * j + 2)) s).replay g = some a ∧
      stored files ("gibbs-eb-ef-" ++ name) = some (.arr a) ∧
      (j + 1 = (x0s d).length → stored files "gibbs-init" = some (.img (out s))) := by
  obtain ⟨-, hf⟩ := script_replay g mkData nnInit sampler x0s m blank ns id seed h
  rw [hm] at hf
  obtain ⟨hl, he⟩ := starts_gibbs g init next out ns _ _ _ List.length_replicate hf
  have key : ∀ c, after (samplerKey seed 0) c = samplerKey seed c := fun c => by
    rw [← samplerKey_eq, after_after, Nat.zero_add, samplerKey_eq]
  simp only [key] at he
  have at_ : ∀ q p, files[q]? = some p → ∃ b nm y, b < (x0s d).length ∧ (x0s d)[b]? = some (nm, y) ∧
      ((q = 2 * b ∧ p.1 = "gibbs-init") ∨ (q = 2 * b + 1 ∧ p.1 = "gibbs-eb-ef-" ++ nm)) := by
    intro q p hq
    have hql : q < files.length := (List.getElem?_eq_some_iff.1 hq).1
    have hb : q / 2 < (x0s d).length := by omega
    obtain ⟨u, s, a, -, -, -, e4, e5⟩ := he (q / 2) ((x0s d)[q / 2]).1 ((x0s d)[q / 2]).2 (List.getElem?_eq_getElem hb)
    refine ⟨q / 2, _, _, hb, List.getElem?_eq_getElem hb, ?_⟩
    rcases Nat.mod_two_eq_zero_or_one q with hq2 | hq2
    · rw [show 2 * (q / 2) = q by omega, hq] at e4
      exact Or.inl ⟨by omega, by rw [Option.some.inj e4]⟩
    · rw [show 2 * (q / 2) + 1 = q by omega, hq] at e5
      exact Or.inr ⟨by omega, by rw [Option.some.inj e5]; rfl⟩
  obtain ⟨u, s, a, e1, e2, e3, e4, e5⟩ := he j name x0 hj
  refine ⟨u, s, a, e1, e2, e3, stored_last e5 fun q hq p hp hpn => ?_, fun hlast => stored_last e4 fun q hq p hp hpn => ?_⟩
  · obtain ⟨b, nm, y, hb, hby, ⟨-, h2⟩ | ⟨h1, h2⟩⟩ := at_ q p hp
    · exact init_ne_chain name (h2.symm.trans hpn)
    · have hnm : nm = name := append_inj_left _ (h2.symm.trans hpn)
      have h3 : ((x0s d).map Prod.fst)[b]? = some name := by rw [List.getElem?_map, hby, ← hnm]; rfl
      have h4 : ((x0s d).map Prod.fst)[j]? = some name := by rw [List.getElem?_map, hj]; rfl
      have := (List.getElem?_inj (by rw [List.length_map]; exact hb) hn).1 (h3.trans h4.symm)
      omega
  · obtain ⟨b, nm, y, hb, -, ⟨h1, -⟩ | ⟨-, h2⟩⟩ := at_ q p hp
    · omega
    · exact init_ne_chain nm (hpn.symm.trans h2)

/-- **C99 fails: the stored start of a chain is not the start of every stored chain.**  All starts write `gibbs-init`, so only the one of
the last start is kept.  Here the chain of the start `blank` is stored as `[0]` and began at `0`, the stored start is `1`. -/
theorem C99_init_lost (g : Gen) (seed : Key) {a : ℝ} (ha : (uniform (split (samplerKey seed 0) 2 1)).replay g = some a) :
    ∃ (x0s : List (String × (Key → Rand ℝ))) (m : SbRuns.Method ℝ ℝ) (files : List (String × File ℝ)),
      x0s.map Prod.fst = ["random", "blank", "interp"] ∧
      (SbRuns.script (fun _ => pure ()) (fun _ => pure ()) (fun _ _ => pure ()) (fun _ => x0s) (fun _ => m) 0 1 0 seed).replay g
        = some ((), files) ∧
      files[2]? = some ("gibbs-init", .img 0) ∧ stored files "gibbs-eb-ef-blank" = some (.arr [0]) ∧
      stored files "gibbs-init" = some (.img 1) := by
  rw [← samplerKey_eq, after_zero] at ha
  refine ⟨[("random", uniform), ("blank", fun _ => pure 0), ("interp", fun _ => pure 1)], .gibbs ℝ (fun _ u => pure u)
    (fun _ s => pure s) id, [("gibbs-init", .img a), ("gibbs-eb-ef-random", .arr [a]), ("gibbs-init", .img 0),
    ("gibbs-eb-ef-blank", .arr [0]), ("gibbs-init", .img 1), ("gibbs-eb-ef-interp", .arr [1])], rfl, ?_, rfl, ?_, ?_⟩
  · simp [SbRuns.script, starts, gibbsInto, ha]
  · simp [stored]
  · simp [stored]

/-- **C99, runs for different images repeat the random numbers.**  What a run stores depends on the seed and the image but not on
`y0_id` itself: with the same seed, two runs whose test images agree store the same numbers. -/
theorem C99_ids_repeat (g : Gen) (mkData mkData' : Key → Rand S) (nnInit nnInit' : Key → Rand P) (sampler sampler' : S → Key → Rand D)
    (x0s : D → List (String × (Key → Rand U))) (m : D → SbRuns.Method U X) (blank : X) (ns id id' : ℕ) (seed : Key) {d : D}
    {files files' : List (String × File X)}
    (h : (SbRuns.script mkData nnInit sampler x0s m blank ns id seed).replay g = some (d, files))
    (h' : (SbRuns.script mkData' nnInit' sampler' x0s m blank ns id' seed).replay g = some (d, files')) : files = files' := by
  obtain ⟨-, h1⟩ := script_replay g mkData nnInit sampler x0s m blank ns id seed h
  obtain ⟨-, h2⟩ := script_replay g mkData' nnInit' sampler' x0s m blank ns id' seed h'
  exact Option.some.inj (h1.symm.trans h2)

/-- **C99, the law of a run.**  By itself the run for an image has the law of the run for the first one, if the law of the test image
does not depend on the key it is drawn with. -/
theorem C99_ids_law (mkData : Key → Rand S) (nnInit : Key → Rand P) {sampler : S → Key → Rand D}
    (hs : ∀ ds k k' φ, (sampler ds k).E φ = (sampler ds k').E φ) (x0s : D → List (String × (Key → Rand U)))
    (m : D → SbRuns.Method U X) (blank : X) (ns id : ℕ) (seed : Key) (F : D × List (String × File X) → ℝ≥0∞) :
    (SbRuns.script mkData nnInit sampler x0s m blank ns id seed).E F
      = (SbRuns.script mkData nnInit sampler x0s m blank ns 0 seed).E F := by
  simp only [SbRuns.script, E_bind]
  exact E_congr _ fun ds => E_congr _ fun _ => hs ds _ _ _

/-! ### Keys -/

/-- The calls use only keys derived from the key they get. -/
def KeyedStart : SbRuns.Method U X → Prop
  | .filter pf => ∀ k u, Consumes {k} (pf k u)
  | .gibbs _ init next _ => (∀ k u, Consumes {k} (init k u)) ∧ ∀ k s, Consumes {k} (next k s)

theorem filterInto_key (x0s : Key → Rand U) (pf : Key → U → Rand X) : ∀ (n i : ℕ) (key : Key) (arr : List X),
    filterInto x0s pf n i key arr = (fun r => (r.1, after key (2 * n))) <$> filterInto x0s pf n i key arr
  | 0, i, key, arr => by rw [Nat.mul_zero, after_zero]; rfl
  | n + 1, i, key, arr => by
    rw [filterInto]
    simp only [map_bind]
    refine congrArg _ (funext fun u => congrArg _ (funext fun x => ?_))
    rw [filterInto_key x0s pf n, after_split, after_split, Functor.map_map]
    rfl

theorem gibbsInto_key (next : Key → σ → Rand σ) (out : σ → X) : ∀ (n i : ℕ) (key : Key) (s : σ) (arr : List X),
    gibbsInto next out n i key s arr = (fun r => (r.1, after key n)) <$> gibbsInto next out n i key s arr
  | 0, i, key, s, arr => by rw [after_zero]; rfl
  | n + 1, i, key, s, arr => by
    rw [gibbsInto]
    simp only [map_bind]
    refine congrArg _ (funext fun s' => ?_)
    rw [gibbsInto_key next out n, after_split, Functor.map_map]

theorem consumes_filterInto {x0s : Key → Rand U} (hx : ∀ k, Consumes {k} (x0s k)) {pf : Key → U → Rand X}
    (hp : ∀ k u, Consumes {k} (pf k u)) : ∀ (n i : ℕ) (key : Key) (arr : List X),
    Consumes (handed key {j | j < 2 * n}) (filterInto x0s pf n i key arr)
  | 0, _, _, _ => consumes_pure _ _
  | n + 1, i, _, _ => step_handed (n := 2 * n + 1) (hx _) fun u => step_handed (hp _ u) fun _ =>
      consumes_filterInto hx hp n (i + 1) _ _

theorem consumes_gibbsInto {next : Key → σ → Rand σ} (hn : ∀ k s, Consumes {k} (next k s)) (out : σ → X) :
    ∀ (n i : ℕ) (key : Key) (s : σ) (arr : List X), Consumes (handed key {j | j < n}) (gibbsInto next out n i key s arr)
  | 0, _, _, _, _ => consumes_pure _ _
  | n + 1, i, _, s, _ => step_handed (hn _ s) fun _ => consumes_gibbsInto hn out n (i + 1) _ _ _

/-- A loop that hands out `c` keys, then something that starts with the key left. -/
theorem loop_handed {α β : Type} {key : Key} {c : ℕ} {p : Rand α} {q : α → Rand β} (hp : Consumes (handed key {j | j < c}) p)
    (hq : ∀ a, Consumes (handed (after key c) Set.univ) (q a)) : Consumes (handed key Set.univ) (p >>= q) := by
  simp only [handed_after] at hq
  refine (bind_handed (Set.disjoint_left.2 ?_) hp hq).mono (handed_mono key (Set.subset_univ _))
  rintro i hi ⟨j, -, rfl⟩
  have : c + j < c := hi
  omega

theorem consumes_starts {m : SbRuns.Method U X} (hm : KeyedStart m) (ns : ℕ) : ∀ (L : List (String × (Key → Rand U)))
    (_ : ∀ q ∈ L, ∀ k, Consumes {k} (q.2 k)) (key : Key) (arr : List X), Consumes (handed key Set.univ) (starts m ns L key arr)
  | [], _, _, _ => consumes_pure _ _
  | (name, x0s) :: L, hL, key, arr => by
    have ih := consumes_starts hm ns L fun q hq => hL q (List.mem_cons_of_mem _ hq)
    have hx : ∀ k, Consumes {k} (x0s k) := hL (name, x0s) List.mem_cons_self
    cases m with
    | filter pf =>
      rw [starts, filterInto_key, bind_map_left]
      exact loop_handed (consumes_filterInto hx hm ns 0 key arr) fun r => (ih _ _).bind_pure _
    | gibbs σ init next out =>
      rw [starts]
      have one : ∀ {α : Type} {k : Key} {p : Rand α}, Consumes {split k 2 1} p → Consumes (handed k {j | j < 1}) p := fun h => by
        rw [show {j | j < 1} = ({0} : Set ℕ) by ext j; simp, handed_zero]
        exact h
      refine loop_handed (c := 1) (one (hx _)) fun u => ?_
      have e1 : split key 2 0 = after key 1 := by rw [← after_zero (split key 2 0), after_split]
      have e2 : split (split key 2 0) 2 0 = after (split key 2 0) 1 := by rw [← after_zero (split (split key 2 0) 2 0), after_split]
      rw [← e1]
      refine loop_handed (c := 1) (one (hm.1 _ u)) fun s => ?_
      rw [← e2, gibbsInto_key, bind_map_left]
      exact loop_handed (consumes_gibbsInto hm.2 out ns 0 _ s arr) fun r => (ih _ _).bind_pure _

/-- **C99, keys of one run.**  Within one run no key is used twice, whatever the number of starts and samples and whichever image. -/
theorem C99_keys {mkData : Key → Rand S} (hd : ∀ k, Consumes {k} (mkData k)) {nnInit : Key → Rand P}
    (hn : ∀ k, Consumes {k} (nnInit k)) {sampler : S → Key → Rand D} (hs : ∀ ds k, Consumes {k} (sampler ds k))
    {x0s : D → List (String × (Key → Rand U))} (hx : ∀ d, ∀ q ∈ x0s d, ∀ k, Consumes {k} (q.2 k)) {m : D → SbRuns.Method U X}
    (hm : ∀ d, KeyedStart (m d)) (blank : X) (ns id : ℕ) (seed : Key) :
    FreshFrom seed (SbRuns.script mkData nnInit sampler x0s m blank ns id seed) := by
  have e2 : split (split seed 2 0) 2 0 = after (split seed 2 0) 1 := by rw [← after_zero (split (split seed 2 0) 2 0), after_split]
  have e3 : split (split (split seed 2 0) 2 0) 2 0 = after (split seed 2 0) 2 := by
    rw [← after_zero (split (split (split seed 2 0) 2 0) 2 0), after_split, after_split]
  have ind : Key.Indep (split seed 2 0) (split seed 2 1) := Key.indep_split seed 2 (by decide)
  have preD : split seed 2 1 <+: dataKey seed id := ⟨List.replicate id (2, 0) ++ [(2, 1)], by simp [dataKey, split]⟩
  have ind2 : ∀ i, Key.Indep (split (after (split seed 2 0) i) 2 1) (dataKey seed id) := fun i =>
    indep_of_prefix ind ⟨List.replicate i (2, 0) ++ [(2, 1)], by simp [after, split]⟩ preD
  have hd' : Consumes (handed (split seed 2 0) {0}) (mkData (split (split seed 2 0) 2 1)) := by rw [handed_zero]; exact hd _
  have hn' : Consumes (handed (split seed 2 0) {1}) (nnInit (split (split (split seed 2 0) 2 0) 2 1)) := by
    rw [e2, handed, Set.image_singleton]; exact hn _
  have rest : ∀ ds, Consumes ({dataKey seed id} ∪ handed (split seed 2 0) ((2 + ·) '' Set.univ)) (do
      let d ← sampler ds (dataLoop id (split (split seed 2 1) 2 0) (split (split seed 2 1) 2 1))
      let files ← starts (m d) ns (x0s d) (split (split (split seed 2 0) 2 0) 2 0) (List.replicate ns blank)
      return (d, files) : Rand (D × List (String × File X))) := fun ds => by
    rw [dataLoop_dataKey, e3, ← handed_after]
    refine (hs ds _).bind (fun d => (consumes_starts (hm d) ns _ (hx d) _ _).bind_pure _) ?_
    rw [handed_after]
    rintro r rfl r' ⟨i, -, rfl⟩
    exact (ind2 i).symm
  refine Consumes.freshFrom (key := seed) ?_
  rw [SbRuns.script]
  refine (hd'.bind (fun ds => hn'.bind (fun _ => rest ds) ?_) ?_).mono ?_
  · rintro r ⟨_, rfl, rfl⟩ r' (rfl | ⟨_, ⟨j, -, rfl⟩, rfl⟩)
    · exact ind2 _
    · exact indep_handed _ (by show 1 ≠ 2 + j; omega)
  · rintro r ⟨_, rfl, rfl⟩ r' (⟨_, rfl, rfl⟩ | rfl | ⟨_, ⟨j, -, rfl⟩, rfl⟩)
    · exact indep_handed _ (by decide)
    · exact ind2 _
    · exact indep_handed _ (by show 0 ≠ 2 + j; omega)
  · have pre : ∀ i, seed <+: split (after (split seed 2 0) i) 2 1 := fun i =>
      ⟨(2, 0) :: (List.replicate i (2, 0) ++ [(2, 1)]), by simp [after, split]⟩
    rintro r (⟨_, -, rfl⟩ | ⟨_, -, rfl⟩ | rfl | ⟨_, -, rfl⟩)
    · exact ⟨seed, rfl, pre _⟩
    · exact ⟨seed, rfl, pre _⟩
    · exact ⟨seed, rfl, ⟨(2, 1) :: (List.replicate id (2, 0) ++ [(2, 1)]), by simp [dataKey]⟩⟩
    · exact ⟨seed, rfl, pre _⟩

/-! ### The hypotheses can be met -/

/-- Three starts for a uniformly drawn observation. -/
noncomputable def threeStarts (d : ℝ) : List (String × (Key → Rand ℝ)) :=
  [("random", uniform), ("blank", fun _ => pure 0), ("interp", fun _ => pure d)]

/-- Start with a uniform number added, move by uniform numbers. -/
noncomputable def walkStart (d : ℝ) : SbRuns.Method ℝ ℝ :=
  .gibbs ℝ (fun k u => (u + ·) <$> uniform k) (fun k s => (s + ·) <$> uniform k) fun s => s - d

noncomputable def drawStart (d : ℝ) : SbRuns.Method ℝ ℝ := .filter fun k u => (u + d + ·) <$> uniform k

example (id : ℕ) (seed : Key) (F : ℝ × List (String × File ℝ) → ℝ≥0∞) :
    FreshFrom seed (SbRuns.script uniform uniform (fun _ => uniform) threeStarts walkStart 0 100 id seed) ∧
    (SbRuns.script uniform uniform (fun _ => uniform) threeStarts walkStart 0 100 id seed).E F
      = (SbRuns.script uniform uniform (fun _ => uniform) threeStarts walkStart 0 100 0 seed).E F := by
  have hc : ∀ k, Consumes {k} (uniform k) := fun k => consumes_sample _ _ _
  have hk : ∀ d, KeyedStart (walkStart d) := fun d => ⟨fun k u => (hc k).map _, fun k s => (hc k).map _⟩
  refine ⟨C99_keys hc hc (fun _ => hc) (fun d q hq k => ?_) hk 0 100 id seed,
    C99_ids_law uniform uniform (fun _ k k' φ => rfl) threeStarts walkStart 0 100 id seed F⟩
  simp only [threeStarts, List.mem_cons, List.not_mem_nil, or_false] at hq
  rcases hq with rfl | rfl | rfl
  · exact hc k
  · exact consumes_pure _ _
  · exact consumes_pure _ _

example (seed : Key) : ∃ (x0s : List (String × (Key → Rand ℝ))) (m : SbRuns.Method ℝ ℝ) (files : List (String × File ℝ)),
    x0s.map Prod.fst = ["random", "blank", "interp"] ∧
    (SbRuns.script (fun _ => pure ()) (fun _ => pure ()) (fun _ _ => pure ()) (fun _ => x0s) (fun _ => m) 0 1 0 seed).replay lengthGen
      = some ((), files) ∧
    files[2]? = some ("gibbs-init", .img 0) ∧ stored files "gibbs-eb-ef-blank" = some (.arr [0]) ∧
    stored files "gibbs-init" = some (.img 1) := C99_init_lost lengthGen seed (lengthGen_uniform _)

/-- A run with two chains stored per start, and what it leaves for the second start. -/
example (seed : Key) : ∃ d files, (SbRuns.script uniform uniform (fun _ => uniform) threeStarts walkStart 0 2 3 seed).replay lengthGen
    = some (d, files) ∧ ∃ a, stored files "gibbs-eb-ef-blank" = some (.arr a) := by
  have h : ∃ r, (SbRuns.script uniform uniform (fun _ => uniform) threeStarts walkStart 0 2 3 seed).replay lengthGen = some r := by
    simp [SbRuns.script, starts, gibbsInto, walkStart, threeStarts, lengthGen_uniform]
  obtain ⟨⟨d, files⟩, h⟩ := h
  obtain ⟨_, _, a, -, -, -, h1, -⟩ := C99_gibbs lengthGen uniform uniform (fun _ => uniform) threeStarts walkStart 0 2 3 seed h
    (j := 1) rfl (by simp [threeStarts]) rfl
  exact ⟨d, files, h, a, h1⟩

/-- The same for the filter. -/
example (seed : Key) : ∃ d files, (SbRuns.script uniform uniform (fun _ => uniform) threeStarts drawStart 0 2 3 seed).replay lengthGen
    = some (d, files) ∧ ∃ a, stored files "filter-blank" = some (.arr a) ∧ a.length = 2 := by
  have h : ∃ r, (SbRuns.script uniform uniform (fun _ => uniform) threeStarts drawStart 0 2 3 seed).replay lengthGen = some r := by
    simp [SbRuns.script, starts, filterInto, drawStart, threeStarts, lengthGen_uniform]
  obtain ⟨⟨d, files⟩, h⟩ := h
  obtain ⟨a, h1, h2, -⟩ := C99_filter lengthGen uniform uniform (fun _ => uniform) threeStarts drawStart 0 2 3 seed h
    rfl (by simp [threeStarts]) (j := 1) rfl
  exact ⟨d, files, h, a, h1, h2⟩

end Props
end Fbs
