import Verif.Base.Replay
import Verif.Model.ImgRuns
import Verif.Model.ChainSamples
import Verif.Props.ExpKeys

/-!
# C98: test images and random numbers of the image experiments, with and without `--start_from`
-/

open MeasureTheory
open scoped ENNReal

namespace Fbs
namespace Spec

variable {D X : Type}

/-- The key a loop holds after `n` iterations that replace `key` by the first half of its split. -/
def after (key : Key) (n : ℕ) : Key := key ++ List.replicate n (2, 0)

/-- The key with which a script started with `seed` draws test image `k`. -/
def dataKey (seed : Key) (k : ℕ) : Key := seed ++ (2, 1) :: (List.replicate k (2, 0) ++ [(2, 1)])

/-- The value of the variable `key` of a script started with `seed` when its sampler has been given `c` keys. -/
def samplerKey (seed : Key) (c : ℕ) : Key := seed ++ List.replicate (3 + c) (2, 0)

/-- How many keys a method takes for one image: chains need one more for their start. -/
def keysPerImage (m : ImgRuns.Method D X) (nsamples : ℕ) : ℕ :=
  match m with
  | .draws _ => nsamples
  | .chain .. => nsamples + 1

end Spec

namespace Props

open ImgRuns Spec Rand Chains Jax

variable {D X S P σ : Type}

theorem after_zero (key : Key) : after key 0 = key := by simp [after]

theorem after_split (key : Key) (n : ℕ) : after (split key 2 0) n = after key (n + 1) := by
  simp [after, split, List.replicate_succ]

theorem after_after (key : Key) (a b : ℕ) : after (after key a) b = after key (a + b) := by
  simp [after]

/-! ### The key after the samples of one image -/

theorem drawLoop_key (f : Key → Rand X) : ∀ (n : ℕ) (key : Key),
    drawLoop f n key = (fun xs => (xs.1, after key n)) <$> drawLoop f n key
  | 0, key => by rw [after_zero]; rfl
  | n + 1, key => by
    rw [drawLoop, drawLoop_key f n]
    simp only [map_bind, bind_map_left, after_split, map_pure]

theorem chainLoop_key (next : Key → σ → Rand σ) (out : σ → X) : ∀ (n : ℕ) (key : Key) (s : σ),
    chainLoop next out n key s = (fun xs => (xs.1, after key n)) <$> chainLoop next out n key s
  | 0, key, s => by rw [after_zero]; rfl
  | n + 1, key, s => by
    rw [chainLoop]
    simp only [map_bind, map_pure]
    refine congrArg _ (funext fun s' => ?_)
    rw [chainLoop_key next out n]
    simp only [bind_map_left, after_split]

theorem run_key (m : Method D X) (n : ℕ) (key : Key) (d : D) :
    m.run n key d = (fun xs => (xs.1, after key (keysPerImage m n))) <$> m.run n key d := by
  cases m with
  | draws f => exact drawLoop_key _ n key
  | chain σ init next out =>
    rw [Method.run]
    simp only [map_bind, keysPerImage]
    refine congrArg _ (funext fun s => ?_)
    rw [chainLoop_key, ← after_split]
    simp only [Functor.map_map]

/-- The samples of a chain are those of the loop that C93 is about. -/
theorem chainLoop_storeLoop (next : Key → σ → Rand σ) (out : σ → X) : ∀ (n : ℕ) (key : Key) (s : σ),
    Prod.fst <$> chainLoop next out n key s = storeLoop next out n key s
  | 0, key, s => rfl
  | n + 1, key, s => by
    rw [chainLoop, storeLoop]
    simp only [map_bind, map_pure]
    refine congrArg _ (funext fun s' => ?_)
    rw [← chainLoop_storeLoop next out n]
    simp only [bind_map_left]

/-! ### The loop over the images -/

/-- Iterations that do not skip are the same with every `startFrom`, and hand over a known key. -/
theorem imageLoop_live (sampler : Key → Rand D) (m : Method D X) (ns st n k : ℕ) (h : st ≤ k) (key dk : Key) :
    imageLoop sampler m ns st (n + 1) k key dk = (do
      let d ← sampler (split dk 2 1)
      let xs ← Prod.fst <$> m.run ns key d
      let rest ← imageLoop sampler m ns st n (k + 1) (after key (keysPerImage m ns)) (split dk 2 0)
      return (k, d, xs) :: rest) := by
  rw [imageLoop, if_neg (Nat.not_lt.2 h)]
  refine congrArg _ (funext fun d => ?_)
  rw [run_key]
  simp only [bind_map_left, Functor.map_map]

theorem imageLoop_skip (sampler : Key → Rand D) (m : Method D X) (ns st : ℕ) : ∀ (i n k : ℕ) (_ : k + i ≤ st) (key dk : Key),
    imageLoop sampler m ns st (i + n) k key dk = imageLoop sampler m ns st n (k + i) key (after dk i)
  | 0, n, k, _, key, dk => by rw [after_zero, Nat.zero_add, Nat.add_zero]
  | i + 1, n, k, h, key, dk => by
    rw [show i + 1 + n = (i + n) + 1 by omega, imageLoop, if_pos (by omega), imageLoop_skip sampler m ns st i n (k + 1) (by omega),
      after_split, show k + 1 + i = k + (i + 1) by omega]

theorem imageLoop_replay (g : Gen) (sampler : Key → Rand D) (m : Method D X) (ns st : ℕ) : ∀ (n k : ℕ) (_ : st ≤ k) (key dk : Key)
    {out : List (ℕ × D × List X)}, (imageLoop sampler m ns st n k key dk).replay g = some out →
    out.length = n ∧ ∀ j < n, ∃ d xs, (sampler (split (after dk j) 2 1)).replay g = some d ∧
      (m.run ns (after key (j * keysPerImage m ns)) d).replay g = some (xs, after key ((j + 1) * keysPerImage m ns)) ∧
      out[j]? = some (k + j, d, xs)
  | 0, k, _, key, dk, out, h => by
    obtain rfl : [] = out := by simpa [imageLoop] using h
    exact ⟨rfl, fun j hj => absurd hj (Nat.not_lt_zero j)⟩
  | n + 1, k, hk, key, dk, out, h => by
    rw [imageLoop_live _ _ _ _ _ _ hk, replay_bind] at h
    obtain ⟨d, hd, h⟩ := Option.bind_eq_some_iff.1 h
    rw [replay_bind] at h
    obtain ⟨xs, hx, h⟩ := Option.bind_eq_some_iff.1 h
    rw [replay_bind] at h
    obtain ⟨rest, hr, h⟩ := Option.bind_eq_some_iff.1 h
    obtain rfl : (k, d, xs) :: rest = out := by simpa using h
    obtain ⟨hl, ih⟩ := imageLoop_replay g sampler m ns st n (k + 1) (by omega) _ _ hr
    refine ⟨by rw [List.length_cons, hl], fun j hj => ?_⟩
    cases j with
    | zero =>
      refine ⟨d, xs, by rw [after_zero]; exact hd, ?_, rfl⟩
      rw [replay_map] at hx
      obtain ⟨y, hy, rfl⟩ := Option.map_eq_some_iff.1 hx
      rw [Nat.zero_mul, after_zero, run_key, replay_map, hy, Nat.zero_add, Nat.one_mul]
      rfl
    | succ j =>
      obtain ⟨d', xs', h1, h2, h3⟩ := ih j (by omega)
      refine ⟨d', xs', ?_, ?_, ?_⟩
      · rw [← after_split]; exact h1
      · rw [after_after, after_after] at h2
        rw [show (j + 1) * keysPerImage m ns = keysPerImage m ns + j * keysPerImage m ns by ring,
          show (j + 1 + 1) * keysPerImage m ns = keysPerImage m ns + (j + 1) * keysPerImage m ns by ring]
        exact h2
      · rw [List.getElem?_cons_succ, h3, show k + 1 + j = k + (j + 1) by omega]

/-! ### C98 -/

theorem dataKey_eq (seed : Key) (k : ℕ) : split (after (split seed 2 1) k) 2 1 = dataKey seed k := by
  simp [dataKey, after, split]

theorem samplerKey_eq (seed : Key) (c : ℕ) : after (split (split (split seed 2 0) 2 0) 2 0) c = samplerKey seed c := by
  rw [after_split, after_split, after_split]
  simp only [after, samplerKey]
  congr 2
  omega

/-- **C98, what a run computes.**  Whatever the method, the numbers of samples and images and `start_from`: the result has one
entry for every image not skipped, the entry of image `k` is made from the test image that the seed and `k` alone determine,
and its samples are those the method computes from the key which is left after the images `start_from, …, k - 1`. -/
theorem C98_entries (g : Gen) (mkData : Key → Rand S) (nnInit : Key → Rand P) (sampler : S → Key → Rand D) (m : S → Method D X)
    (ns ny0s st : ℕ) (seed : Key) {out : List (ℕ × D × List X)}
    (h : (script mkData nnInit sampler m ns ny0s st seed).replay g = some out) :
    out.length = ny0s - st ∧ ∃ ds, (mkData (seed ++ [(2, 0), (2, 1)])).replay g = some ds ∧
      ∀ k, st ≤ k → k < ny0s → ∃ d xs, (sampler ds (dataKey seed k)).replay g = some d ∧
        ((m ds).run ns (samplerKey seed ((k - st) * keysPerImage (m ds) ns)) d).replay g
          = some (xs, samplerKey seed ((k - st + 1) * keysPerImage (m ds) ns)) ∧
        out[k - st]? = some (k, d, xs) := by
  rw [script, replay_bind] at h
  obtain ⟨ds, hds, h⟩ := Option.bind_eq_some_iff.1 h
  rw [replay_bind] at h
  obtain ⟨_, -, h⟩ := Option.bind_eq_some_iff.1 h
  rcases Nat.lt_or_ge st ny0s with hs | hs
  · have e := imageLoop_skip (sampler ds) (m ds) ns st st (ny0s - st) 0 (by omega)
      (split (split (split seed 2 0) 2 0) 2 0) (split seed 2 1)
    rw [show st + (ny0s - st) = ny0s by omega, Nat.zero_add] at e
    rw [e] at h
    obtain ⟨hl, hj⟩ := imageLoop_replay g (sampler ds) (m ds) ns st _ st le_rfl _ _ h
    refine ⟨hl, ds, by simpa [split] using hds, fun k hk hk' => ?_⟩
    obtain ⟨d, xs, h1, h2, h3⟩ := hj (k - st) (by omega)
    rw [after_after, dataKey_eq, show st + (k - st) = k by omega] at h1
    rw [samplerKey_eq, samplerKey_eq] at h2
    exact ⟨d, xs, h1, h2, by rw [h3, show st + (k - st) = k by omega]⟩
  · have e := imageLoop_skip (sampler ds) (m ds) ns st ny0s 0 0 (by omega)
      (split (split (split seed 2 0) 2 0) 2 0) (split seed 2 1)
    rw [Nat.add_zero, Nat.zero_add] at e
    rw [e] at h
    obtain rfl : [] = out := by simpa [imageLoop] using h
    exact ⟨by simp [Nat.sub_eq_zero_of_le hs], ds, by simpa [split] using hds, fun k hk hk' => by omega⟩

/-- **C98, same test images.**  Two runs with the same seed, of any two scripts, with any numbers of samples and images and any
`start_from`, restore the same image number `k`. -/
theorem C98_same_images {P' X' : Type} (g : Gen) (mkData : Key → Rand S) (nnInit : Key → Rand P) (nnInit' : Key → Rand P')
    (sampler : S → Key → Rand D) (m : S → Method D X) (m' : S → Method D X') (ns ns' ny0s ny0s' st st' : ℕ) (seed : Key)
    {out : List (ℕ × D × List X)} {out' : List (ℕ × D × List X')}
    (h : (script mkData nnInit sampler m ns ny0s st seed).replay g = some out)
    (h' : (script mkData nnInit' sampler m' ns' ny0s' st' seed).replay g = some out') {k : ℕ} {d d' : D} {xs : List X}
    {xs' : List X'} (hk : (k, d, xs) ∈ out) (hk' : (k, d', xs') ∈ out') : d = d' := by
  have key : ∀ {P' X' : Type} (nnInit : Key → Rand P') (m : S → Method D X') (ns ny0s st : ℕ) {out : List (ℕ × D × List X')} {d : D} {xs : List X'}
      (_ : (script mkData nnInit sampler m ns ny0s st seed).replay g = some out) (_ : (k, d, xs) ∈ out),
      (mkData (seed ++ [(2, 0), (2, 1)])).replay g >>= (fun ds => (sampler ds (dataKey seed k)).replay g) = some d := by
    intro P' X' nnInit m ns ny0s st out d xs h hk
    obtain ⟨hl, ds, hds, he⟩ := C98_entries g mkData nnInit sampler m ns ny0s st seed h
    obtain ⟨j, hj⟩ := List.mem_iff_getElem?.1 hk
    have hjl : j < out.length := (List.getElem?_eq_some_iff.1 hj).1
    obtain ⟨d1, xs1, h1, -, h3⟩ := he (st + j) (by omega) (by omega)
    rw [Nat.add_sub_cancel_left, hj] at h3
    obtain ⟨hk1, hd1, -⟩ : k = st + j ∧ d = d1 ∧ xs = xs1 := by simpa using h3
    rw [hds, hk1, hd1]
    exact h1
  exact Option.some.inj ((key nnInit m ns ny0s st h hk).symm.trans (key nnInit' m' ns' ny0s' st' h' hk'))

/-- **C98, what resuming repeats.**  The samples of image `st + j` in a run resumed at `st` are made with exactly the keys that
the run from the first image used for image `j`: if the two test images agree, the samples agree number by number. -/
theorem C98_resume_repeats (g : Gen) (mkData : Key → Rand S) (nnInit : Key → Rand P) (sampler : S → Key → Rand D)
    (m : S → Method D X) (ns ny0s st : ℕ) (seed : Key) {full resumed : List (ℕ × D × List X)}
    (hf : (script mkData nnInit sampler m ns ny0s 0 seed).replay g = some full)
    (hr : (script mkData nnInit sampler m ns ny0s st seed).replay g = some resumed) {j : ℕ} {d : D} {xs xs' : List X}
    (h : full[j]? = some (j, d, xs)) (h' : resumed[j]? = some (st + j, d, xs')) : xs = xs' := by
  obtain ⟨hl, ds, hds, he⟩ := C98_entries g mkData nnInit sampler m ns ny0s 0 seed hf
  obtain ⟨hl', ds', hds', he'⟩ := C98_entries g mkData nnInit sampler m ns ny0s st seed hr
  obtain rfl : ds = ds' := Option.some.inj (hds.symm.trans hds')
  have hj := (List.getElem?_eq_some_iff.1 h).1
  have hj' := (List.getElem?_eq_some_iff.1 h').1
  obtain ⟨d1, xs1, -, h2, h3⟩ := he j (Nat.zero_le _) (by omega)
  obtain ⟨d2, xs2, -, h2', h3'⟩ := he' (st + j) (by omega) (by omega)
  rw [Nat.sub_zero] at h3 h2
  rw [Nat.add_sub_cancel_left] at h3' h2'
  rw [h] at h3
  rw [h'] at h3'
  obtain ⟨rfl, rfl⟩ : d = d1 ∧ xs = xs1 := by simpa using h3
  obtain ⟨rfl, rfl⟩ : d = d2 ∧ xs' = xs2 := by simpa using h3'
  exact congrArg Prod.fst (Option.some.inj (h2.symm.trans h2'))

/-- **C98 fails: a resumed run is not the rest of the full run.**  Resuming is meant to produce what the interrupted run would
have produced.  With any generator that gives different numbers to the first two samples of a run, the result for the second
image of a run resumed there is the first number, where the uninterrupted run has the second. -/
theorem C98_resume_wrong (g : Gen) (seed : Key) {a b : ℝ}
    (ha : (uniform (split (samplerKey seed 0) 2 1)).replay g = some a)
    (hb : (uniform (split (samplerKey seed 1) 2 1)).replay g = some b) (hab : a ≠ b) :
    ∃ m : Unit → Method Unit ℝ, ∃ full resumed,
      (script (fun _ => pure ()) (fun _ => pure ()) (fun _ _ => pure ()) m 1 2 0 seed).replay g = some full ∧
      (script (fun _ => pure ()) (fun _ => pure ()) (fun _ _ => pure ()) m 1 2 1 seed).replay g = some resumed ∧
      full = [(0, (), [a]), (1, (), [b])] ∧ resumed = [(1, (), [a])] ∧ resumed ≠ full.drop 1 := by
  have e0 : samplerKey seed 0 = split (split (split seed 2 0) 2 0) 2 0 := by rw [← samplerKey_eq, after_zero]
  have e1 : samplerKey seed 1 = split (split (split (split seed 2 0) 2 0) 2 0) 2 0 := by
    rw [← samplerKey_eq, ← after_split, after_zero]
  rw [e0] at ha
  rw [e1] at hb
  refine ⟨fun _ => .draws fun k _ => uniform k, _, _, ?_, ?_, rfl, rfl, by simpa using hab⟩
  · simp [script, imageLoop, Method.run, drawLoop, ha, hb]
  · simp [script, imageLoop, Method.run, drawLoop, ha]

/-! ### The law of a resumed run -/

/-- The laws of the calls do not depend on the keys. -/
def LawFree : Method D X → Prop
  | .draws f => ∀ k k' d φ, (f k d).E φ = (f k' d).E φ
  | .chain _ init next _ => (∀ k k' d φ, (init k d).E φ = (init k' d).E φ) ∧ ∀ d k k' s φ, (next d k s).E φ = (next d k' s).E φ

/-- All draws are from probability measures. -/
def ProbMethod : Method D X → Prop
  | .draws f => ∀ k d, (f k d).IsProb
  | .chain _ init next _ => (∀ k d, (init k d).IsProb) ∧ ∀ d k s, (next d k s).IsProb

theorem drawLoop_law {f : Key → Rand X} (hf : ∀ k k' φ, (f k).E φ = (f k').E φ) : ∀ (n : ℕ) (key key' : Key) (φ : List X → ℝ≥0∞),
    (drawLoop f n key).E (fun xs => φ xs.1) = (drawLoop f n key').E fun xs => φ xs.1
  | 0, _, _, _ => rfl
  | n + 1, key, key', φ => by
    simp only [drawLoop, E_bind, pure_eq, E_ret]
    rw [hf _ (split key' 2 1)]
    exact E_congr _ fun x => drawLoop_law hf n _ _ fun xs => φ (x :: xs)

theorem chainLoop_law {next : Key → σ → Rand σ} (hn : ∀ k k' s φ, (next k s).E φ = (next k' s).E φ) (out : σ → X) :
    ∀ (n : ℕ) (key key' : Key) (s : σ) (φ : List X → ℝ≥0∞),
    (chainLoop next out n key s).E (fun xs => φ xs.1) = (chainLoop next out n key' s).E fun xs => φ xs.1
  | 0, _, _, _, _ => rfl
  | n + 1, key, key', s, φ => by
    simp only [chainLoop, E_bind, pure_eq, E_ret]
    rw [hn _ (split key' 2 1)]
    exact E_congr _ fun x => chainLoop_law hn out n _ _ _ fun xs => φ (out x :: xs)

theorem run_law {m : Method D X} (h : LawFree m) (n : ℕ) (key key' : Key) (d : D) (φ : List X → ℝ≥0∞) :
    (m.run n key d).E (fun xs => φ xs.1) = (m.run n key' d).E fun xs => φ xs.1 := by
  cases m with
  | draws f => exact drawLoop_law (fun k k' φ => h k k' d φ) n key key' φ
  | chain σ init next out =>
    simp only [Method.run, E_bind]
    rw [h.1 _ (split key' 2 1)]
    exact E_congr _ fun s => chainLoop_law (fun k k' s φ => h.2 d k k' s φ) _ n _ _ _ φ

theorem drawLoop_prob {f : Key → Rand X} (hf : ∀ k, (f k).IsProb) : ∀ (n : ℕ) (key : Key), (drawLoop f n key).IsProb
  | 0, _ => trivial
  | n + 1, _ => (hf _).bind fun _ => (drawLoop_prob hf n _).bind fun _ => trivial

theorem chainLoop_prob {next : Key → σ → Rand σ} (hn : ∀ k s, (next k s).IsProb) (out : σ → X) :
    ∀ (n : ℕ) (key : Key) (s : σ), (chainLoop next out n key s).IsProb
  | 0, _, _ => trivial
  | n + 1, _, _ => (hn _ _).bind fun _ => (chainLoop_prob hn out n _ _).bind fun _ => trivial

theorem run_prob {m : Method D X} (h : ProbMethod m) (n : ℕ) (key : Key) (d : D) : (m.run n key d).IsProb := by
  cases m with
  | draws f => exact drawLoop_prob (fun k => h k d) n key
  | chain σ init next out => exact (h.1 _ _).bind fun _ => chainLoop_prob (fun k s => h.2 d k s) _ n _ _

theorem imageLoop_start (sampler : Key → Rand D) (m : Method D X) (ns st : ℕ) : ∀ (n k : ℕ) (_ : st ≤ k) (key dk : Key),
    imageLoop sampler m ns st n k key dk = imageLoop sampler m ns 0 n k key dk
  | 0, _, _, _, _ => rfl
  | n + 1, k, h, key, dk => by
    rw [imageLoop_live _ _ _ _ _ _ h, imageLoop_live _ _ _ _ _ _ (Nat.zero_le k)]
    simp only [imageLoop_start sampler m ns st n (k + 1) (by omega)]

theorem imageLoop_law (sampler : Key → Rand D) {m : Method D X} (h : LawFree m) (ns : ℕ) : ∀ (n k : ℕ) (key key' dk : Key)
    (F : List (ℕ × D × List X) → ℝ≥0∞),
    (imageLoop sampler m ns 0 n k key dk).E F = (imageLoop sampler m ns 0 n k key' dk).E F
  | 0, _, _, _, _, _ => rfl
  | n + 1, k, key, key', dk, F => by
    rw [imageLoop_live _ _ _ _ _ _ (Nat.zero_le k), imageLoop_live _ _ _ _ _ _ (Nat.zero_le k)]
    simp only [E_bind, E_map, pure_eq, E_ret]
    refine E_congr _ fun d => ?_
    refine Eq.trans (run_law h ns key key' d fun xs => (imageLoop sampler m ns 0 n (k + 1) (after key (keysPerImage m ns)) (split dk 2 0)).E
      fun rest => F ((k, d, xs) :: rest)) ?_
    exact E_congr _ fun xs => imageLoop_law sampler h ns n (k + 1) _ _ _ fun rest => F ((k, d, xs.1) :: rest)

theorem imageLoop_drop {sampler : Key → Rand D} (hs : ∀ k, (sampler k).IsProb) {m : Method D X} (h : LawFree m) (hp : ProbMethod m)
    (ns : ℕ) : ∀ (i n k : ℕ) (key dk : Key) (F : List (ℕ × D × List X) → ℝ≥0∞),
    (imageLoop sampler m ns 0 (i + n) k key dk).E (fun l => F (l.drop i)) = (imageLoop sampler m ns 0 n (k + i) key (after dk i)).E F
  | 0, n, k, key, dk, F => by rw [after_zero, Nat.zero_add]; rfl
  | i + 1, n, k, key, dk, F => by
    rw [show i + 1 + n = (i + n) + 1 by omega, imageLoop_live _ _ _ _ _ _ (Nat.zero_le k)]
    simp only [E_bind, E_map, pure_eq, E_ret, List.drop_succ_cons]
    simp only [imageLoop_drop hs h hp ns i n (k + 1)]
    rw [E_congr _ fun d => E_const (run_prob hp ns key d) _, E_const (hs _), after_split, show k + 1 + i = k + (i + 1) by omega]
    exact imageLoop_law sampler h ns _ _ _ _ _ _

/-- **C98, the law of a resumed run.**  By itself a run resumed at `st` has the law of the rest of the full run, if the laws of
the calls do not depend on the keys they get. -/
theorem C98_resume_law (mkData : Key → Rand S) (nnInit : Key → Rand P) {sampler : S → Key → Rand D} {m : S → Method D X}
    (hs : ∀ ds k, (sampler ds k).IsProb) (hm : ∀ ds, LawFree (m ds)) (hp : ∀ ds, ProbMethod (m ds)) (ns : ℕ) {ny0s st : ℕ}
    (hst : st ≤ ny0s) (seed : Key) (F : List (ℕ × D × List X) → ℝ≥0∞) :
    (script mkData nnInit sampler m ns ny0s st seed).E F
      = (script mkData nnInit sampler m ns ny0s 0 seed).E fun l => F (l.drop st) := by
  obtain ⟨n, rfl⟩ := Nat.exists_eq_add_of_le hst
  simp only [script, E_bind]
  refine E_congr _ fun ds => E_congr _ fun _ => ?_
  rw [imageLoop_skip _ _ _ _ _ _ _ (by omega), imageLoop_drop (hs ds) (hm ds) (hp ds), imageLoop_start _ _ _ _ _ _ (by omega)]

/-! ### Keys -/

/-- The calls use only keys derived from the key they get. -/
def KeyedMethod : Method D X → Prop
  | .draws f => ∀ k d, Consumes {k} (f k d)
  | .chain _ init next _ => (∀ k d, Consumes {k} (init k d)) ∧ ∀ d k s, Consumes {k} (next d k s)

/-- The keys handed out by a loop starting with `key`, numbers in `s`. -/
def handed (key : Key) (s : Set ℕ) : Set Key := (fun j => split (after key j) 2 1) '' s

theorem indep_handed (key : Key) {i j : ℕ} (h : i ≠ j) : Key.Indep (split (after key i) 2 1) (split (after key j) 2 1) := by
  rcases Nat.lt_or_gt_of_ne h with h | h
  · obtain ⟨c, rfl⟩ := Nat.exists_eq_add_of_lt h
    refine ⟨after key i, 2, 1, 0, [], List.replicate c (2, 0) ++ [(2, 1)], by decide, rfl, ?_⟩
    simp only [after, split, List.append_assoc]
    rw [show i + c + 1 = i + (1 + c) by omega, List.replicate_add, List.replicate_add]
    simp
  · obtain ⟨c, rfl⟩ := Nat.exists_eq_add_of_lt h
    refine ⟨after key j, 2, 0, 1, List.replicate c (2, 0) ++ [(2, 1)], [], by decide, ?_, rfl⟩
    simp only [after, split, List.append_assoc]
    rw [show j + c + 1 = j + (1 + c) by omega, List.replicate_add, List.replicate_add]
    simp

theorem handed_after (key : Key) (c : ℕ) (s : Set ℕ) : handed (after key c) s = handed key ((c + ·) '' s) := by
  simp only [handed, Set.image_image, after_after]

theorem handed_mono (key : Key) {s t : Set ℕ} (h : s ⊆ t) : ∀ r ∈ handed key s, ∃ r' ∈ handed key t, r' <+: r := by
  rintro r ⟨j, hj, rfl⟩
  exact ⟨_, ⟨j, h hj, rfl⟩, List.prefix_refl _⟩

theorem bind_handed {α β : Type} {key : Key} {s t : Set ℕ} (h : Disjoint s t) {p : Rand α} {q : α → Rand β}
    (hp : Consumes (handed key s) p) (hq : ∀ a, Consumes (handed key t) (q a)) : Consumes (handed key (s ∪ t)) (p >>= q) := by
  rw [handed, Set.image_union]
  refine hp.bind hq ?_
  rintro r ⟨i, hi, rfl⟩ r' ⟨j, hj, rfl⟩
  exact indep_handed key fun e => Set.disjoint_left.1 h hi (e ▸ hj)

theorem handed_zero (key : Key) : handed key {0} = {split key 2 1} := by
  simp [handed, after_zero]

/-- One call, then a loop that starts with the other half of the key. -/
theorem step_handed {α β : Type} {key : Key} {n : ℕ} {p : Rand α} {q : α → Rand β} (hp : Consumes {split key 2 1} p)
    (hq : ∀ a, Consumes (handed (split key 2 0) {j | j < n}) (q a)) : Consumes (handed key {j | j < n + 1}) (p >>= q) := by
  have e : split key 2 0 = after key 1 := by rw [← after_zero (split key 2 0), after_split]
  simp only [e, handed_after] at hq
  rw [← handed_zero] at hp
  refine (bind_handed (Set.disjoint_left.2 ?_) hp hq).mono (handed_mono key ?_)
  · rintro i rfl ⟨j, -, hj⟩
    simp at hj
  · rintro i (rfl | ⟨j, hj, rfl⟩)
    · exact Nat.succ_pos n
    · exact show 1 + j < n + 1 by have : j < n := hj; omega

theorem consumes_drawLoop {f : Key → Rand X} (hf : ∀ k, Consumes {k} (f k)) : ∀ (n : ℕ) (key : Key),
    Consumes (handed key {j | j < n}) (drawLoop f n key)
  | 0, _ => consumes_pure _ _
  | n + 1, _ => step_handed (hf _) fun _ => (consumes_drawLoop hf n _).bind_pure _

theorem consumes_chainLoop {next : Key → σ → Rand σ} (hn : ∀ k s, Consumes {k} (next k s)) (out : σ → X) :
    ∀ (n : ℕ) (key : Key) (s : σ), Consumes (handed key {j | j < n}) (chainLoop next out n key s)
  | 0, _, _ => consumes_pure _ _
  | n + 1, _, _ => step_handed (hn _ _) fun _ => (consumes_chainLoop hn out n _ _).bind_pure _

theorem consumes_run {m : Method D X} (h : KeyedMethod m) (n : ℕ) (key : Key) (d : D) :
    Consumes (handed key {j | j < keysPerImage m n}) (m.run n key d) := by
  cases m with
  | draws f => exact consumes_drawLoop (fun k => h k d) n key
  | chain σ init next out => exact step_handed (h.1 _ _) fun _ => consumes_chainLoop (fun k s => h.2 d k s) _ n _ _

theorem consumes_imageLoop {sampler : Key → Rand D} (hs : ∀ k, Consumes {k} (sampler k)) {m : Method D X} (h : KeyedMethod m)
    (ns : ℕ) : ∀ (n k : ℕ) {key dk : Key}, Key.Indep key dk →
    Consumes (handed key Set.univ ∪ handed dk Set.univ) (imageLoop sampler m ns 0 n k key dk)
  | 0, _, _, _, _ => consumes_pure _ _
  | n + 1, k, key, dk, hk => by
    rw [imageLoop_live _ _ _ _ _ _ (Nat.zero_le k)]
    set c := keysPerImage m ns
    have e : split dk 2 0 = after dk 1 := by rw [← after_zero (split dk 2 0), after_split]
    have hk' : Key.Indep (after key c) (after dk 1) := indep_of_prefix hk ⟨_, rfl⟩ ⟨_, rfl⟩
    have ind : ∀ i j, Key.Indep (split (after key i) 2 1) (split (after dk j) 2 1) := fun i j =>
      indep_of_prefix hk ⟨_, by simp [after, split]; rfl⟩ ⟨_, by simp [after, split]; rfl⟩
    have h1 := consumes_imageLoop hs h ns n (k + 1) hk'
    rw [handed_after, handed_after, ← e] at h1
    have h2 : ∀ d, Consumes (handed key {j | j < c} ∪ (handed key ((c + ·) '' Set.univ) ∪ handed dk ((1 + ·) '' Set.univ)))
        (do
          let xs ← Prod.fst <$> m.run ns key d
          let rest ← imageLoop sampler m ns 0 n (k + 1) (after key c) (split dk 2 0)
          return (k, d, xs) :: rest : Rand (List (ℕ × D × List X))) := fun d => by
      refine ((consumes_run h ns key d).map _).bind (fun xs => h1.bind_pure _) ?_
      rintro r ⟨i, hi, rfl⟩ r' (⟨_, ⟨j, -, rfl⟩, rfl⟩ | ⟨_, ⟨j, -, rfl⟩, rfl⟩)
      · exact indep_handed key fun e => by have : i < c := hi; have : i = c + j := e; omega
      · exact ind _ _
    refine ((hs (split dk 2 1)).bind h2 ?_).mono ?_
    · rintro r rfl r' (⟨i, hi, rfl⟩ | ⟨i, hi, rfl⟩ | ⟨_, ⟨j, -, rfl⟩, rfl⟩)
      · have := ind i 0; rw [after_zero] at this; exact this.symm
      · have := ind i 0; rw [after_zero] at this; exact this.symm
      · have := indep_handed dk (i := 0) (j := 1 + j) (by omega); rwa [after_zero] at this
    · rintro r (rfl | ⟨i, hi, rfl⟩ | ⟨i, hi, rfl⟩ | ⟨i, hi, rfl⟩)
      · exact ⟨_, Or.inr ⟨0, trivial, by simp [after_zero]⟩, List.prefix_refl _⟩
      · exact ⟨_, Or.inl ⟨i, trivial, rfl⟩, List.prefix_refl _⟩
      · exact ⟨_, Or.inl ⟨i, trivial, rfl⟩, List.prefix_refl _⟩
      · exact ⟨_, Or.inr ⟨i, trivial, rfl⟩, List.prefix_refl _⟩

/-- **C98, keys of one run.**  Within one run, resumed or not, no key is used twice: not for two samples, two images, a sample and
a test image, nor for the data set or the network. -/
theorem C98_keys {mkData : Key → Rand S} (hd : ∀ k, Consumes {k} (mkData k)) {nnInit : Key → Rand P}
    (hn : ∀ k, Consumes {k} (nnInit k)) {sampler : S → Key → Rand D} (hs : ∀ ds k, Consumes {k} (sampler ds k))
    {m : S → Method D X} (hm : ∀ ds, KeyedMethod (m ds)) (ns ny0s st : ℕ) (seed : Key) :
    FreshFrom seed (script mkData nnInit sampler m ns ny0s st seed) := by
  have e2 : split (split seed 2 0) 2 0 = after (split seed 2 0) 1 := by rw [← after_zero (split (split seed 2 0) 2 0), after_split]
  have e3 : split (split (split seed 2 0) 2 0) 2 0 = after (split seed 2 0) 2 := by
    rw [← after_zero (split (split (split seed 2 0) 2 0) 2 0), after_split, after_split]
  have ind : Key.Indep (split seed 2 0) (split seed 2 1) := Key.indep_split seed 2 (by decide)
  have ind' : Key.Indep (after (split seed 2 0) 2) (split seed 2 1) := indep_of_prefix ind ⟨_, rfl⟩ (List.prefix_refl _)
  have loop : ∀ ds, Consumes (handed (split seed 2 0) ((2 + ·) '' Set.univ) ∪ handed (split seed 2 1) Set.univ)
      (imageLoop (sampler ds) (m ds) ns st ny0s 0 (split (split (split seed 2 0) 2 0) 2 0) (split seed 2 1)) := fun ds => by
    rw [e3, ← handed_after]
    rcases Nat.le_total st ny0s with h | h
    · obtain ⟨n, rfl⟩ := Nat.exists_eq_add_of_le h
      rw [imageLoop_skip _ _ _ _ _ _ _ (by omega), imageLoop_start _ _ _ _ _ _ (by omega)]
      refine (consumes_imageLoop (hs ds) (hm ds) ns n (0 + st) (dk := after (split seed 2 1) st)
        (indep_of_prefix ind' (List.prefix_refl _) ⟨_, rfl⟩)).mono ?_
      rw [handed_after _ st]
      rintro r (hr | hr)
      · exact ⟨r, Or.inl hr, List.prefix_refl _⟩
      · obtain ⟨r', h1, h2⟩ := handed_mono (split seed 2 1) (Set.subset_univ _) r hr
        exact ⟨r', Or.inr h1, h2⟩
    · have := imageLoop_skip (sampler ds) (m ds) ns st ny0s 0 0 (by omega) (after (split seed 2 0) 2) (split seed 2 1)
      rw [Nat.add_zero] at this
      rw [this]
      exact consumes_pure _ _
  have hd' : Consumes (handed (split seed 2 0) {0}) (mkData (split (split seed 2 0) 2 1)) := by rw [handed_zero]; exact hd _
  have hn' : Consumes (handed (split seed 2 0) {1}) (nnInit (split (split (split seed 2 0) 2 0) 2 1)) := by
    rw [e2, handed, Set.image_singleton]; exact hn _
  have ind2 : ∀ i j, Key.Indep (split (after (split seed 2 0) i) 2 1) (split (after (split seed 2 1) j) 2 1) := fun i j =>
    indep_of_prefix ind ⟨List.replicate i (2, 0) ++ [(2, 1)], by simp [after, split]⟩
      ⟨List.replicate j (2, 0) ++ [(2, 1)], by simp [after, split]⟩
  refine Consumes.freshFrom (key := seed) ?_
  rw [script]
  refine (hd'.bind (fun ds => hn'.bind (fun _ => loop ds) ?_) ?_).mono ?_
  · rintro r ⟨_, rfl, rfl⟩ r' (⟨_, ⟨j, -, rfl⟩, rfl⟩ | ⟨j, -, rfl⟩)
    · exact indep_handed _ (by show 1 ≠ 2 + j; omega)
    · exact ind2 _ _
  · rintro r ⟨_, rfl, rfl⟩ r' (⟨_, rfl, rfl⟩ | ⟨_, ⟨j, -, rfl⟩, rfl⟩ | ⟨j, -, rfl⟩)
    · exact indep_handed _ (by decide)
    · exact indep_handed _ (by show 0 ≠ 2 + j; omega)
    · exact ind2 _ _
  · have pre : ∀ b i, seed <+: split (after (split seed 2 b) i) 2 1 := fun b i =>
      ⟨(2, b) :: (List.replicate i (2, 0) ++ [(2, 1)]), by simp [after, split]⟩
    rintro r (⟨_, -, rfl⟩ | ⟨_, -, rfl⟩ | ⟨_, -, rfl⟩ | ⟨_, -, rfl⟩) <;> exact ⟨seed, rfl, pre _ _⟩

/-! ### The hypotheses can be met -/

open Classical in
/-- Numbers that depend on the length of the key. -/
noncomputable def lengthGen : Gen := fun k β _ _ _ =>
  if h : ℝ = β then some (cast h (1 / (k.length + 1 : ℝ))) else none

theorem lengthGen_uniform (k : Key) : (uniform k).replay lengthGen = some (1 / (k.length + 1 : ℝ)) := by
  rw [uniform, replay_sample, lengthGen, dif_pos rfl]
  rfl

example (seed : Key) : ∃ m : Unit → Method Unit ℝ, ∃ full resumed,
    (script (fun _ => pure ()) (fun _ => pure ()) (fun _ _ => pure ()) m 1 2 0 seed).replay lengthGen = some full ∧
    (script (fun _ => pure ()) (fun _ => pure ()) (fun _ _ => pure ()) m 1 2 1 seed).replay lengthGen = some resumed ∧
    resumed ≠ full.drop 1 := by
  obtain ⟨m, f, r, h1, h2, -, -, h3⟩ := C98_resume_wrong lengthGen seed (lengthGen_uniform _) (lengthGen_uniform _)
    (by
      simp only [samplerKey, split, List.length_append, List.length_replicate, List.length_singleton]
      push_cast
      intro h
      have h4 : (0 : ℝ) ≤ seed.length := Nat.cast_nonneg _
      rw [div_eq_div_iff (by positivity) (by positivity)] at h
      linarith)
  exact ⟨m, f, r, h1, h2, h3⟩

/-- A chain for a uniformly drawn observation: start at the observation, add uniform numbers. -/
noncomputable def walk : Method ℝ ℝ := .chain ℝ (fun k d => (d + ·) <$> uniform k) (fun _ k s => (s + ·) <$> uniform k) fun d s => d + s

example (st : ℕ) (hst : st ≤ 100) (seed : Key) (F : List (ℕ × ℝ × List ℝ) → ℝ≥0∞) :
    FreshFrom seed (script uniform uniform (fun _ => uniform) (fun _ => walk) 10 100 st seed) ∧
    (script uniform uniform (fun _ => uniform) (fun _ => walk) 10 100 st seed).E F
      = (script uniform uniform (fun _ => uniform) (fun _ => walk) 10 100 0 seed).E fun l => F (l.drop st) := by
  have hp : ∀ k, (uniform k).IsProb := fun k => ⟨inferInstance, fun _ => trivial⟩
  have hc : ∀ k, Consumes {k} (uniform k) := fun k => consumes_sample _ _ _
  have hk : KeyedMethod walk := ⟨fun k d => (hc k).map _, fun _ k s => (hc k).map _⟩
  have hl : LawFree walk := ⟨fun k k' d φ => by rw [E_map, E_map]; rfl, fun d k k' s φ => by rw [E_map, E_map]; rfl⟩
  have hw : ProbMethod walk := ⟨fun k d => (hp k).bind fun _ => trivial, fun d k s => (hp k).bind fun _ => trivial⟩
  exact ⟨C98_keys hc hc (fun _ => hc) (fun _ => hk) 10 100 st seed,
    C98_resume_law uniform uniform (fun _ => hp) (fun _ => hl) (fun _ => hw) 10 hst seed F⟩

/-- The generator can run the whole script. -/
example (seed : Key) : ∃ full, (script uniform uniform (fun _ => uniform) (fun _ => walk) 1 2 0 seed).replay lengthGen = some full ∧
    full.length = 2 := by
  have h : ∃ full, (script uniform uniform (fun _ => uniform) (fun _ => walk) 1 2 0 seed).replay lengthGen = some full := by
    simp [script, imageLoop, Method.run, chainLoop, walk, lengthGen_uniform]
  obtain ⟨full, h⟩ := h
  exact ⟨full, h, (C98_entries lengthGen uniform uniform (fun _ => uniform) (fun _ => walk) 1 2 0 seed h).1⟩

end Props
end Fbs
