import Verif.Lemmas.Csmc
import Verif.Lemmas.Live
import Verif.Props.Killing

/-!
# Structural properties of the CSMC kernel (C07, C08, C09)

All theorems here hold for every admissible outcome of every draw.
-/

namespace Fbs
namespace Props

open Jax Spec Csmc

variable {N : ℕ} {U V : Type}

/-- Look up one entry in each row: row `k` of `rows` at index `k` of `idx`. -/
def pick {α : Type} (rows : List (Fin N → α)) (idx : List (Fin N)) : List α :=
  List.zipWith (fun row b => row b) rows idx

/-- The resampling scheme always obeys its conditioning: `A[j] = i`. -/
def Pins (res : CondResampling N) : Prop :=
  ∀ key w i j A, (res key w i j true).Returns A → A j = i

theorem pins_killing [NeZero N] : Pins (CsmcResampling.killing (n := N)) :=
  fun _ _ _ _ _ h => C06_killing_pins h

theorem pins_multinomial [NeZero N] : Pins (CsmcResampling.multinomial (n := N)) :=
  fun _ _ _ _ _ h => C06_multinomial_pins h

/-! ### C08 -/

/-- **C08a.** `normalise` returns strictly positive weights that sum to one. -/
theorem C08_normalise_weights [NeZero N] (lw : Fin N → ℝ) :
    (∀ i, 0 < normalise lw i) ∧ ∑ i, normalise lw i = 1 :=
  ⟨normalise_pos lw, (normalise_weights lw).sum_one⟩

/-- **C08b.** `normalise` ignores an additive constant. -/
theorem C08_normalise_shift [NeZero N] (lw : Fin N → ℝ) (c : ℝ) :
    normalise (fun i => lw i + c) = normalise lw := by
  funext i
  simp only [normalise_eq, Real.exp_add]
  rw [← Finset.sum_mul, mul_div_mul_right _ _ (Real.exp_pos c).ne']

/-- **C08c.** `normalise` preserves and reflects the order of the weights, and their ratios. -/
theorem C08_normalise_order [NeZero N] (lw : Fin N → ℝ) (i j : Fin N) :
    (normalise lw i ≤ normalise lw j ↔ lw i ≤ lw j) ∧
    normalise lw i / normalise lw j = Real.exp (lw i - lw j) := by
  constructor
  · unfold normalise normaliseLog
    rw [Real.exp_le_exp, sub_le_sub_iff_right]
  · unfold normalise normaliseLog
    rw [← Real.exp_sub]
    congr 1
    ring

theorem fwd_logw_rows {m : Funs N U V} {res : CondResampling N} (is : List (StepIn N U V)) :
    ∀ {lw : Fin N → ℝ} {x : Fin N → U} {s os}, (Rand.scan (scanBody m res) (lw, x) is).Returns (s, os) →
      ∀ o ∈ os, ∃ l, o.1 = normaliseLog l := by
  induction is with
  | nil =>
    intro lw x s os h
    obtain ⟨-, rfl⟩ := returns_scan_nil.1 h
    simp
  | cons i is ih =>
    intro lw x s os h
    obtain ⟨r, os', hr, h', rfl⟩ := returns_scan_cons.1 h
    obtain ⟨v, vp, t, b, b', k, u⟩ := i
    obtain ⟨A, -, raw, -, rfl⟩ := returns_scanBody.1 hr
    intro o ho
    rcases List.mem_cons.1 ho with rfl | ho
    · exact ⟨_, rfl⟩
    · exact ih h' o ho

/-- **C08d.** Every row of the log weights returned by `forward_pass` exponentiates to a strictly
positive probability vector, whatever the draws and the user's log-likelihoods are. -/
theorem C08_forward_pass_weights [NeZero N] (m : Funs N U V) (res : CondResampling N) (n : ℕ) (key : Key)
    (us : Arr1 U) (bs : Arr1 (Fin N)) (vs : Arr1 V) (ts : Arr1 ℝ) {As lws uss}
    (h : (forwardPass m res n key us bs vs ts).Returns (As, lws, uss)) :
    ∀ lw ∈ lws.toList, (∀ i, 0 < Real.exp (lw i)) ∧ ∑ i, Real.exp (lw i) = 1 := by
  have key' : ∀ l : Fin N → ℝ, (∀ i, 0 < Real.exp (normaliseLog l i)) ∧
      ∑ i, Real.exp (normaliseLog l i) = 1 := C08_normalise_weights
  simp only [forwardPass, Rand.returns_bind, Rand.pure_eq, Rand.returns_ret, Prod.mk.injEq] at h
  obtain ⟨us0, -, ⟨s, os⟩, hos, -, rfl, -⟩ := h
  intro lw hlw
  rcases List.mem_cons.1 hlw with rfl | hlw
  · exact key' _
  · obtain ⟨o, ho, rfl⟩ := List.mem_map.1 hlw
    obtain ⟨l, hl⟩ := fwd_logw_rows _ hos o ho
    rw [hl]
    exact key' _

/-! ### C07 -/

/-- What one row of the forward pass has to satisfy, given the previous one. -/
structure RowOk (m : Funs N U V) (res : CondResampling N) (lw : Fin N → ℝ) (x : Fin N → U) (v v' : V)
    (t : ℝ) (b b' : Fin N) (u' : U) (A : Fin N → Fin N) (lw' : Fin N → ℝ) (x' : Fin N → U) : Prop where
  /-- the ancestors come from the resampling scheme run on the previous weights -/
  resampled : ∃ key, (res key (fun i => Real.exp (lw i)) b b' true).Returns A
  /-- the reference slot is overwritten, all the other particles come from the transition sampler
  applied to the resampled particles -/
  moved : ∃ key raw, (m.transSampler (fun i => x (A i)) v t key).Returns raw ∧ x' b' = u' ∧
    ∀ i, i ≠ b' → x' i = raw i
  /-- the new weights are the normalised likelihoods of the resampled particles -/
  weighted : lw' = normaliseLog (m.lik v' (fun i => x (A i)) v t)

theorem fwd_rows {m : Funs N U V} {res : CondResampling N} (us : List U) :
    ∀ {bs : List (Fin N)} {vs : List V} {ts : List ℝ} {ks : List Key} {u b v t lw x s os},
    bs.length = us.length → vs.length = us.length → ts.length = us.length → ks.length = us.length →
    (Rand.scan (scanBody m res) (lw, x) (scanInputs (u, us) (b, bs) (v, vs) (t, ts) ks)).Returns (s, os) →
    os.length = us.length ∧
    ∀ (k : ℕ) (A : Fin N → Fin N) (lw₀ lw₁ : Fin N → ℝ) (x₀ x₁ : Fin N → U) (v₀ v₁ : V) (t₀ : ℝ)
      (b₀ b₁ : Fin N) (u₁ : U),
      (os.map fun o => o.2.1)[k]? = some A →
      (lw :: os.map fun o => o.1)[k]? = some lw₀ → (lw :: os.map fun o => o.1)[k + 1]? = some lw₁ →
      (x :: os.map fun o => o.2.2)[k]? = some x₀ → (x :: os.map fun o => o.2.2)[k + 1]? = some x₁ →
      (v :: vs)[k]? = some v₀ → (v :: vs)[k + 1]? = some v₁ → (t :: ts)[k]? = some t₀ →
      (b :: bs)[k]? = some b₀ → (b :: bs)[k + 1]? = some b₁ → (u :: us)[k + 1]? = some u₁ →
      RowOk m res lw₀ x₀ v₀ v₁ t₀ b₀ b₁ u₁ A lw₁ x₁ := by
  induction us with
  | nil =>
    intro bs vs ts ks u b v t lw x s os hb hv ht hk h
    simp only [List.length_nil, List.length_eq_zero_iff] at hb hv ht hk
    subst hb hv ht hk
    rw [scanInputs_nil] at h
    obtain ⟨-, rfl⟩ := returns_scan_nil.1 h
    refine ⟨rfl, fun k A => ?_⟩
    intros
    simp_all
  | cons u' us ih =>
    intro bs vs ts ks u b v t lw x s os hb hv ht hk h
    obtain ⟨b', bs, rfl⟩ := List.exists_cons_of_length_eq_add_one hb
    obtain ⟨v', vs, rfl⟩ := List.exists_cons_of_length_eq_add_one hv
    obtain ⟨t', ts, rfl⟩ := List.exists_cons_of_length_eq_add_one ht
    obtain ⟨k', ks, rfl⟩ := List.exists_cons_of_length_eq_add_one hk
    rw [scanInputs_cons] at h
    obtain ⟨r, os', hr, h', rfl⟩ := returns_scan_cons.1 h
    obtain ⟨A, hA, raw, hraw, rfl⟩ := returns_scanBody.1 hr
    obtain ⟨hlen, hrows⟩ := ih (by simpa using hb) (by simpa using hv) (by simpa using ht)
      (by simpa using hk) h'
    refine ⟨by simp [hlen], fun k => ?_⟩
    cases k with
    | zero =>
      intro A' lw₀ lw₁ x₀ x₁ v₀ v₁ t₀ b₀ b₁ u₁ h1 h2 h3 h4 h5 h6 h7 h8 h9 h10 h11
      simp only [List.map_cons, List.getElem?_cons_zero, zero_add, List.getElem?_cons_succ,
        Option.some.injEq] at h1 h2 h3 h4 h5 h6 h7 h8 h9 h10 h11
      subst h1 h2 h3 h4 h5 h6 h7 h8 h9 h10 h11
      refine ⟨⟨_, hA⟩, ⟨_, raw, hraw, ?_, ?_⟩, rfl⟩
      · simp [atSet]
      · intro i hi; simp [atSet, hi]
    | succ k =>
      intro A' lw₀ lw₁ x₀ x₁ v₀ v₁ t₀ b₀ b₁ u₁ h1 h2 h3 h4 h5 h6 h7 h8 h9 h10 h11
      exact hrows k A' lw₀ lw₁ x₀ x₁ v₀ v₁ t₀ b₀ b₁ u₁ (by simpa using h1) (by simpa using h2)
        (by simpa using h3) (by simpa using h4) (by simpa using h5) (by simpa using h6)
        (by simpa using h7) (by simpa using h8) (by simpa using h9) (by simpa using h10)
        (by simpa using h11)

/-- Equal leading sizes, as `jax.lax.scan` demands. -/
def SameLen (us : Arr1 U) (bs : Arr1 (Fin N)) (vs : Arr1 V) (ts : Arr1 ℝ) : Prop :=
  bs.2.length = us.2.length ∧ vs.2.length = us.2.length ∧ ts.2.length = us.2.length

/-- **C07a.** Shapes, initial row, and the relation of each row of `forward_pass` to the previous
one. -/
theorem C07_forward_pass_rows (m : Funs N U V) (res : CondResampling N) (n : ℕ) (key : Key)
    (us : Arr1 U) (bs : Arr1 (Fin N)) (vs : Arr1 V) (ts : Arr1 ℝ) (hl : SameLen us bs vs ts) {As lws uss}
    (h : (forwardPass m res n key us bs vs ts).Returns (As, lws, uss)) :
    As.length = us.2.length ∧ lws.2.length = us.2.length ∧ uss.2.length = us.2.length ∧
    (∃ raw, (m.initSampler (split key 2 0) (n + 1)).Returns raw ∧ uss.1 bs.1 = us.1 ∧
      ∀ i, i ≠ bs.1 → uss.1 i = raw i) ∧
    ∀ (k : ℕ) (A : Fin N → Fin N) (lw₀ lw₁ : Fin N → ℝ) (x₀ x₁ : Fin N → U) (v₀ v₁ : V) (t₀ : ℝ)
      (b₀ b₁ : Fin N) (u₁ : U),
      As[k]? = some A →
      lws.toList[k]? = some lw₀ → lws.toList[k + 1]? = some lw₁ →
      uss.toList[k]? = some x₀ → uss.toList[k + 1]? = some x₁ →
      vs.toList[k]? = some v₀ → vs.toList[k + 1]? = some v₁ → ts.toList[k]? = some t₀ →
      bs.toList[k]? = some b₀ → bs.toList[k + 1]? = some b₁ → us.toList[k + 1]? = some u₁ →
      RowOk m res lw₀ x₀ v₀ v₁ t₀ b₀ b₁ u₁ A lw₁ x₁ := by
  simp only [forwardPass, Rand.returns_bind, Rand.pure_eq, Rand.returns_ret, Prod.mk.injEq] at h
  obtain ⟨us0, h0, ⟨s, os⟩, hos, rfl, rfl, rfl⟩ := h
  obtain ⟨u, us⟩ := us
  obtain ⟨b, bs⟩ := bs
  obtain ⟨v, vs⟩ := vs
  obtain ⟨t, ts⟩ := ts
  obtain ⟨hb, hv, ht⟩ := hl
  obtain ⟨hlen, hrows⟩ := fwd_rows us hb hv ht (by simp [splitAll]) hos
  refine ⟨by simpa using hlen, by simpa using hlen, by simpa using hlen, ⟨us0, h0, ?_, ?_⟩, hrows⟩
  · simp [atSet]
  · intro i hi; simp only at hi; simp [atSet, hi]

theorem fwd_retained {m : Funs N U V} {res : CondResampling N} (hres : Pins res) (us : List U) :
    ∀ {bs : List (Fin N)} {vs : List V} {ts : List ℝ} {ks : List Key} {u b v t lw x s os},
    bs.length = us.length → vs.length = us.length → ts.length = us.length → ks.length = us.length →
    (Rand.scan (scanBody m res) (lw, x) (scanInputs (u, us) (b, bs) (v, vs) (t, ts) ks)).Returns (s, os) →
    pick (os.map fun o => o.2.2) bs = us ∧ pick (os.map fun o => o.2.1) bs = (b :: bs).dropLast := by
  induction us with
  | nil =>
    intro bs vs ts ks u b v t lw x s os hb hv ht hk h
    simp only [List.length_nil, List.length_eq_zero_iff] at hb hv ht hk
    subst hb hv ht hk
    rw [scanInputs_nil] at h
    obtain ⟨-, rfl⟩ := returns_scan_nil.1 h
    simp [pick]
  | cons u' us ih =>
    intro bs vs ts ks u b v t lw x s os hb hv ht hk h
    obtain ⟨b', bs, rfl⟩ := List.exists_cons_of_length_eq_add_one hb
    obtain ⟨v', vs, rfl⟩ := List.exists_cons_of_length_eq_add_one hv
    obtain ⟨t', ts, rfl⟩ := List.exists_cons_of_length_eq_add_one ht
    obtain ⟨k', ks, rfl⟩ := List.exists_cons_of_length_eq_add_one hk
    rw [scanInputs_cons] at h
    obtain ⟨r, os', hr, h', rfl⟩ := returns_scan_cons.1 h
    obtain ⟨A, hA, raw, hraw, rfl⟩ := returns_scanBody.1 hr
    obtain ⟨h1, h2⟩ := ih (by simpa using hb) (by simpa using hv) (by simpa using ht)
      (by simpa using hk) h'
    simp only [pick, List.map_cons, List.zipWith_cons_cons, List.dropLast_cons_cons] at h1 h2 ⊢
    rw [h1, h2, hres _ _ _ _ _ hA]
    simp [atSet]

/-- **C07b.** The reference trajectory sits at its indices in every row of particles, and its indices
form a lineage under the returned ancestors. -/
theorem C07_reference_retained (m : Funs N U V) (res : CondResampling N) (hres : Pins res) (n : ℕ)
    (key : Key) (us : Arr1 U) (bs : Arr1 (Fin N)) (vs : Arr1 V) (ts : Arr1 ℝ)
    (hl : SameLen us bs vs ts) {As lws uss}
    (h : (forwardPass m res n key us bs vs ts).Returns (As, lws, uss)) :
    pick uss.toList bs.toList = us.toList ∧ pick As bs.2 = bs.init := by
  simp only [forwardPass, Rand.returns_bind, Rand.pure_eq, Rand.returns_ret, Prod.mk.injEq] at h
  obtain ⟨us0, h0, ⟨s, os⟩, hos, rfl, rfl, rfl⟩ := h
  obtain ⟨u, us⟩ := us
  obtain ⟨b, bs⟩ := bs
  obtain ⟨v, vs⟩ := vs
  obtain ⟨t, ts⟩ := ts
  obtain ⟨hb, hv, ht⟩ := hl
  obtain ⟨h1, h2⟩ := fwd_retained hres us hb hv ht (by simp [splitAll]) hos
  refine ⟨?_, h2⟩
  simp only [pick, Arr1.toList, List.zipWith_cons_cons] at h1 ⊢
  rw [h1]
  simp [atSet]

/-! ### C09 -/

theorem scanning_spec {α : Type} : ∀ (B : Fin N) (rows : List (Fin N → α)) (As : List (Fin N → Fin N)),
    rows.length = As.length →
    let r := scan scanningBody B (rows.zip As)
    r.2.map Prod.fst = pick rows (r.2.map Prod.snd) ∧
    r.2.map Prod.snd = pick As (B :: r.2.map Prod.snd).dropLast ∧ r.2.length = As.length
  | B, [], [], _ => by simp [scan, pick]
  | B, row :: rows, A :: As, h => by
    obtain ⟨h1, h2, h3⟩ := scanning_spec (A B) rows As (by simpa using h)
    simp only [List.zip_cons_cons, scan, scanningBody, List.map_cons, pick, List.zipWith_cons_cons,
      List.dropLast_cons_cons, List.length_cons] at h1 h2 h3 ⊢
    refine ⟨by rw [h1], ?_, by rw [h3]⟩
    rw [← h2]

theorem pick_reverse {α : Type} (rows : List (Fin N → α)) (idx : List (Fin N))
    (h : rows.length = idx.length) : pick rows.reverse idx.reverse = (pick rows idx).reverse := by
  unfold pick
  rw [List.reverse_zipWith h]

theorem arr1_reverse {α : Type} (a : Arr1 α) : a.toList.reverse = a.last :: a.revInit := by
  obtain ⟨x, xs⟩ := a
  simp only [Arr1.toList, Arr1.last, Arr1.revInit, Arr1.init]
  conv_lhs => rw [← List.dropLast_append_getLast (List.cons_ne_nil x xs)]
  simp

theorem revInit_length {α : Type} (a : Arr1 α) : a.revInit.length = a.2.length := by
  simp [Arr1.revInit, Arr1.init]

/-- A pair of lists (states, indices) is a genuine trajectory through the particle array `xss`. -/
def Genuine (xss : Arr1 (Fin N → U)) (out : List U × List (Fin N)) : Prop :=
  out.2.length = xss.2.length + 1 ∧ out.1 = pick xss.toList out.2

/-- **C09a.** `backward_scanning_pass` returns `K+1` states and indices with `xs[k] = uss[k, Bs[k]]`
and `Bs[k-1] = A_k[Bs[k]]`. -/
theorem C09_backward_scanning [NeZero N] (key : Key) (As : List (Fin N → Fin N)) (xss : Arr1 (Fin N → U))
    (lw : Fin N → ℝ) (hl : As.length = xss.2.length) {out}
    (h : (backwardScanning key As xss lw).Returns out) :
    Genuine xss out ∧ out.2.dropLast = pick As out.2.tail := by
  simp only [backwardScanning, Rand.returns_bind, Rand.pure_eq, Rand.returns_ret] at h
  obtain ⟨B, -, rfl⟩ := h
  obtain ⟨h1, h2, h3⟩ := scanning_spec B xss.revInit As.reverse (by simp [revInit_length, hl])
  set r := scan scanningBody B (xss.revInit.zip As.reverse)
  have hrow : xss.toList = (xss.last :: xss.revInit).reverse := by
    rw [← arr1_reverse, List.reverse_reverse]
  refine ⟨⟨by simp [Arr1.insertReverse, h3, hl], ?_⟩, ?_⟩
  · rw [hrow]
    simp only [Arr1.insertReverse]
    rw [pick_reverse _ _ (by simp [h3, revInit_length, hl]), h1]
    congr 1
  · have e1 : (Arr1.insertReverse B (r.2.map Prod.snd)).dropLast = (r.2.map Prod.snd).reverse := by
      simp [Arr1.insertReverse]
    have e2 : (Arr1.insertReverse B (r.2.map Prod.snd)).tail
        = ((B :: r.2.map Prod.snd).dropLast).reverse := by
      simp only [Arr1.insertReverse, List.tail_reverse]
    simp only [e1, e2]
    conv_lhs => rw [h2]
    rw [← pick_reverse _ _ (by simp [h3])]
    simp

theorem sampling_spec [NeZero N] {m : Funs N U V} :
    ∀ (is : List (Key × (Fin N → U) × (Fin N → ℝ) × V × ℝ)) {x : U} {s os},
    (Rand.scan (samplingBody m) x is).Returns (s, os) →
    os.length = is.length ∧ os.map Prod.fst = pick (is.map fun i => i.2.1) (os.map Prod.snd)
  | [], x, s, os, h => by
    obtain ⟨-, rfl⟩ := returns_scan_nil.1 h
    simp [pick]
  | (k, xs, lw, v, t) :: is, x, s, os, h => by
    obtain ⟨r, os', hr, h', rfl⟩ := returns_scan_cons.1 h
    simp only [samplingBody, Rand.returns_bind, Rand.pure_eq, Rand.returns_ret] at hr
    obtain ⟨B, -, rfl⟩ := hr
    obtain ⟨h1, h2⟩ := sampling_spec is h'
    simp only [pick] at h2
    simp [h1, h2, pick]

/-- **C09b.** `backward_sampling_pass` returns `K+1` states and indices with `xs[k] = uss[k, Bs[k]]`. -/
theorem C09_backward_sampling [NeZero N] (m : Funs N U V) (key : Key) (vs : Arr1 V) (ts : Arr1 ℝ)
    (uss : Arr1 (Fin N → U)) (lws : Arr1 (Fin N → ℝ)) (hw : lws.2.length = uss.2.length)
    (hv : vs.2.length = uss.2.length) (ht : ts.2.length = uss.2.length) {out}
    (h : (backwardSampling m key vs ts uss lws).Returns out) : Genuine uss out := by
  simp only [backwardSampling, Rand.returns_bind, Rand.pure_eq, Rand.returns_ret] at h
  obtain ⟨B, -, ⟨s, os⟩, hos, rfl⟩ := h
  obtain ⟨h1, h2⟩ := sampling_spec _ hos
  have hrow : uss.toList = (uss.last :: uss.revInit).reverse := by
    rw [← arr1_reverse, List.reverse_reverse]
  have hlen : os.length = uss.2.length := by
    rw [h1]
    simp [splitAll, revInit_length, hw, hv, ht]
  have hmap : ((((splitAll key (uss.2.length + 1)).dropLast).zip (uss.revInit.zip
      (lws.revInit.zip (vs.revInit.zip ts.revInit)))).map fun i => i.2.1) = uss.revInit := by
    have : (fun i : Key × (Fin N → U) × (Fin N → ℝ) × V × ℝ => i.2.1) = Prod.fst ∘ Prod.snd := rfl
    rw [this, ← List.map_map, List.map_snd_zip, List.map_fst_zip]
    · simp [revInit_length, hw, hv, ht]
    · simp [splitAll, revInit_length, hw, hv, ht]
  refine ⟨by simp [Arr1.insertReverse, hlen], ?_⟩
  rw [hrow]
  simp only [Arr1.insertReverse]
  rw [hmap] at h2
  rw [pick_reverse _ _ (by simp [hlen, revInit_length]), h2]
  congr 1

/-- **C09c / C07c.** The kernel returns a genuine trajectory of `K+1` states whatever the draws. -/
theorem C09_kernel_length [NeZero N] (m : Funs N U V) (res : CondResampling N) (n : ℕ) (bw : Bool)
    (key : Key) (us : Arr1 U) (bs : Arr1 (Fin N)) (vs : Arr1 V) (ts : Arr1 ℝ)
    (hl : SameLen us bs vs ts) {out}
    (h : (kernel m res n bw key us bs vs ts).Returns out) :
    ∃ As lws uss, (forwardPass m res n (split key 2 0) us bs vs ts).Returns (As, lws, uss) ∧
      Genuine uss out ∧ out.1.length = us.2.length + 1 ∧ out.2.length = us.2.length + 1 := by
  simp only [kernel, Rand.returns_bind] at h
  obtain ⟨⟨As, lws, uss⟩, hf, hb⟩ := h
  obtain ⟨l1, l2, l3, -, -⟩ := C07_forward_pass_rows m res n _ us bs vs ts hl hf
  have hg : Genuine uss out := by
    cases bw with
    | true =>
      exact C09_backward_sampling m _ vs ts uss lws (by rw [l2, l3]) (by rw [l3, hl.2.1])
        (by rw [l3, hl.2.2]) hb
    | false => exact (C09_backward_scanning _ As uss _ (by rw [l1, l3]) hb).1
  refine ⟨As, lws, uss, hf, hg, ?_, by rw [hg.1, l3]⟩
  rw [hg.2]
  simp [pick, Arr1.toList, hg.1, l3]

theorem scanning_unique {α : Type} : ∀ (B : Fin N) (Bs : List (Fin N)) (rows : List (Fin N → α))
    (As : List (Fin N → Fin N)), rows.length = Bs.length → As.length = Bs.length →
    pick As (B :: Bs).dropLast = Bs →
    (scan scanningBody B (rows.zip As)).2.map Prod.snd = Bs ∧
    (scan scanningBody B (rows.zip As)).2.map Prod.fst = pick rows Bs
  | B, [], [], [], _, _, _ => by simp [scan, pick]
  | B, B' :: Bs, row :: rows, A :: As, h1, h2, h => by
    simp only [pick, List.dropLast_cons_cons, List.zipWith_cons_cons, List.cons.injEq] at h
    obtain ⟨hA, h⟩ := h
    obtain ⟨e1, e2⟩ := scanning_unique B' Bs rows As (by simpa using h1) (by simpa using h2) h
    simp only [List.zip_cons_cons, scan, scanningBody, List.map_cons, hA, e1, e2, pick,
      List.zipWith_cons_cons, and_self]

/-- **C07c.** Tracing the ancestors from the last reference index reproduces the reference trajectory
and its indices. -/
theorem C07_trace_reference (m : Funs N U V) (res : CondResampling N) (hres : Pins res) (n : ℕ)
    (key : Key) (us : Arr1 U) (bs : Arr1 (Fin N)) (vs : Arr1 V) (ts : Arr1 ℝ)
    (hl : SameLen us bs vs ts) {As lws uss}
    (h : (forwardPass m res n key us bs vs ts).Returns (As, lws, uss)) :
    let r := scan scanningBody bs.last (uss.revInit.zip As.reverse)
    Arr1.insertReverse (uss.last bs.last) (r.2.map Prod.fst) = us.toList ∧
    Arr1.insertReverse bs.last (r.2.map Prod.snd) = bs.toList := by
  obtain ⟨l1, l2, l3, -, -⟩ := C07_forward_pass_rows m res n _ us bs vs ts hl h
  obtain ⟨h1, h2⟩ := C07_reference_retained m res hres n key us bs vs ts hl h
  have hbs : bs.toList = (bs.last :: bs.revInit).reverse := by
    rw [← arr1_reverse, List.reverse_reverse]
  have hd : (bs.last :: bs.revInit).dropLast = bs.2.reverse := by
    rw [← arr1_reverse]
    simp [Arr1.toList]
  have hu := scanning_unique bs.last bs.revInit uss.revInit As.reverse
    (by simp [revInit_length, l3, hl.1]) (by simp [revInit_length, l1, hl.1])
    (by rw [hd, pick_reverse _ _ (by rw [l1, hl.1]), h2]; rfl)
  obtain ⟨e1, e2⟩ := hu
  simp only [e1, e2]
  refine ⟨?_, hbs.symm⟩
  rw [← h1, hbs]
  have hrow : uss.toList = (uss.last :: uss.revInit).reverse := by
    rw [← arr1_reverse, List.reverse_reverse]
  rw [hrow, pick_reverse _ _ (by simp [revInit_length, l3, hl.1])]
  rfl

/-! ### Concrete runs meeting the hypotheses -/

/-- With three particles, three times and the killing scheme the forward pass has results, and they
retain the reference `(1/2, 1, 3/2)` at the positions `(2, 0, 1)`. -/
example (key : Key) : ∃ As lws uss,
    (forwardPass (modelFuns exampleModel 3) CsmcResampling.killing 2 key (1/2, [1, 3/2]) (2, [0, 1])
      (0, [1, 2]) (0, [1, 2])).Returns (As, lws, uss) ∧
    pick uss.toList [2, 0, 1] = [1/2, 1, 3/2] ∧ pick As [0, 1] = [2, 0] := by
  obtain ⟨⟨As, lws, uss⟩, h⟩ := (live_forwardPass (N := 3) exampleModel live_killing 2 key (1/2, [1, 3/2])
    (2, [0, 1]) (0, [1, 2]) (0, [1, 2])).returns
  exact ⟨As, lws, uss, h, C07_reference_retained (N := 3) (U := ℝ) (V := ℝ) (modelFuns exampleModel 3) _ pins_killing 2 key (1/2, [1, 3/2])
    (2, [0, 1]) (0, [1, 2]) (0, [1, 2]) ⟨rfl, rfl, rfl⟩ h⟩

/-- Both variants of the kernel return trajectories of three states. -/
example (key : Key) (bw : Bool) : ∃ out,
    (kernel (modelFuns exampleModel 3) CsmcResampling.killing 2 bw key (1/2, [1, 3/2]) (2, [0, 1])
      (0, [1, 2]) (0, [1, 2])).Returns out ∧ out.1.length = 3 := by
  obtain ⟨out, h⟩ := (live_kernel (N := 3) exampleModel live_killing 2 bw key (1/2, [1, 3/2])
    (2, [0, 1]) (0, [1, 2]) (0, [1, 2])).returns
  obtain ⟨_, _, _, _, _, h1, _⟩ := C09_kernel_length (N := 3) (U := ℝ) (V := ℝ) (modelFuns exampleModel 3) _ 2 bw key
    (1/2, [1, 3/2]) (2, [0, 1]) (0, [1, 2]) (0, [1, 2]) ⟨rfl, rfl, rfl⟩ h
  exact ⟨out, h, h1⟩

end Props
end Fbs
