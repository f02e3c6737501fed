import Verif.Props.Csmc
import Verif.Props.ForceMove
import Verif.Model.Gibbs

/-!
# C16: bookkeeping of the Gibbs kernel, for every draw and every history
-/

namespace Fbs
namespace Spec

open Gibbs

/-- Every path the user samplers can return has `K + 1` rows. -/
structure PathLen {N : ℕ} {U V Z : Type} (m : Gibbs.Funs N U V Z) (K : ℕ) : Prop where
  fwd : ∀ k x y p, (m.fwd k x y).Returns p →
    (m.unpack p).1.2.length = K ∧ (m.unpack p).2.2.length = K
  bridge : ∀ k y y' ts p, (m.bridge k y y' ts).Returns p → p.2.length = K

/-- The forward sampler starts at the x it is given. -/
def StartsAtInput {N : ℕ} {U V Z : Type} (m : Gibbs.Funs N U V Z) : Prop :=
  ∀ k x y p, (m.fwd k x y).Returns p → (m.unpack p).1.1 = x

/-- `History ... x b x' us' b' n`: `n + 1` calls of the kernel lead from the state `x, b` to the returned `x', us', b'`;
every call gets its own key. -/
inductive History {n : ℕ} [NeZero n] {U V Z : Type} (ef : Bool) (m : Gibbs.Funs (rows n ef) U V Z)
    (margY eb : Bool) (y0 : V) (ts : Arr1 ℝ) (x : U) (b : Arr1 (Fin (rows n ef))) :
    U → List U → Arr1 (Fin (rows n ef)) → ℕ → Prop
  | one {key x' us' b' flags} :
      (gibbsKernel ef m margY eb key x y0 b ts).Returns (x', us', b'.toList, flags) →
      History ef m margY eb y0 ts x b x' us' b' 0
  | more {key x' us' b' j x'' us'' b'' flags} : History ef m margY eb y0 ts x b x' us' b' j →
      (gibbsKernel ef m margY eb key x' y0 b' ts).Returns (x'', us'', b''.toList, flags) →
      History ef m margY eb y0 ts x b x'' us'' b'' (j + 1)

end Spec

namespace Props

open Jax Spec Gibbs

variable {n N : ℕ} {U V Z : Type}

theorem arr1_reverse_len {α : Type} (a : Arr1 α) : a.reverse.2.length = a.2.length := by
  simp [Arr1.reverse]

theorem returns_gibbsPaths {ef : Bool} {m : Gibbs.Funs (rows n ef) U V Z} {margY : Bool} {key : Key} {x0 : U}
    {y0 : V} {ts : Arr1 ℝ} {K : ℕ} (hm : PathLen m K) {p : Arr1 U × Arr1 V}
    (h : (gibbsPaths m margY key x0 y0 ts).Returns p) : p.1.2.length = K ∧ p.2.2.length = K := by
  simp only [gibbsPaths, Rand.returns_bind] at h
  obtain ⟨q, hq, h⟩ := h
  cases margY
  · simp only [Bool.false_eq_true, if_false, Rand.pure_eq, Rand.returns_ret] at h
    subst h
    simp only [arr1_reverse_len]
    exact hm.fwd _ _ _ _ hq
  · simp only [if_true, Rand.returns_bind, Rand.pure_eq, Rand.returns_ret] at h
    obtain ⟨b, hb, rfl⟩ := h
    simp only [arr1_reverse_len]
    exact ⟨(hm.fwd _ _ _ _ hq).1, hm.bridge _ _ _ _ _ hb⟩

/-- **C16, one call.**  The returned trajectory and indices have one entry per time, the returned `x0` is the last
entry of the returned trajectory, and the flags say exactly where the indices changed. -/
theorem C16_one_call [NeZero n] (ef : Bool) (m : Gibbs.Funs (rows n ef) U V Z) (margY eb : Bool) (key : Key)
    (x0 : U) (y0 : V) (bs : Arr1 (Fin (rows n ef))) (ts : Arr1 ℝ) (K : ℕ) (hm : PathLen m K)
    (hb : bs.2.length = K) (ht : ts.2.length = K) {x' : U} {us' : List U} {bs' : List (Fin (rows n ef))}
    {flags : List Bool} (h : (gibbsKernel ef m margY eb key x0 y0 bs ts).Returns (x', us', bs', flags)) :
    us'.length = K + 1 ∧ bs'.length = K + 1 ∧ flags.length = K + 1 ∧ us'.getLast? = some x' ∧
    ∀ (k : ℕ) (b b' : Fin (rows n ef)), bs.toList[k]? = some b → bs'[k]? = some b' →
      (flags[k]? = some true ↔ b' ≠ b) ∧ (flags[k]? = some false ↔ b' = b) := by
  have key1 : us'.length = K + 1 ∧ bs'.length = K + 1 ∧ x' = us'.getLastD x0 ∧
      flags = List.zipWith (fun b b' => decide (b ≠ b')) bs' bs.toList := by
    simp only [gibbsKernel, Rand.returns_bind] at h
    obtain ⟨⟨us, vs⟩, hp, h⟩ := h
    obtain ⟨hu, hv⟩ := returns_gibbsPaths hm hp
    cases eb
    · simp only [Bool.false_eq_true, if_false, Rand.returns_bind, Rand.pure_eq, Rand.returns_ret,
        Prod.mk.injEq] at h
      obtain ⟨out, ho, rfl, rfl, rfl, rfl⟩ := h
      obtain ⟨-, -, -, -, -, h1, h2⟩ := C09_kernel_length _ _ _ _ _ us bs vs ts
        ⟨by rw [hb, hu], by rw [hv, hu], by rw [ht, hu]⟩ ho
      exact ⟨by rw [h1, hu], by rw [h2, hu], rfl, rfl⟩
    · simp only [if_true, Rand.returns_bind, Rand.pure_eq, Rand.returns_ret, Prod.mk.injEq] at h
      obtain ⟨out, -, idx, -, path, hpath, ib, -, q, rfl, rfl, rfl, rfl, rfl⟩ := h
      refine ⟨?_, ?_, rfl, rfl⟩
      · simp [Arr1.toList, (hm.fwd _ _ _ _ hpath).1]
      · simp [hu]
  obtain ⟨h1, h2, rfl, rfl⟩ := key1
  have hbl : bs.toList.length = K + 1 := by simp [Arr1.toList, hb]
  refine ⟨h1, h2, by simp [h2, hbl], ?_, ?_⟩
  · rcases List.eq_nil_or_concat us' with h | ⟨l, a, rfl⟩
    · simp [h] at h1
    · simp [List.getLastD_eq_getLast?]
  · intro k b b' hk hk'
    have : (List.zipWith (fun b b' => decide (b ≠ b')) bs' bs.toList)[k]? = some (decide (b' ≠ b)) := by
      rw [List.getElem?_zipWith, hk, hk']
    rw [this]
    simp

/-- **C16, explicit backward.**  The new `x0` is a particle of the last row of the forward pass, selected by
`force_move` on the last weights, if the forward sampler starts at its input. -/
theorem C16_explicit_backward_particle [NeZero n] (ef : Bool) (m : Gibbs.Funs (rows n ef) U V Z) (margY : Bool)
    (key : Key) (x0 : U) (y0 : V) (bs : Arr1 (Fin (rows n ef))) (ts : Arr1 ℝ) (hs : StartsAtInput m)
    {x' : U} {us' : List U} {bs' : List (Fin (rows n ef))} {flags : List Bool}
    (h : (gibbsKernel ef m margY true key x0 y0 bs ts).Returns (x', us', bs', flags)) :
    ∃ us vs As lws uss idx α, (Csmc.forwardPass (csmcFuns ef m us.1 ts.1) CsmcResampling.killing n
        (split (split key 3 1) 4 0) us bs vs ts).Returns (As, lws, uss) ∧
      (forceMove (split (split key 3 1) 4 1) (fun i => Real.exp (lws.last i)) bs.last).Returns (idx, α) ∧
      x' = uss.last idx := by
  simp only [gibbsKernel, Rand.returns_bind] at h
  obtain ⟨⟨us, vs⟩, hp, h⟩ := h
  simp only [if_true, Rand.returns_bind, Rand.pure_eq, Rand.returns_ret, Prod.mk.injEq] at h
  obtain ⟨⟨As, lws, uss⟩, ho, ⟨idx, α⟩, hi, path, hpath, ib, -, q, rfl, rfl, rfl, rfl, rfl⟩ := h
  refine ⟨us, vs, As, lws, uss, idx, α, ho, hi, ?_⟩
  rw [← hs _ _ _ _ hpath]
  simp [Arr1.toList, List.getLastD_eq_getLast?]

/-- **C16, explicit final off or explicit backward on: indices stay below `nparticles`.** -/
theorem C16_indices_partial [NeZero n] (ef : Bool) (m : Gibbs.Funs (rows n ef) U V Z) (margY eb : Bool) (key : Key)
    (x0 : U) (y0 : V) (bs : Arr1 (Fin (rows n ef))) (ts : Arr1 ℝ) (hfl : ef = false ∨ eb = true)
    {x' : U} {us' : List U} {bs' : List (Fin (rows n ef))} {flags : List Bool}
    (h : (gibbsKernel ef m margY eb key x0 y0 bs ts).Returns (x', us', bs', flags)) :
    ∀ b ∈ bs', (b : ℕ) < n := by
  intro b hbm
  rcases hfl with rfl | rfl
  · exact b.2
  · simp only [gibbsKernel, Rand.returns_bind] at h
    obtain ⟨⟨us, vs⟩, hp, h⟩ := h
    simp only [if_true, Rand.returns_bind, Rand.pure_eq, Rand.returns_ret, Prod.mk.injEq] at h
    obtain ⟨out, -, idx, -, path, hpath, ib, -, q, rfl, rfl, rfl, rfl, rfl⟩ := h
    simp only [List.mem_map, List.mem_ofFn] at hbm
    obtain ⟨a, -, rfl⟩ := hbm
    exact a.2

/-- **C16, histories.**  After any number of calls. -/
theorem C16_history [NeZero n] (ef : Bool) (m : Gibbs.Funs (rows n ef) U V Z) (margY eb : Bool)
    (y0 : V) (ts : Arr1 ℝ) (K : ℕ) (hm : PathLen m K) (ht : ts.2.length = K) (x : U)
    (b : Arr1 (Fin (rows n ef))) (hb : b.2.length = K) {x' : U} {us' : List U}
    {b' : Arr1 (Fin (rows n ef))} {j : ℕ} (h : History ef m margY eb y0 ts x b x' us' b' j) :
    us'.length = K + 1 ∧ b'.2.length = K ∧ us'.getLast? = some x' ∧
      (ef = false ∨ eb = true → ∀ i ∈ b'.toList, (i : ℕ) < n) := by
  induction h with
  | one h =>
    obtain ⟨h1, h2, -, h3, -⟩ := C16_one_call ef m margY eb _ _ y0 _ ts K hm hb ht h
    exact ⟨h1, by simpa [Arr1.toList] using h2, h3, fun hfl => C16_indices_partial ef m margY eb _ _ y0 _ ts hfl h⟩
  | more _ h ih =>
    obtain ⟨h1, h2, -, h3, -⟩ := C16_one_call ef m margY eb _ _ y0 _ ts K hm ih.2.1 ht h
    exact ⟨h1, by simpa [Arr1.toList] using h2, h3, fun hfl => C16_indices_partial ef m margY eb _ _ y0 _ ts hfl h⟩

/-! ### The remaining option combination -/

/-- All user samplers can return something, whatever they are asked. -/
structure AllLive (m : Gibbs.Funs N U V Z) : Prop where
  fwd : ∀ k x y, (m.fwd k x y).Live
  bridge : ∀ k y y' ts, (m.bridge k y y' ts).Live
  normal : ∀ k n, (m.normal k n).Live
  trans : ∀ x v t k, (m.transSampler x v t k).Live

theorem live_gibbsPaths {ef : Bool} {m : Gibbs.Funs (rows n ef) U V Z} (hm : AllLive m) (margY : Bool)
    (key : Key) (x0 : U) (y0 : V) (ts : Arr1 ℝ) : (gibbsPaths m margY key x0 y0 ts).Live := by
  refine (hm.fwd _ _ _).bind fun p => ?_
  cases margY
  · trivial
  · exact (hm.bridge _ _ _ _).bind fun _ => trivial

theorem live_gibbsForward [NeZero n] {ef : Bool} {m : Gibbs.Funs (rows n ef) U V Z} (hm : AllLive m) (u : U)
    (t : ℝ) (key : Key) (us : Arr1 U) (bs : Arr1 (Fin (rows n ef))) (vs : Arr1 V) (ts : Arr1 ℝ) :
    (Csmc.forwardPass (csmcFuns ef m u t) CsmcResampling.killing n key us bs vs ts).Live := by
  refine Rand.Live.bind ?_ fun _ => (Rand.Live.scan (fun s i => ?_) _ _).bind fun _ => trivial
  · cases ef
    · trivial
    · exact hm.normal _ _
  · exact (live_killing _ _ _ _ _).bind fun _ => (hm.trans _ _ _ _).bind fun _ => trivial

theorem choiceIdx_zero [NeZero N] {p : Fin N → ℝ} (hp : ∀ i, 0 < p i) : ((choiceIdx p 0 : Fin N) : ℕ) + 1 = N := by
  have hT : 0 < total p := Finset.sum_pos (fun i _ => hp i) ⟨0, Finset.mem_univ _⟩
  have hl : N - 1 < N := Nat.sub_lt (Nat.pos_of_ne_zero (NeZero.ne N)) one_pos
  have h : choiceIdx p 0 = ⟨N - 1, hl⟩ := by
    rw [choiceIdx_eq_iff (fun i => (hp i).le) hT ⟨le_rfl, one_pos⟩]
    have hc : cumsum p ⟨N - 1, hl⟩ = total p := by
      unfold cumsum total
      congr 1
      ext j
      simp only [Finset.mem_Iic, Finset.mem_univ, iff_true, Fin.le_def]
      omega
    have h1 := cumsum_eq p ⟨N - 1, hl⟩
    have h2 := hp ⟨N - 1, hl⟩
    constructor <;> linarith
  rw [h]
  exact Nat.succ_pred_eq_of_ne_zero (NeZero.ne N)

/-- **C16, what fails.**  With `explicit_final=True` and `explicit_backward=False` the last returned index can be
`nparticles`, one more than the documented maximum, whatever the model. -/
theorem C16_index_can_be_nparticles [NeZero n] (m : Gibbs.Funs (rows n true) U V Z) (hm : AllLive m)
    (margY : Bool) (key : Key) (x0 : U) (y0 : V) (bs : Arr1 (Fin (rows n true))) (ts : Arr1 ℝ) :
    ∃ x' us' bs' flags, (gibbsKernel true m margY false key x0 y0 bs ts).Returns (x', us', bs', flags) ∧
      ∃ b, bs'.getLast? = some b ∧ (b : ℕ) = n := by
  obtain ⟨⟨us, vs⟩, hp⟩ := (live_gibbsPaths hm margY key x0 y0 ts).returns
  obtain ⟨⟨As, lws, uss⟩, hf⟩ := (live_gibbsForward hm us.1 ts.1 (split (split key 3 1) 2 0) us bs vs ts).returns
  let B := choiceIdx (Csmc.normalise lws.last) 0
  let r := scan Csmc.scanningBody B (uss.revInit.zip As.reverse)
  have hk : (Csmc.kernel (csmcFuns true m us.1 ts.1) CsmcResampling.killing n false (split key 3 1) us bs vs
      ts).Returns (Arr1.insertReverse (uss.last B) (r.2.map Prod.fst), Arr1.insertReverse B (r.2.map Prod.snd)) := by
    simp only [Csmc.kernel, Rand.returns_bind]
    refine ⟨_, hf, ?_⟩
    simp only [Bool.false_eq_true, if_false, Csmc.backwardScanning, Rand.returns_bind, Rand.pure_eq,
      Rand.returns_ret]
    refine ⟨B, ?_, rfl⟩
    rw [Csmc.barkerMove, choice, Rand.returns_map]
    exact ⟨0, Rand.returns_sample.2 ⟨le_rfl, one_pos⟩, rfl⟩
  refine ⟨_, _, Arr1.insertReverse B (r.2.map Prod.snd), List.zipWith (fun b b' => decide (b ≠ b'))
    (Arr1.insertReverse B (r.2.map Prod.snd)) bs.toList,
    (?_ : Rand.Returns _ ((Arr1.insertReverse (uss.last B) (r.2.map Prod.fst)).getLastD x0,
      Arr1.insertReverse (uss.last B) (r.2.map Prod.fst), _, _)), B, ?_⟩
  · simp only [gibbsKernel, Rand.returns_bind]
    refine ⟨_, hp, ?_⟩
    simp only [Bool.false_eq_true, if_false, Rand.returns_bind, Rand.pure_eq, Rand.returns_ret, Prod.mk.injEq]
    exact ⟨_, hk, rfl, rfl, rfl, rfl⟩
  · have := choiceIdx_zero (p := Csmc.normalise lws.last) fun i => Real.exp_pos _
    have h2 : (B : ℕ) + 1 = n + 1 := this
    exact ⟨by simp [Arr1.insertReverse], by omega⟩

/-! ### `gibbs_init` -/

/-- **C16, refusal.**  An unknown method raises, and the three known ones do not. -/
theorem C16_init_methods [NeZero N] (m : Gibbs.Funs N U V Z) (method : String) (margY : Bool) (key : Key) (y0 : V)
    (x0 : U) (ts : Arr1 ℝ) {r} (h : (gibbsInit m method margY key y0 x0 ts).Returns r) :
    (∃ e, r = .error e) ↔ method ≠ "filter" ∧ method ≠ "smoother" ∧ method ≠ "debug" := by
  have hrest : ∀ vs : Arr1 V, ∀ {r}, ((gibbsInitRest m method key y0 ts vs).Returns r) →
      ((∃ e, r = .error e) ↔ method ≠ "filter" ∧ method ≠ "smoother" ∧ method ≠ "debug") := by
    intro vs r h
    unfold gibbsInitRest at h
    split_ifs at h with h1 h2 h3
    · simp only [Rand.returns_bind, Rand.pure_eq, Rand.returns_ret] at h
      obtain ⟨-, -, -, -, rfl⟩ := h
      simp [h1]
    · simp only [Rand.returns_bind, Rand.pure_eq, Rand.returns_ret] at h
      obtain ⟨-, -, -, -, rfl⟩ := h
      simp [h2]
    · simp only [Rand.returns_bind, Rand.pure_eq, Rand.returns_ret] at h
      obtain ⟨-, -, rfl⟩ := h
      simp [h3]
    · simp only [Rand.pure_eq, Rand.returns_ret] at h
      subst h
      simp [h1, h2, h3]
  rw [gibbsInit] at h
  obtain ⟨p, -, h⟩ := Rand.returns_bind.1 h
  cases margY
  · exact hrest _ h
  · obtain ⟨vs, -, h⟩ := Rand.returns_bind.1 h
    exact hrest vs h

/-- **C16, `gibbs_init(method='filter')`** returns as `x0` the last entry of the returned trajectory, if the forward
sampler starts at its input. -/
theorem C16_init_filter [NeZero N] (m : Gibbs.Funs N U V Z) (hs : StartsAtInput m) (margY : Bool) (key : Key) (y0 : V)
    (x0 : U) (ts : Arr1 ℝ) {r} (h : (gibbsInit m "filter" margY key y0 x0 ts).Returns r) :
    ∃ x us, r = .ok (.traj x us) ∧ us.getLast? = some x := by
  have hrest : ∀ vs : Arr1 V, ((gibbsInitRest m "filter" key y0 ts vs).Returns r) →
      ∃ x us, r = .ok (.traj x us) ∧ us.getLast? = some x := by
    intro vs h
    simp only [gibbsInitRest, if_true, Rand.returns_bind, Rand.pure_eq, Rand.returns_ret] at h
    obtain ⟨out, -, path, hp, rfl⟩ := h
    refine ⟨_, _, rfl, ?_⟩
    simp [Arr1.toList, hs _ _ _ _ hp]
  rw [gibbsInit] at h
  obtain ⟨p, -, h⟩ := Rand.returns_bind.1 h
  cases margY
  · exact hrest _ h
  · obtain ⟨vs, -, h⟩ := Rand.returns_bind.1 h
    exact hrest vs h

/-- Two particles, no noise: the two initial particles are 0 and 1 and never move. -/
noncomputable def stillFuns : Gibbs.Funs 2 ℝ ℝ ℝ where
  fwd _ x _ := pure (x, [])
  unpack p := (p, p)
  bridge _ y _ _ := pure (y, [])
  normal _ _ := pure ![0, 1]
  transSampler x _ _ _ := pure x
  transLogpdf _ _ _ _ _ := 0
  lik _ _ _ _ _ := 0

/-- **C16, what fails in `gibbs_init`.**  With `method='smoother'` (the default) the returned `x0` need not be the last
entry of the returned trajectory. -/
theorem C16_init_smoother_incoherent :
    ∃ x us, (gibbsInit stillFuns "smoother" false [] 0 0 (0, [])).Returns (.ok (.traj x us)) ∧
      us.getLast? ≠ some x := by
  refine ⟨0, [1], ?_, by norm_num⟩
  have h : (gibbsInitRest stillFuns "smoother" [] 0 (0, []) (0, [])).Returns (.ok (.traj 0 [1])) := by
    have hne : ("smoother" : String) ≠ "filter" := by decide
    simp only [gibbsInitRest, if_neg hne, if_true, Rand.returns_bind, Rand.pure_eq, Rand.returns_ret]
    refine ⟨.path (![0, 1], []) 0, ?_, [1], ?_, ?_⟩
    · simp only [Smc.bootstrapFilter, Rand.returns_bind]
      exact ⟨![0, 1], ⟨[], rfl, rfl⟩, by simp [Smc.scanInputs, Rand.scan, Arr1.init]⟩
    · simp only [Smc.backwardSmoother, Rand.returns_bind]
      refine ⟨1, Rand.returns_sample.2 (Set.mem_univ _), ((1 : ℝ), []), ?_, ?_⟩
      · simp [Arr1.revInit, Arr1.init, Arr1.last, Rand.scan]
      · simp [Arr1.last]
    · simp [Arr1.last]
  exact h

/-! ### The hypotheses can be met -/

/-- One step, a forward sampler that adds a uniform number. -/
noncomputable def walkFuns (N : ℕ) : Gibbs.Funs N ℝ ℝ (ℝ × ℝ) where
  fwd k x y := (fun u : ℝ => ((x, y), [(x + u, y + u)])) <$> uniform k
  unpack p := (p.map Prod.fst, p.map Prod.snd)
  bridge _ y y' _ := pure (y, [y'])
  normal k _ := uniforms k N
  transSampler x _ _ k := (fun u i => x i - u i) <$> uniforms k N
  transLogpdf _ _ _ _ _ := 0
  lik v x _ _ i := -(v - x i) ^ 2

theorem pathLen_walk (N : ℕ) : PathLen (walkFuns N) 1 where
  fwd k x y p h := by
    obtain ⟨u, -, rfl⟩ := Rand.returns_map.1 h
    exact ⟨rfl, rfl⟩
  bridge k y y' ts p h := by
    simp only [walkFuns, Rand.pure_eq, Rand.returns_ret] at h
    rw [h]
    rfl

theorem startsAtInput_walk (N : ℕ) : StartsAtInput (walkFuns N) := by
  intro k x y p h
  obtain ⟨u, -, rfl⟩ := Rand.returns_map.1 h
  rfl

theorem allLive_walk (N : ℕ) : AllLive (walkFuns N) where
  fwd k _ _ := (live_uniform k).map _
  bridge _ _ _ _ := trivial
  normal k _ := live_uniforms k N
  trans _ _ _ k := (live_uniforms k N).map _

/-- A call on three particles returns, so that the conclusions of `C16_one_call` are about something. -/
example : ∃ r, (gibbsKernel (n := 3) false (walkFuns 3) false true [] 0 0 ((0, [1]) : Arr1 (Fin 3)) (0, [1])).Returns r ∧
    r.2.1.length = 2 ∧ r.2.1.getLast? = some r.1 := by
  obtain ⟨⟨us, vs⟩, hp⟩ := (live_gibbsPaths (n := 3) (ef := false) (allLive_walk 3) false [] 0 0 (0, [1])).returns
  have hl : (gibbsKernel (n := 3) false (walkFuns 3) false true [] 0 0 ((0, [1]) : Arr1 (Fin 3)) (0, [1])).Live :=
    (live_gibbsPaths (n := 3) (ef := false) (allLive_walk 3) _ _ _ _ _).bind fun p =>
      (live_gibbsForward (n := 3) (ef := false) (allLive_walk 3) _ _ _ _ _ _ _).bind fun out =>
      ((live_choice _ _).bind fun _ => (live_uniform _).bind fun _ => Rand.live_pure _).bind fun idx =>
      ((allLive_walk 3).fwd _ _ _).bind fun path => (Rand.live_sample ⟨fun _ => 0, Set.mem_univ _⟩).bind fun _ => trivial
  obtain ⟨⟨x', us', bs', fl⟩, h⟩ := hl.returns
  obtain ⟨h1, -, -, h2, -⟩ := C16_one_call (n := 3) false (walkFuns 3) false true [] 0 0 ((0, [1]) : Arr1 (Fin 3))
    (0, [1]) 1 (pathLen_walk 3) rfl rfl h
  exact ⟨_, h, h1, h2⟩

end Props
end Fbs
