import Verif.Props.Gibbs
import Verif.Props.Filters
import Verif.Props.Smoother

/-!
# C16: where the output of `gibbs_init` comes from
-/

namespace Fbs
namespace Props

open Jax Spec Gibbs Smc

variable {N K : ℕ} {U V Z : Type}

/-- **C16, provenance of the initial state.**  Every output of `gibbs_init` comes from one run `xss` of the bootstrap
filter with stratified resampling along the reversed path of `y` (or its bridge): `'filter'` and `'smoother'` return as
`x0` the first particle of the *last* time, `'smoother'` returns a path which at every time passes through one of the
particles of that time, `'filter'` the reversed first part of a forward path started at that particle and `y0`, and
`'debug'` the particles themselves. -/
theorem C16_init_particles [NeZero N] (m : Gibbs.Funs N U V Z) (hm : PathLen m K) (method : String) (margY : Bool)
    (key : Key) (y0 : V) (x0 : U) (ts : Arr1 ℝ) (ht : ts.2.length = K) {out : InitOut N U}
    (h : (gibbsInit m method margY key y0 x0 ts).Returns (.ok out)) :
    ∃ p vs xss nell, (m.fwd (split key 6 0) x0 y0).Returns p ∧
      (margY = false → vs = (m.unpack p).2.reverse) ∧ vs.2.length = K ∧
      (bootstrapFilter ⟨fun _ _ _ => m.normal (split key 6 2) N, m.transSampler, m.lik⟩ Resampling.stratified vs ts
        (split key 6 3) true false).Returns (.path xss nell) ∧ xss.2.length = K ∧
      ((method = "filter" ∧ ∃ us, out = .traj (xss.last 0) us ∧ us.length = K + 1 ∧
          ∃ path, (m.fwd (split key 6 4) (xss.last 0) y0).Returns path ∧ us = (m.unpack path).1.toList.reverse) ∨
       (method = "smoother" ∧ ∃ us, out = .traj (xss.last 0) us ∧
          List.Forall₂ (fun u xs => ∃ i, u = xs i) us xss.toList) ∨
       (method = "debug" ∧ out = .debug xss)) := by
  rw [gibbsInit] at h
  obtain ⟨p, hp, h⟩ := Rand.returns_bind.1 h
  obtain ⟨vs, hvs, hvl, h⟩ : ∃ vs, (margY = false → vs = (m.unpack p).2.reverse) ∧ vs.2.length = K ∧
      (gibbsInitRest m method key y0 ts vs).Returns (.ok out) := by
    cases margY
    · exact ⟨_, fun _ => rfl, by rw [arr1_reverse_len, (hm.fwd _ _ _ _ hp).2], h⟩
    · obtain ⟨vs, hv, h⟩ := Rand.returns_bind.1 h
      obtain ⟨b, hb, rfl⟩ := Rand.returns_map.1 hv
      exact ⟨_, fun e => by simp at e, by rw [arr1_reverse_len, hm.bridge _ _ _ _ _ hb], h⟩
  refine ⟨p, vs, ?_⟩
  have hrows : ∀ {o}, (bootstrapFilter ⟨fun _ _ _ => m.normal (split key 6 2) N, m.transSampler, m.lik⟩
      Resampling.stratified vs ts (split key 6 3) true false).Returns o →
      ∃ xss nell, o = .path xss nell ∧ xss.2.length = K := by
    intro o ho
    obtain ⟨xss, nell, e, hl, -⟩ := C19_rows _ _ vs ts _ _ (by rw [ht, hvl]) ho
    exact ⟨xss, nell, e, by simpa [Arr1.toList, hvl] using hl⟩
  unfold gibbsInitRest at h
  split_ifs at h with h1 h2 h3
  · simp only [Rand.returns_bind, Rand.pure_eq, Rand.returns_ret] at h
    obtain ⟨o, ho, path, hpath, e⟩ := h
    rw [C19_return_last, Rand.returns_map] at ho
    obtain ⟨o, ho, rfl⟩ := ho
    obtain ⟨xss, nell, rfl, hl⟩ := hrows ho
    simp only [Except.ok.injEq] at e
    refine ⟨xss, nell, hp, hvs, hvl, ho, hl, .inl ⟨h1, _, e, ?_, path, hpath, rfl⟩⟩
    simp [Arr1.toList, (hm.fwd _ _ _ _ hpath).1]
  · simp only [Rand.returns_bind, Rand.pure_eq, Rand.returns_ret] at h
    obtain ⟨o, ho, us, hus, e⟩ := h
    obtain ⟨xss, nell, rfl, hl⟩ := hrows ho
    simp only [Except.ok.injEq] at e
    exact ⟨xss, nell, hp, hvs, hvl, ho, hl, .inr (.inl ⟨h2, us, e,
      (C25_particles _ _ _ _ _ (by rw [hl, hvl]) (by rw [hl, ht]) us hus).2⟩)⟩
  · simp only [Rand.returns_bind, Rand.pure_eq, Rand.returns_ret] at h
    obtain ⟨o, ho, e⟩ := h
    obtain ⟨xss, nell, rfl, hl⟩ := hrows ho
    simp only [Except.ok.injEq] at e
    exact ⟨xss, nell, hp, hvs, hvl, ho, hl, .inr (.inr ⟨h3, e⟩)⟩
  · simp [Rand.pure_eq, Rand.returns_ret] at h

/-- The hypotheses are met by the walk of `Props/Gibbs.lean`, and the call does return. -/
example : ∃ out : InitOut 4 ℝ, (gibbsInit (walkFuns 4) "smoother" false [] 0 1 (0, [1])).Returns (.ok out) ∧
    ∃ x us, out = .traj x us ∧ us.length = 2 := by
  have hl : (gibbsInit (walkFuns 4) "smoother" false [] 0 1 (0, [1])).Live := by
    have hne : ("smoother" : String) ≠ "filter" := by decide
    refine ((allLive_walk 4).fwd _ _ _).bind fun p => ?_
    refine Rand.Live.bind (Rand.live_pure _) fun vs => ?_
    simp only [gibbsInitRest, if_neg hne, if_true]
    refine Rand.Live.bind ?_ fun o => Rand.Live.bind ?_ fun us => Rand.live_pure _
    · unfold bootstrapFilter
      refine Rand.Live.bind ((allLive_walk 4).normal _ 4) fun x => ?_
      simp only [Bool.false_eq_true, if_false]
      refine Rand.Live.bind (Rand.Live.scan (fun s i => ?_) _ _) fun _ => Rand.live_pure _
      exact Rand.Live.bind ((allLive_walk 4).trans _ i.2.1 i.2.2.1 _) fun _ =>
        Rand.Live.bind (Rand.Live.map _ (live_uniforms _ 4)) fun _ => Rand.live_pure _
    · exact (Rand.live_sample ⟨0, Set.mem_univ _⟩).bind fun i => (Rand.Live.scan (fun s i => (live_choice _ _).bind
        fun _ => Rand.live_pure _) _ _).bind fun _ => Rand.live_pure _
  obtain ⟨r, hr⟩ := hl.returns
  rcases r with e | out
  · have := (C16_init_methods _ _ _ _ _ _ _ hr).1 ⟨e, rfl⟩
    simp at this
  · refine ⟨out, hr, ?_⟩
    obtain ⟨p, vs, xss, nell, -, -, -, -, hx, h⟩ := C16_init_particles (walkFuns 4) (pathLen_walk 4) "smoother" false []
      0 1 (0, [1]) rfl hr
    rcases h with ⟨h, -⟩ | ⟨-, us, e, hf⟩ | ⟨h, -⟩
    · simp at h
    · exact ⟨_, us, e, by rw [hf.length_eq, Arr1.toList, List.length_cons, hx]⟩
    · simp at h

end Props
end Fbs
