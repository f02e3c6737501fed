import Verif.Props.Keys

/-!
# C25: the backward particle smoother
-/

namespace Fbs

theorem Rand.returns_scan {σ ι ο : Type} {body : σ → ι → Rand (σ × ο)} {P : ι → ο → Prop}
    (hb : ∀ s i r, (body s i).Returns r → P i r.2) : ∀ (is : List ι) (s : σ) (r : σ × List ο),
    (Rand.scan body s is).Returns r → List.Forall₂ P is r.2
  | [], s, r, h => by
    rw [Rand.scan, Rand.pure_eq, Rand.returns_ret] at h
    subst h
    exact .nil
  | i :: is, s, r, h => by
    rw [Rand.scan] at h
    obtain ⟨a, ha, h⟩ := Rand.returns_bind.1 h
    obtain ⟨b, hb', h⟩ := Rand.returns_bind.1 h
    rw [Rand.pure_eq, Rand.returns_ret] at h
    subst h
    exact .cons (hb _ _ _ ha) (Rand.returns_scan hb is a.1 b hb')

theorem forall₂_zip_left {α β γ : Type} {P : α → γ → Prop} : ∀ {l : List α} {m : List β} {r : List γ},
    l.length = m.length → List.Forall₂ (fun a c => P a.1 c) (l.zip m) r → List.Forall₂ P l r
  | [], [], r, _, h => by simpa using h
  | a :: l, b :: m, r, hl, h => by
    rw [List.zip_cons_cons] at h
    cases h with
    | cons h1 h2 => exact .cons h1 (forall₂_zip_left (by simpa using hl) h2)

namespace Props

open Jax Rand

variable {N : ℕ} {U V : Type}

/-- **C25, particles.**  The smoother returns one state per time, each one of the filter particles of its time. -/
theorem C25_particles [NeZero N] (key : Key) (xss : Arr1 (Fin N → U)) (vs : Arr1 V) (ts : Arr1 ℝ)
    (tl : U → (Fin N → U) → V → ℝ → (Fin N → ℝ)) (hv : vs.2.length = xss.2.length)
    (ht : ts.2.length = xss.2.length) (us : List U)
    (h : (Smc.backwardSmoother key xss vs ts tl).Returns us) :
    us.length = xss.2.length + 1 ∧ List.Forall₂ (fun u xs => ∃ i, u = xs i) us xss.toList := by
  have h2 : List.Forall₂ (fun u xs => ∃ i, u = xs i) us xss.toList := by
    obtain ⟨i, -, h⟩ := returns_bind.1 h
    obtain ⟨r, hr, h⟩ := returns_bind.1 h
    rw [pure_eq, returns_ret] at h
    subst h
    have h1 := returns_scan (P := fun (inp : (Fin N → U) × V × ℝ × Key) u => ∃ i, u = inp.1 i) (by
      intro s i r hr
      obtain ⟨j, -, h⟩ := returns_bind.1 hr
      rw [pure_eq, returns_ret] at h
      subst h
      exact ⟨j, rfl⟩) _ _ _ hr
    have h2 := forall₂_zip_left (P := fun (xs : Fin N → U) u => ∃ i, u = xs i)
      (by simp [Arr1.revInit, Arr1.init, hv, ht, splitAll]) h1
    have h3 : xss.toList = xss.init ++ [xss.last] := by
      simp only [Arr1.toList, Arr1.init, Arr1.last]
      exact (List.dropLast_append_getLast _).symm
    rw [h3]
    refine List.rel_append ?_ (.cons ⟨i, rfl⟩ .nil)
    have h4 := List.rel_reverse h2.flip
    rwa [Arr1.revInit, List.reverse_reverse] at h4
  refine ⟨?_, h2⟩
  rw [h2.length_eq]
  rfl

theorem runs_smoother [NeZero N] {key : Key} {xss : Arr1 (Fin N → U)} {vs : Arr1 V} {ts : Arr1 ℝ}
    {tl : U → (Fin N → U) → V → ℝ → (Fin N → ℝ)} {ks : List Key} {us : List U}
    (h : (Smc.backwardSmoother key xss vs ts tl).Runs ks us) : ∃ (i : Fin N) (ks' : List Key) (r : U × List U),
      ks = key :: ks' ∧ (Rand.scan (Smc.smootherBody tl) (xss.last i) (xss.revInit.zip (vs.revInit.zip
        (ts.revInit.zip (splitAll (split key 2 1) xss.2.length))))).Runs ks' r := by
  obtain ⟨ks₁, i, ks₂, rfl, h1, h⟩ := runs_bind.1 h
  obtain ⟨ks₃, r, ks₄, rfl, h3, h⟩ := runs_bind.1 h
  obtain ⟨rfl, -⟩ := h
  obtain ⟨rfl, -⟩ := runs_sample.1 h1
  exact ⟨i, ks₃, r, by simp, h3⟩

/-- **C25, keys, what holds.**  The first draw consumes the key given to the smoother; the draws of the backward
steps consume fresh keys. -/
theorem C25_step_keys_partial [NeZero N] (key : Key) (xss : Arr1 (Fin N → U)) (vs : Arr1 V) (ts : Arr1 ℝ)
    (tl : U → (Fin N → U) → V → ℝ → (Fin N → ℝ)) (ks : List Key) (us : List U)
    (h : (Smc.backwardSmoother key xss vs ts tl).Runs ks us) :
    ∃ ks', ks = key :: ks' ∧ ks'.Pairwise fun k k' => k ≠ k' ∧ ¬ k <+: k' ∧ ¬ k' <+: k := by
  obtain ⟨i, ks', r, rfl, hs⟩ := runs_smoother h
  refine ⟨ks', rfl, ?_⟩
  refine Consumes.fresh (R := {split key 2 1}) (Consumes.scan_sublist (n := xss.2.length)
    (fun i : (Fin N → U) × V × ℝ × Key => i.2.2.2) ?_ _ _ ?_) ks' r hs
  · exact fun s i => (consumes_choice _ _).bind_pure _
  · exact map_zip_sublist (map_zip_sublist (zip_map_snd_sublist _ _) _) _

/-- **C25, keys, what fails.**  With at least one backward step, every run draws the last state with a key from
which the keys of the other draws are derived, so the keys are not fresh. -/
theorem C25_keys_not_fresh [NeZero N] (key : Key) (xss : Arr1 (Fin N → U)) (vs : Arr1 V) (ts : Arr1 ℝ)
    (tl : U → (Fin N → U) → V → ℝ → (Fin N → ℝ)) (hx : xss.2 ≠ []) (hv : vs.2.length = xss.2.length)
    (ht : ts.2.length = xss.2.length) : ¬ Spec.FreshKeys (Smc.backwardSmoother key xss vs ts tl) := by
  intro hf
  have hl : (Smc.backwardSmoother key xss vs ts tl).Live :=
    (live_sample ⟨0, Set.mem_univ _⟩).bind fun i => (Live.scan (fun s i => (live_choice _ _).bind
      fun _ => live_pure _) _ _).bind fun _ => live_pure _
  obtain ⟨us, ks, h⟩ := hl.returns
  have hp := hf ks us h
  obtain ⟨i, ks', r, rfl, hs⟩ := runs_smoother h
  have hlen : (xss.revInit.zip (vs.revInit.zip (ts.revInit.zip
      (splitAll (split key 2 1) xss.2.length)))).length = xss.2.length := by
    simp [Arr1.revInit, Arr1.init, hv, ht, splitAll]
  rcases hz : xss.revInit.zip (vs.revInit.zip (ts.revInit.zip
      (splitAll (split key 2 1) xss.2.length))) with _ | ⟨a, l⟩
  · rw [hz] at hlen
    exact hx (List.length_eq_zero_iff.1 hlen.symm)
  · have hsub := map_zip_sublist (map_zip_sublist (zip_map_snd_sublist ts.revInit
      (splitAll (split key 2 1) xss.2.length)) vs.revInit) xss.revInit
    rw [hz] at hs hsub
    rw [Rand.scan] at hs
    obtain ⟨ks₁, b, ks₂, rfl, h1, -⟩ := runs_bind.1 hs
    obtain ⟨ks₃, j, ks₄, rfl, h2, -⟩ := runs_bind.1 h1
    obtain ⟨z, hz, -⟩ := runs_map.1 h2
    obtain ⟨rfl, -⟩ := runs_sample.1 hz
    have hmem : a.2.2.2 ∈ splitAll (split key 2 1) xss.2.length := hsub.subset (by simp)
    have hpre : key <+: a.2.2.2 :=
      List.IsPrefix.trans (l₂ := split key 2 1) ⟨_, rfl⟩ (prefix_of_mem_splitAll hmem)
    exact ((List.pairwise_cons.1 hp).1 a.2.2.2 (by simp)).2.1 hpre

/-- The hypotheses can be met: three particles, two steps; a run exists and its result has three states. -/
example : ∃ us, (Smc.backwardSmoother (N := 3) (U := ℝ) (V := ℝ) [] (fun i => i, [fun i => i, fun i => 2 * i])
      (0, [1, 2]) (0, [1, 2]) fun _ _ _ _ _ => 0).Returns us ∧ us.length = 3 := by
  have hl : (Smc.backwardSmoother (N := 3) (U := ℝ) (V := ℝ) [] (fun i => i, [fun i => i, fun i => 2 * i])
      (0, [1, 2]) (0, [1, 2]) fun _ _ _ _ _ => 0).Live :=
    (live_sample ⟨0, Set.mem_univ _⟩).bind fun i => (Live.scan (fun s i => (live_choice _ _).bind
      fun _ => live_pure _) _ _).bind fun _ => live_pure _
  obtain ⟨us, h⟩ := hl.returns
  have := (C25_particles _ _ _ _ _ (by simp) (by simp) us h).1
  exact ⟨us, h, this⟩

end Props
end Fbs
