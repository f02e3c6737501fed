import Verif.Lemmas.Keys
import Verif.Lemmas.Live

/-!
# Key discipline: C24, and the key part of C25
-/

namespace Fbs
namespace Spec

/-- In every run, no key is consumed twice and no consumed key was derived from another one by
splitting. -/
def FreshKeys {α : Type} (p : Rand α) : Prop :=
  ∀ ks a, p.Runs ks a → ks.Pairwise fun k k' => k ≠ k' ∧ ¬ k <+: k' ∧ ¬ k' <+: k

end Spec

open Rand

theorem Key.Indep.not_prefix {k k' : Key} (h : Key.Indep k k') : ¬ k <+: k' := by
  rintro ⟨a, rfl⟩
  exact Key.not_indep_append k a h

theorem Rand.Consumes.fresh {α : Type} {R : Set Key} {p : Rand α} (h : Consumes R p) : Spec.FreshKeys p :=
  fun ks a hr => (h ks a hr).1.imp fun hk =>
    ⟨fun he => Key.not_indep_self _ (he ▸ hk), hk.not_prefix, hk.symm.not_prefix⟩

namespace Props

open Jax

variable {n N : ℕ} {U V X Y Z : Type}

/-! ### Primitives and resampling -/

theorem consumes_uniform (k : Key) : Consumes {k} (uniform k) := consumes_sample _ _ _
theorem consumes_uniforms (k : Key) (n : ℕ) : Consumes {k} (uniforms k n) := consumes_sample _ _ _
theorem consumes_choice [NeZero n] (k : Key) (p : Fin n → ℝ) : Consumes {k} (choice k p) :=
  (consumes_uniform k).map _
theorem consumes_choices [NeZero n] (k : Key) (p : Fin n → ℝ) (m : ℕ) : Consumes {k} (choices k p m) :=
  (consumes_uniforms k m).map _
theorem consumes_randints (k : Key) (m n : ℕ) : Consumes {k} (randints k m n) := consumes_sample _ _ _
theorem consumes_randint (k : Key) (n : ℕ) : Consumes {k} (randint k n) := consumes_sample _ _ _

theorem consumes_systematic [NeZero n] (w : Fin n → ℝ) (k : Key) : Consumes {k} (Resampling.systematic w k) :=
  (consumes_uniform k).map _
theorem consumes_stratified [NeZero n] (w : Fin n → ℝ) (k : Key) : Consumes {k} (Resampling.stratified w k) :=
  (consumes_uniforms k n).map _
theorem consumes_multinomial [NeZero n] (w : Fin n → ℝ) (k : Key) :
    Consumes {k} (Resampling.multinomial w k) := (consumes_uniforms k _).map _

theorem consumes_killing [NeZero n] (w : Fin n → ℝ) (k : Key) : Consumes {k} (Resampling.killing w k) :=
  Consumes.bind_split (i := 0) (j := 1) (by decide) (consumes_uniforms _ _)
    fun _ => (consumes_choices _ _ _).bind_pure _

theorem consumes_csmc_killing [NeZero n] (k : Key) (w : Fin n → ℝ) (i j : Fin n) (c : Bool) :
    Consumes {k} (CsmcResampling.killing k w i j c) := by
  unfold CsmcResampling.killing
  have h3 : ∀ (u : Fin n → ℝ) (ch : Fin n → Fin n), Consumes (pieces k 3 {2}) (if c then (do
      let J ← choice (split k 3 2) (CsmcResampling.jProb w i)
      pure (atSet (roll (Resampling.killingIdx w u ch) ((j : ℤ) - (J : ℤ))) j i)) else
      pure (Resampling.killingIdx w u ch)) := by
    intro u ch
    cases c
    · exact consumes_pure _ _
    · exact ((consumes_choice _ _).bind_pure _).piece
  refine Consumes.of_pieces (n := 3) (s := {0} ∪ ({1} ∪ {2})) ?_
  exact Consumes.bind_pieces (by simp) (consumes_uniforms _ _).piece fun u =>
    Consumes.bind_pieces (by simp) (consumes_choices _ _ _).piece fun ch => h3 u ch

theorem consumes_csmc_multinomial [NeZero n] (k : Key) (w : Fin n → ℝ) (i j : Fin n) (c : Bool) :
    Consumes {k} (CsmcResampling.multinomial k w i j c) := (consumes_choices _ _ _).bind_pure _

/-- **C24, resampling.** -/
theorem C24_resampling_keys [NeZero n] (w : Fin n → ℝ) (k : Key) (i j : Fin n) (c : Bool) :
    Spec.FreshKeys (Resampling.systematic w k) ∧ Spec.FreshKeys (Resampling.stratified w k) ∧
    Spec.FreshKeys (Resampling.multinomial w k) ∧ Spec.FreshKeys (Resampling.killing w k) ∧
    Spec.FreshKeys (CsmcResampling.killing k w i j c) ∧ Spec.FreshKeys (CsmcResampling.multinomial k w i j c) :=
  ⟨(consumes_systematic w k).fresh, (consumes_stratified w k).fresh, (consumes_multinomial w k).fresh,
    (consumes_killing w k).fresh, (consumes_csmc_killing k w i j c).fresh,
    (consumes_csmc_multinomial k w i j c).fresh⟩

theorem consumes_forceMove [NeZero n] (k : Key) (w : Fin n → ℝ) (i : Fin n) :
    Consumes {k} (Gibbs.forceMove k w i) :=
  Consumes.bind_split (i := 0) (j := 1) (by decide) (consumes_choice _ _)
    fun _ => (consumes_uniform _).bind_pure _

/-- **C24, force_move.** -/
theorem C24_force_move_keys [NeZero n] (k : Key) (w : Fin n → ℝ) (i : Fin n) :
    Spec.FreshKeys (Gibbs.forceMove k w i) := (consumes_forceMove k w i).fresh

/-! ### Conditional SMC -/

theorem zip_map_snd_sublist {α β : Type} : ∀ (l : List α) (m : List β), ((l.zip m).map Prod.snd).Sublist m
  | [], m => by simp
  | _ :: _, [] => by simp
  | a :: l, b :: m => by simpa using zip_map_snd_sublist l m

theorem zip_map_fst_sublist {α β : Type} : ∀ (l : List α) (m : List β), ((l.zip m).map Prod.fst).Sublist l
  | [], m => by simp
  | _ :: _, [] => by simp
  | a :: l, b :: m => by simpa using zip_map_fst_sublist l m

theorem map_zip_sublist {α β γ : Type} {m : List β} {g : β → γ} {k : List γ} (h : (m.map g).Sublist k)
    (l : List α) : ((l.zip m).map fun a => g a.2).Sublist k := by
  have := ((zip_map_snd_sublist l m).map g).trans h
  rwa [List.map_map] at this

/-- The user's samplers consume only (independent descendants of) the key they are given. -/
structure CsmcKeyed (m : Csmc.Funs N U V) : Prop where
  init : ∀ k n, Consumes {k} (m.initSampler k n)
  trans : ∀ x v t k, Consumes {k} (m.transSampler x v t k)

theorem consumes_scanBody {m : Csmc.Funs N U V} (hm : CsmcKeyed m) {res : Csmc.CondResampling N}
    (hres : ∀ k w i j, Consumes {k} (res k w i j true)) (c : (Fin N → ℝ) × (Fin N → U))
    (inp : Csmc.StepIn N U V) : Consumes {inp.2.2.2.2.2.1} (Csmc.scanBody m res c inp) :=
  Consumes.bind_split (i := 0) (j := 1) (by decide) (hres _ _ _ _) fun _ => (hm.trans _ _ _ _).bind_pure _

theorem consumes_forwardPass {m : Csmc.Funs N U V} (hm : CsmcKeyed m) {res : Csmc.CondResampling N}
    (hres : ∀ k w i j, Consumes {k} (res k w i j true)) (ns : ℕ) (key : Key) (us : Arr1 U)
    (bs : Arr1 (Fin N)) (vs : Arr1 V) (ts : Arr1 ℝ) :
    Consumes {key} (Csmc.forwardPass m res ns key us bs vs ts) := by
  refine Consumes.bind_split (i := 0) (j := 1) (by decide) (hm.init _ _) fun x => Consumes.bind_pure ?_ _
  refine Consumes.scan_sublist (n := us.2.length) (fun i : Csmc.StepIn N U V => i.2.2.2.2.2.1)
    (consumes_scanBody hm hres) _ _ ?_
  unfold Csmc.scanInputs
  exact map_zip_sublist (map_zip_sublist (map_zip_sublist (map_zip_sublist (map_zip_sublist
    (zip_map_fst_sublist _ _) _) _) _) _) _

theorem consumes_backwardScanning [NeZero N] (key : Key) (As : List (Fin N → Fin N)) (xss : Arr1 (Fin N → U))
    (l : Fin N → ℝ) : Consumes {key} (Csmc.backwardScanning key As xss l) :=
  (consumes_choice _ _).bind_pure _

theorem consumes_backwardSampling [NeZero N] (m : Csmc.Funs N U V) (key : Key) (vs : Arr1 V) (ts : Arr1 ℝ)
    (uss : Arr1 (Fin N → U)) (ls : Arr1 (Fin N → ℝ)) :
    Consumes {key} (Csmc.backwardSampling m key vs ts uss ls) := by
  unfold Csmc.backwardSampling
  refine ((Consumes.bind (R' := {k | k ∈ (splitAll key (uss.2.length + 1)).dropLast})
    (consumes_choice _ _) (fun BT => Consumes.bind_pure ?_ _)) ?_).mono ?_
  · have hk := Consumes.scan (fun i : Key × (Fin N → U) × (Fin N → ℝ) × V × ℝ => i.1)
      (body := Csmc.samplingBody m) (fun s i => (consumes_choice _ _).bind_pure _)
      ((splitAll key (uss.2.length + 1)).dropLast.zip
        (uss.revInit.zip (ls.revInit.zip (vs.revInit.zip ts.revInit)))) (uss.last BT)
      ((pairwise_splitAll _ _).sublist ((zip_map_fst_sublist _ _).trans (List.dropLast_sublist _)))
    exact hk.mono fun r hr => ⟨r, (zip_map_fst_sublist _ _).subset hr, List.prefix_refl _⟩
  · rintro r rfl r' hr'
    have h1 : (splitAll key (uss.2.length + 1)).dropLast = (List.range uss.2.length).map
        (split key (uss.2.length + 1)) := by
      simp [splitAll, List.range_succ]
    rw [h1] at hr'
    obtain ⟨i, hi, rfl⟩ := List.mem_map.1 hr'
    exact Key.indep_split _ _ (List.mem_range.1 hi).ne'
  · rintro r (rfl | hr)
    · exact ⟨key, rfl, ⟨_, rfl⟩⟩
    · exact ⟨key, rfl, prefix_of_mem_splitAll ((List.dropLast_sublist _).subset hr)⟩

theorem consumes_csmc_kernel [NeZero N] {m : Csmc.Funs N U V} (hm : CsmcKeyed m)
    {res : Csmc.CondResampling N} (hres : ∀ k w i j, Consumes {k} (res k w i j true)) (ns : ℕ) (b : Bool)
    (key : Key) (us : Arr1 U) (bs : Arr1 (Fin N)) (vs : Arr1 V) (ts : Arr1 ℝ) :
    Consumes {key} (Csmc.kernel m res ns b key us bs vs ts) := by
  refine Consumes.bind_split (i := 0) (j := 1) (by decide) (consumes_forwardPass hm hres _ _ _ _ _ _)
    fun out => ?_
  cases b
  · exact consumes_backwardScanning _ _ _ _
  · exact consumes_backwardSampling _ _ _ _ _ _

/-- **C24, csmc_kernel** with killing, both backward passes. -/
theorem C24_csmc_kernel_keys [NeZero N] {m : Csmc.Funs N U V} (hm : CsmcKeyed m) (ns : ℕ) (b : Bool)
    (key : Key) (us : Arr1 U) (bs : Arr1 (Fin N)) (vs : Arr1 V) (ts : Arr1 ℝ) :
    Spec.FreshKeys (Csmc.kernel m CsmcResampling.killing ns b key us bs vs ts) ∧
    Spec.FreshKeys (Csmc.kernel m CsmcResampling.multinomial ns b key us bs vs ts) :=
  ⟨(consumes_csmc_kernel hm (fun k w i j => consumes_csmc_killing k w i j true) ns b key us bs vs ts).fresh,
    (consumes_csmc_kernel hm (fun k w i j => consumes_csmc_multinomial k w i j true) ns b key us bs vs
      ts).fresh⟩

/-! ### Filters -/

/-- The user's samplers consume only (independent descendants of) the key they are given. -/
structure SmcKeyed (m : Smc.Funs N U V) : Prop where
  init : ∀ k v n, Consumes {k} (m.initSampler k v n)
  trans : ∀ x v t k, Consumes {k} (m.transSampler x v t k)

theorem smc_inputs_sublist (vs : Arr1 V) (ts : Arr1 ℝ) (ks : List Key) :
    ((Smc.scanInputs vs ts ks).map fun i => i.2.2.2).Sublist ks :=
  map_zip_sublist (map_zip_sublist (zip_map_snd_sublist _ _) _) _

theorem consumes_filterScan {ο : Type} {m : Smc.Funs N U V}
    (hm : ∀ x v t k, Consumes {k} (m.transSampler x v t k)) {res : Smc.Resampling N}
    (hres : ∀ w k, Consumes {k} (res w k)) (emit : (Fin N → U) → ο) (key : Key) (K : ℕ)
    (vs : Arr1 V) (ts : Arr1 ℝ) (s : (Fin N → U) × ℝ) :
    Consumes {key} (Rand.scan (Smc.filterBody m res emit) s (Smc.scanInputs vs ts (splitAll key K))) :=
  Consumes.scan_sublist (n := K) (fun i : Smc.StepIn V => i.2.2.2)
    (fun _ _ => Consumes.bind_split (i := 0) (j := 1) (by decide) (hm _ _ _ _)
      fun _ => (hres _ _).bind_pure _) _ _ (smc_inputs_sublist _ _ _)

theorem consumes_bootstrapFilter {m : Smc.Funs N U V} (hm : SmcKeyed m) {res : Smc.Resampling N}
    (hres : ∀ w k, Consumes {k} (res w k)) (vs : Arr1 V) (ts : Arr1 ℝ) (key : Key) (log rl : Bool) :
    Consumes {key} (Smc.bootstrapFilter m res vs ts key log rl) := by
  refine Consumes.bind_split (i := 0) (j := 1) (by decide) (hm.init _ _ _) fun x => ?_
  cases rl
  · exact (consumes_filterScan hm.trans hres _ _ _ _ _ _).bind_pure _
  · exact (consumes_filterScan hm.trans hres _ _ _ _ _ _).bind_pure _

/-- **C24, bootstrap_filter.** -/
theorem C24_bootstrap_filter_keys {m : Smc.Funs N U V} (hm : SmcKeyed m) {res : Smc.Resampling N}
    (hres : ∀ w k, Consumes {k} (res w k)) (vs : Arr1 V) (ts : Arr1 ℝ) (key : Key) (log rl : Bool) :
    Spec.FreshKeys (Smc.bootstrapFilter m res vs ts key log rl) :=
  (consumes_bootstrapFilter hm hres vs ts key log rl).fresh

theorem consumes_pmcmcFilterStep {m : Smc.Funs N U V} (hm : SmcKeyed m) {res : Smc.Resampling N}
    (hres : ∀ w k, Consumes {k} (res w k)) (key : Key) (vs : Arr1 V) (u0s : Fin N → U) (ts : Arr1 ℝ) :
    Consumes {key} (Smc.pmcmcFilterStep m res key vs u0s ts) :=
  (Consumes.scan_sublist (n := ts.2.length) (fun i : Smc.StepIn V => i.2.2.2)
    (fun _ _ => Consumes.bind_split (i := 1) (j := 0) (by decide) (hres _ _)
      fun _ => (hm.trans _ _ _ _).bind_pure _) _ _ (smc_inputs_sublist _ _ _)).bind_pure _

theorem consumes_pcn {W : Type} [AddCommGroup W] [Module ℝ W] (key : Key) (d : ℝ) (x mean : W)
    {sampler : Key → Rand W} (hs : ∀ k, Consumes {k} (sampler k)) :
    Consumes {key} (Smc.pcnProposal key d x mean sampler) :=
  Consumes.bind_split (i := 0) (j := 1) (by decide) (hs _) fun _ => (hs _).bind_pure _

theorem consumes_pmcmcKernel {K : ℕ} [AddCommGroup V] [Module ℝ V] {m : Smc.Funs N U V} (hm : SmcKeyed m)
    {res : Smc.Resampling N} (hres : ∀ w k, Consumes {k} (res w k)) (key : Key) (uT : U) (l : ℝ)
    (ys : Fin (K + 1) → V) (y0 : V) (ts : Fin (K + 1) → ℝ) {fwd : Key → V → Rand (Fin (K + 1) → V)}
    (hf : ∀ k y, Consumes {k} (fwd k y)) (mean : ℝ → ℝ → V → V) (delta : Option ℝ) (i : Fin N) :
    Consumes {key} (Smc.pmcmcKernel m res key uT l ys y0 ts fwd mean delta i) := by
  refine Consumes.of_pieces (n := 4) (s := {0} ∪ (({1} ∪ {2}) ∪ {3})) ?_
  refine Consumes.bind_pieces (by simp) (Consumes.piece ?_) fun prop =>
    Consumes.bind_pieces (by simp) (Consumes.bind_pieces (by simp) (hm.init _ _ _).piece fun u0s =>
      ((consumes_pmcmcFilterStep hm hres _ _ _ _).bind_pure _).piece) fun out =>
    ((consumes_uniform _).bind_pure _).piece
  cases delta with
  | none => exact hf _ _
  | some d => exact consumes_pcn _ _ _ _ fun k => hf k y0

/-- **C24, pmcmc_kernel**, with and without the PCN proposal. -/
theorem C24_pmcmc_kernel_keys {K : ℕ} [AddCommGroup V] [Module ℝ V] {m : Smc.Funs N U V} (hm : SmcKeyed m)
    {res : Smc.Resampling N} (hres : ∀ w k, Consumes {k} (res w k)) (key : Key) (uT : U) (l : ℝ)
    (ys : Fin (K + 1) → V) (y0 : V) (ts : Fin (K + 1) → ℝ) {fwd : Key → V → Rand (Fin (K + 1) → V)}
    (hf : ∀ k y, Consumes {k} (fwd k y)) (mean : ℝ → ℝ → V → V) (delta : Option ℝ) (i : Fin N) :
    Spec.FreshKeys (Smc.pmcmcKernel m res key uT l ys y0 ts fwd mean delta i) :=
  (consumes_pmcmcKernel hm hres key uT l ys y0 ts hf mean delta i).fresh

theorem consumes_twistedSmc {m : Smc.TwistedFuns N X Y} (hi : ∀ k n, Consumes {k} (m.initSampler k n))
    (hp : ∀ k x t y, Consumes {k} (m.propSampler k x t y)) {res : Smc.Resampling N}
    (hres : ∀ w k, Consumes {k} (res w k)) (key : Key) (y : Y) (ts : Arr1 ℝ) :
    Consumes {key} (Smc.twistedSmc m res key y ts) := by
  refine Consumes.bind_split (i := 0) (j := 1) (by decide) (hi _ _) fun x => Consumes.bind_pure ?_ _
  exact Consumes.scan_sublist (n := ts.2.length) (fun i : Key × ℝ => i.1)
    (fun _ _ => Consumes.bind_split (i := 0) (j := 1) (by decide) (hres _ _)
      fun _ => (hp _ _ _ _).bind_pure _) _ _ (zip_map_fst_sublist _ _)

/-- **C24, twisted_smc.** -/
theorem C24_twisted_smc_keys {m : Smc.TwistedFuns N X Y} (hi : ∀ k n, Consumes {k} (m.initSampler k n))
    (hp : ∀ k x t y, Consumes {k} (m.propSampler k x t y)) {res : Smc.Resampling N}
    (hres : ∀ w k, Consumes {k} (res w k)) (key : Key) (y : Y) (ts : Arr1 ℝ) :
    Spec.FreshKeys (Smc.twistedSmc m res key y ts) := (consumes_twistedSmc hi hp hres key y ts).fresh

/-! ### The Gibbs kernel -/

/-- The user's samplers consume only (independent descendants of) the key they are given. -/
structure GibbsKeyed (m : Gibbs.Funs N U V Z) : Prop where
  fwd : ∀ k x y, Consumes {k} (m.fwd k x y)
  bridge : ∀ k y yT ts, Consumes {k} (m.bridge k y yT ts)
  normal : ∀ k n, Consumes {k} (m.normal k n)
  trans : ∀ x v t k, Consumes {k} (m.transSampler x v t k)

theorem consumes_gibbsKernel [NeZero n] (ef : Bool) {m : Gibbs.Funs (Gibbs.rows n ef) U V Z}
    (hm : GibbsKeyed m) (margY eb : Bool) (key : Key) (x0 : U) (y0 : V)
    (bs : Arr1 (Fin (Gibbs.rows n ef))) (ts : Arr1 ℝ) :
    Consumes {key} (Gibbs.gibbsKernel ef m margY eb key x0 y0 bs ts) := by
  refine Consumes.of_pieces (n := 3) (s := ({0} ∪ {2}) ∪ {1}) ?_
  refine Consumes.bind_pieces (by simp) ?_ fun p => ?_
  · refine Consumes.bind_pieces (by simp) (hm.fwd _ _ _).piece fun path => ?_
    cases margY
    · exact consumes_pure _ _
    · exact ((hm.bridge _ _ _ _).bind_pure _).piece
  · have hc : CsmcKeyed (Gibbs.csmcFuns ef m p.1.1 ts.1) := by
      refine ⟨fun k ns => ?_, hm.trans⟩
      cases ef
      · exact consumes_pure _ _
      · exact hm.normal k ns
    cases eb
    · exact ((consumes_csmc_kernel hc (fun k w i j => consumes_csmc_killing k w i j true) _ _ _ _ _ _
        _).bind_pure _).piece
    · refine (Consumes.of_pieces (n := 4) (s := {0} ∪ ({1} ∪ ({2} ∪ {3}))) ?_).piece
      exact Consumes.bind_pieces (by simp) (consumes_forwardPass hc
          (fun k w i j => consumes_csmc_killing k w i j true) _ _ _ _ _ _).piece fun out =>
        Consumes.bind_pieces (by simp) (consumes_forceMove _ _ _).piece fun idx =>
        Consumes.bind_pieces (by simp) (hm.fwd _ _ _).piece fun path =>
        ((consumes_randints _ _ _).bind_pure _).piece

/-- **C24, gibbs_kernel**, for all settings of the flags. -/
theorem C24_gibbs_kernel_keys [NeZero n] (ef : Bool) {m : Gibbs.Funs (Gibbs.rows n ef) U V Z}
    (hm : GibbsKeyed m) (margY eb : Bool) (key : Key) (x0 : U) (y0 : V)
    (bs : Arr1 (Fin (Gibbs.rows n ef))) (ts : Arr1 ℝ) :
    Spec.FreshKeys (Gibbs.gibbsKernel ef m margY eb key x0 y0 bs ts) :=
  (consumes_gibbsKernel ef hm margY eb key x0 y0 bs ts).fresh

/-- **C24, gibbs_init**, for every method except the smoother (see C25). -/
theorem C24_gibbs_init_keys [NeZero N] {m : Gibbs.Funs N U V Z} (hm : GibbsKeyed m) (method : String)
    (hs : method ≠ "smoother") (margY : Bool) (key : Key) (y0 : V) (x0 : U) (ts : Arr1 ℝ) :
    Spec.FreshKeys (Gibbs.gibbsInit m method margY key y0 x0 ts) := by
  have hf : ∀ (vs : Arr1 V) (b : Bool), Consumes (pieces key 6 ({2} ∪ {3})) (Smc.bootstrapFilter
      ⟨fun _ _ _ => m.normal (split key 6 2) N, m.transSampler, m.lik⟩ Resampling.stratified vs ts
      (split key 6 3) true b) := by
    intro vs b
    refine Consumes.bind_pieces (by simp) (hm.normal _ _).piece fun x => Consumes.piece ?_
    have hs : split key 6 3 <+: split (split key 6 3) 2 1 := ⟨_, rfl⟩
    cases b
    · exact ((consumes_filterScan hm.trans consumes_stratified _ _ _ _ _ _).under hs).bind_pure _
    · exact ((consumes_filterScan hm.trans consumes_stratified _ _ _ _ _ _).under hs).bind_pure _
  refine Consumes.fresh (R := {key}) (Consumes.of_pieces (n := 6) (s := {0} ∪ ({1} ∪ (({2} ∪ {3}) ∪ {4}))) ?_)
  refine Consumes.bind_pieces (by simp) (hm.fwd _ _ _).piece fun path => ?_
  have hrest : ∀ vs, Consumes (pieces key 6 (({2} ∪ {3}) ∪ {4})) (Gibbs.gibbsInitRest m method key y0 ts vs) := by
    intro vs
    unfold Gibbs.gibbsInitRest
    dsimp only
    split_ifs with h1 h2
    · exact Consumes.bind_pieces (by simp) (hf vs true) fun out =>
        ((hm.fwd _ _ _).bind_pure _).piece
    · exact Consumes.bind_pieces (by simp) (hf vs false) fun out => consumes_pure _ _
    · exact consumes_pure _ _
  cases margY
  · exact Consumes.bind_pieces (p := pure _) (by simp) (consumes_pure _ _) hrest
  · exact Consumes.bind_pieces (by simp) ((hm.bridge _ _ _ _).map _).piece hrest

/-! ### The hypotheses can be met -/

/-- A user model whose samplers draw uniform numbers, the transition with two sub-keys. -/
noncomputable def keyedSmc : Smc.Funs 3 ℝ ℝ where
  initSampler k _ _ := uniforms k 3
  transSampler x _ _ k := do
    let a ← uniforms (split k 2 0) 3
    let b ← uniforms (split k 2 1) 3
    pure fun i => x i + a i + b i
  lik _ x _ _ := x

example : SmcKeyed keyedSmc where
  init k _ _ := consumes_uniforms k 3
  trans _ _ _ _ := Consumes.bind_split (i := 0) (j := 1) (by decide) (consumes_uniforms _ _)
    fun _ => (consumes_uniforms _ _).bind_pure _

/-- A sampler that uses the same key twice is rejected by the hypothesis. -/
example (k : Key) : ¬ Consumes {k} (do let a ← uniform k; let b ← uniform k; pure (a + b)) := by
  intro h
  have := (h [k, k] (0 + 0) ⟨0, ⟨le_rfl, one_pos⟩, [k], rfl, 0, ⟨le_rfl, one_pos⟩, [], rfl, rfl, rfl⟩).1
  exact Key.not_indep_self k (by simpa using this)

example : GibbsKeyed (N := 3) (U := ℝ) (V := ℝ) (Z := ℝ)
    { fwd := fun k _ _ => (fun u => (u, [u])) <$> uniform k
      bridge := fun k _ _ _ => (fun u => (u, [u])) <$> uniform k
      unpack := fun p => (p, p)
      normal := fun k _ => uniforms k 3
      transSampler := keyedSmc.transSampler
      transLogpdf := fun _ x _ _ => x
      lik := fun _ x _ _ => x } where
  fwd _ _ _ := (consumes_uniform _).map _
  bridge _ _ _ _ := (consumes_uniform _).map _
  normal k _ := consumes_uniforms k 3
  trans _ _ _ _ := Consumes.bind_split (i := 0) (j := 1) (by decide) (consumes_uniforms _ _)
    fun _ => (consumes_uniforms _ _).bind_pure _

end Props
end Fbs
