import Verif.Props.Keys
import Verif.Props.Smoother
import Verif.Props.Filters
import Verif.Props.Gibbs
import Verif.Model.GibbsBridge
import Verif.Model.GibbsLoop
import Verif.Model.Losses
import Verif.Model.Data
import Verif.Model.Corrupt
import Verif.Model.Crescent
import Verif.Model.Gp
import Verif.Model.Kf
import Verif.Model.Csgm
import Verif.Model.Guided
import Verif.Model.Chains
import Verif.Model.ImgSamplers

/-!
# Key discipline of the simulators, the losses, the data sets and the experiments: C72
-/

namespace Fbs
namespace Spec

/-- In every run, all consumed keys are derived from `key` (or equal to it), no key is consumed twice and no consumed key
was derived from another one by splitting. -/
def FreshFrom {α : Type} (key : Key) (p : Rand α) : Prop :=
  ∀ ks a, p.Runs ks a → (∀ k ∈ ks, key <+: k) ∧ ks.Pairwise fun k k' => k ≠ k' ∧ ¬ k <+: k' ∧ ¬ k' <+: k

end Spec

open Rand

theorem Rand.Consumes.freshFrom {α : Type} {key : Key} {p : Rand α} (h : Consumes {key} p) : Spec.FreshFrom key p :=
  fun ks a hr => ⟨fun k hk => by
    obtain ⟨r, rfl, hr'⟩ := (h ks a hr).2 k hk
    exact hr', h.fresh ks a hr⟩

namespace Props

open Jax Losses

variable {n N K : ℕ} {U V Z ι κ ζ α β : Type} [Fintype ι]

theorem split_prefix (k : Key) (n i : ℕ) : k <+: split k n i := ⟨_, rfl⟩

theorem consumes_normal (k : Key) : Consumes {k} (normal k ι) := consumes_sample _ _ _
theorem consumes_normalRows (k : Key) (m : ℕ) : Consumes {k} (normalRows k m ι) := (consumes_sample _ _ _).map _

/-- `jax.vmap` over the pieces of a split. -/
theorem consumes_vmapR_aux (k : Key) (n : ℕ) : ∀ (m : ℕ) (p : Fin m → Rand α) (o : ℕ),
    (∀ j : Fin m, Consumes {split k n (o + j)} (p j)) → Consumes (pieces k n {i | o ≤ i}) (vmapR p)
  | 0, _, _, _ => consumes_pure _ _
  | m + 1, p, o, h => by
    have h0 : Consumes (pieces k n {o}) (p 0) := (h 0).piece
    have h1 : Consumes (pieces k n {i | o + 1 ≤ i}) (vmapR fun i => p i.succ) := by
      refine consumes_vmapR_aux k n m _ (o + 1) fun j => ?_
      have := h j.succ
      rwa [Fin.val_succ, ← Nat.add_assoc, Nat.add_right_comm] at this
    refine (Consumes.bind_pieces (s := {o}) (s' := {i | o + 1 ≤ i}) ?_ h0 fun a => h1.bind_pure _).mono ?_
    · rw [Set.disjoint_left]
      rintro i rfl hi
      exact absurd (show i + 1 ≤ i from hi) (by omega)
    · rintro r ⟨i, hi, rfl⟩
      refine ⟨_, ⟨i, ?_, rfl⟩, List.prefix_refl _⟩
      rcases hi with rfl | hi
      · exact le_refl i
      · exact (show o ≤ i from by have : o + 1 ≤ i := hi; omega)

theorem consumes_vmapR {k : Key} {p : Fin n → Rand α} (h : ∀ j : Fin n, Consumes {split k n j} (p j)) :
    Consumes {k} (vmapR p) :=
  (consumes_vmapR_aux k n n p 0 fun j => by rw [Nat.zero_add]; exact h j).of_pieces

/-! ### Simulators -/

theorem consumes_emScan {ο : Type} (key : Key) (x0 : ι → ℝ) (ts : Arr1 ℝ) (drift : (ι → ℝ) → ℝ → (ι → ℝ))
    (disp : ℝ → ℝ) (m : ℕ) (emit : (ι → ℝ) → ο) :
    Consumes {key} (Rand.scan (Simulators.emBody drift disp m emit) x0 (Simulators.emInputs key ts)) := by
  refine Rand.Consumes.scan_sublist (n := ts.2.length) (fun i => i.1) ?_ _ _ (zip_map_fst_sublist _ _)
  rintro s ⟨k, t, t'⟩
  exact (consumes_normalRows k m).bind_pure _

theorem consumes_eulerPath (key : Key) (x0 : ι → ℝ) (ts : Arr1 ℝ) (drift : (ι → ℝ) → ℝ → (ι → ℝ)) (disp : ℝ → ℝ)
    (m : ℕ) : Consumes {key} (Simulators.eulerPath key x0 ts drift disp m) :=
  (consumes_emScan key x0 ts drift disp m id).bind_pure _

theorem consumes_eulerLast (key : Key) (x0 : ι → ℝ) (ts : Arr1 ℝ) (drift : (ι → ℝ) → ℝ → (ι → ℝ)) (disp : ℝ → ℝ)
    (m : ℕ) : Consumes {key} (Simulators.eulerLast key x0 ts drift disp m) :=
  (consumes_emScan key x0 ts drift disp m fun _ => ()).bind_pure _

theorem consumes_doobBridge [DecidableEq ι] (key : Key) (sde : Linear.SDE) (x0 xT : ι → ℝ) (ts : Arr1 ℝ) (m : ℕ)
    (r : Bool) : Consumes {key} (Simulators.doobBridge key sde x0 xT ts m r) := by
  unfold Simulators.doobBridge
  split
  · exact consumes_pure _ _
  · exact (consumes_eulerPath _ _ _ _ _ _).map _

theorem consumes_simulatePath (sde : Linear.SDE) (key : Key) (x0 : ι → ℝ) (ts : Arr1 ℝ) :
    Consumes {key} (Linear.simulatePath sde key x0 ts) := (consumes_normalRows _ _).bind_pure _

theorem consumes_simulateMarginal (sde : Linear.SDE) (key : Key) (x0 : ι → ℝ) (t : ℝ) (t0 : Option ℝ) :
    Consumes {key} (Linear.simulateMarginal sde key x0 t t0) := by
  cases t0
  · exact consumes_pure _ _
  · exact (consumes_normal _).bind_pure _

/-- **C72, simulators.** -/
theorem C72_simulators [DecidableEq ι] (key : Key) (x0 xT : ι → ℝ) (ts : Arr1 ℝ) (drift score : (ι → ℝ) → ℝ → (ι → ℝ))
    (disp : ℝ → ℝ) (f : (ι → ℝ) → ℝ → ℝ → (ι → ℝ)) (q : ℝ → ℝ → ℝ) (m : ℕ) (integrator : String) (sde : Linear.SDE)
    (r : Bool) (a b t : ℝ) (t0 : Option ℝ) (l : List ℝ) :
    Spec.FreshFrom key (Simulators.eulerPath key x0 ts drift disp m) ∧
    Spec.FreshFrom key (Simulators.eulerLast key x0 ts drift disp m) ∧
    Spec.FreshFrom key (Simulators.reverseSimulator key x0 ts score drift disp m integrator) ∧
    Spec.FreshFrom key (Simulators.discreteTime key x0 ts f q) ∧
    Spec.FreshFrom key (Simulators.doobBridge key sde x0 xT ts m r) ∧
    Spec.FreshFrom key (Gibbs.bridgeSampler key x0 xT ts sde) ∧
    Spec.FreshFrom key (Linear.simulatePath sde key x0 ts) ∧
    Spec.FreshFrom key (Linear.simulateMarginal sde key x0 t t0) ∧
    Spec.FreshFrom key (Linear.simulatePathOu a b key x0 ts) ∧
    Spec.FreshFrom key (Linear.simulateMarginalOu a b key x0 l) := by
  refine ⟨(consumes_eulerPath _ _ _ _ _ _).freshFrom, (consumes_eulerLast _ _ _ _ _ _).freshFrom,
    Consumes.freshFrom ?_, ((consumes_normalRows _ _).bind_pure _).freshFrom, (consumes_doobBridge _ _ _ _ _ _ _).freshFrom,
    (consumes_doobBridge _ _ _ _ _ _ _).freshFrom, (consumes_simulatePath _ _ _ _).freshFrom,
    (consumes_simulateMarginal _ _ _ _ _).freshFrom, ((consumes_normalRows _ _).bind_pure _).freshFrom,
    ((consumes_normalRows _ _).bind_pure _).freshFrom⟩
  unfold Simulators.reverseSimulator
  split_ifs
  · exact (consumes_eulerLast _ _ _ _ _ _).map _
  · exact consumes_pure _ _

/-! ### Losses -/

theorem consumes_times (key : Key) (lo t0 T : ℝ) (m : ℕ) (r : Bool) : Consumes {key} (times key lo t0 T m r) := by
  cases r
  · exact consumes_pure _ _
  · exact ((consumes_uniforms _ _).map _).map _

theorem consumes_saveMemTimes (key : Key) (t0 T : ℝ) (m : ℕ) (r : Bool) :
    Consumes {key} (saveMemTimes key t0 T m r) := by
  cases r
  · exact consumes_pure _ _
  · exact ((consumes_uniforms _ _).map _).map _

/-- **C72, losses.** -/
theorem C72_losses (key : Key) (sde : Linear.SDE) (nn : (Fin n → ι → ℝ) → ℝ → Fin n → ι → ℝ)
    (nn' : (Fin n → ι → ℝ) → (Fin n → ℝ) → Fin n → ι → ℝ) (t0 T a b : ℝ) (nsteps : ℕ) (r : Bool) (ty : String)
    (x0s : Fin n → ι → ℝ) (x0 : ι → ℝ) (ts : Arr1 ℝ) (gammas : List ℝ) (parFn simFn : (ι → ℝ) → ℝ → (ι → ℝ))
    (disp : ℝ → ℝ) :
    Spec.FreshFrom key (lossFn sde nn t0 T nsteps r ty key x0s) ∧
    Spec.FreshFrom key (lossFnSaveMem sde nn' t0 T r key x0s) ∧
    Spec.FreshFrom key (ouLossFn a b nn t0 T nsteps r key x0s) ∧
    Spec.FreshFrom key (Dsb.ipfLossDisc x0 ts gammas parFn simFn key) ∧
    Spec.FreshFrom key (Dsb.ipfLossCont key x0 ts parFn simFn disp) ∧
    Spec.FreshFrom key (Dsb.ipfLossContV key x0 ts parFn simFn disp) :=
  ⟨(Consumes.bind_split (by omega) (consumes_times _ _ _ _ _ _) fun ts =>
      (consumes_vmapR fun j => consumes_simulatePath _ _ _ _).bind_pure _).freshFrom,
    (Consumes.bind_split (by omega) (consumes_saveMemTimes _ _ _ _ _) fun ts =>
      (consumes_vmapR fun j => consumes_simulateMarginal _ _ _ _ _).bind_pure _).freshFrom,
    (Consumes.bind_split (by omega) (consumes_times _ _ _ _ _ _) fun ts =>
      (consumes_vmapR fun j => (consumes_normalRows _ _).bind_pure _).bind_pure _).freshFrom,
    (((consumes_normalRows _ _).bind_pure _).under (split_prefix _ _ _)).freshFrom,
    (((consumes_normalRows _ _).bind_pure _).under (split_prefix _ _ _)).freshFrom,
    (((consumes_normalRows _ _).bind_pure _).under (split_prefix _ _ _)).freshFrom⟩

/-! ### Data sets -/

theorem consumes_choiceNoReplace (key : Key) (m k : ℕ) : Consumes {key} (Data.choiceNoReplace key m k) := by
  unfold Data.choiceNoReplace
  split_ifs
  · exact consumes_pure _ _
  · exact ((consumes_sample _ _ _).map _).map _

theorem consumes_randintTo (key : Key) (m : ℤ) : Consumes {key} (Restore.randintTo key m) := by
  unfold Restore.randintTo
  split_ifs
  · exact (consumes_randint _ _).map _
  · exact (consumes_randint _ _).map _

theorem consumes_genMask (w h : ℕ) (key : Key) (r : Bool) (task : Restore.Task) :
    Consumes {key} (Restore.genMask w h key r task) := by
  cases task with
  | inpaint s => exact ((consumes_randintTo _ _).bind_pure _).map _
  | supr s =>
    show Consumes _ (Restore.suprMask w h key s r)
    unfold Restore.suprMask
    split_ifs
    · exact consumes_pure _ _
    · refine Consumes.bind_pure ?_ _
      unfold Restore.shifts
      split_ifs
      · exact (consumes_randints _ _ _).map _
      · exact consumes_pure _ _

variable {h w c : ℕ}

theorem consumes_corrupt [NeZero h] [NeZero w] (hh : 8 ≤ h) (hw : 8 ≤ w) (key : Key) (img : Fin h → Fin w → Fin c → ℝ)
    (task : Corrupt.Task) : Consumes {key} (Corrupt.corrupt hh hw key img task) := by
  cases task
  · exact ((consumes_randint _ _).map _).map _
  · exact ((consumes_uniform _).bind_pure _).map _
  · exact ((consumes_randint _ _).map _).map _
  · exact consumes_pure _ _
  · exact consumes_pure _ _

/-- **C72, data sets.** -/
theorem C72_data [NeZero h] [NeZero w] [Inhabited α] (hh : 8 ≤ h) (hw : 8 ≤ w) (key : Key) {n m : ℕ}
    (xs : Fin n → Fin h → Fin w → Fin c → ℝ) (inds : Fin m → Fin n) (task : Corrupt.Task) (task' : Restore.Task)
    (l : List α) (ls : Fin n → List α) (batchSize width height : ℕ) (r : Bool) (L : Matrix (Fin 2) (Fin 2) ℝ)
    (psi xi : ℝ) :
    Spec.FreshFrom key (Data.initEnumeration n key batchSize) ∧
    Spec.FreshFrom key (Data.drawSubset l key batchSize) ∧
    Spec.FreshFrom key (Restore.genMask width height key r task') ∧
    Spec.FreshFrom key (Corrupt.sampler hh hw xs task key) ∧
    Spec.FreshFrom key (Corrupt.enumerateJit hh hw xs inds key task) ∧
    Spec.FreshFrom key (Corrupt.restoreSampler ls width height r task' key) ∧
    Spec.FreshFrom key (Crescent.sampler L psi xi key n) := by
  refine ⟨Consumes.freshFrom ?_, ((consumes_choiceNoReplace _ _ _).map _).freshFrom, (consumes_genMask _ _ _ _ _).freshFrom,
    (Consumes.bind_split (by omega) (consumes_randint _ _) fun i =>
      (consumes_corrupt hh hw _ _ _).bind_pure _).freshFrom, Consumes.freshFrom ?_,
    (Consumes.bind_split (by omega) (consumes_randint _ _) fun i => (consumes_genMask _ _ _ _ _).bind_pure _).freshFrom,
    (Consumes.bind_split (by omega) (consumes_normal _) fun z =>
      ((consumes_normal _).bind_pure _).under (split_prefix _ _ _)).freshFrom⟩
  · unfold Data.initEnumeration
    split_ifs
    · exact consumes_pure _ _
    · exact (consumes_choiceNoReplace _ _ _).map _
  · unfold Corrupt.enumerateJit
    split
    · exact consumes_pure _ _
    · exact (consumes_vmapR fun r => consumes_corrupt hh hw _ _ _).bind_pure _

/-! ### Experiments -/

/-- **C72, the transitions and reference samplers of the experiments** use their key once. -/
theorem C72_transitions [Fintype κ] [Fintype ζ] [DecidableEq κ] (key : Key) (cf : Matrix κ κ ℝ → Matrix κ κ ℝ)
    (ch : Matrix ι ι ℝ → Matrix ι ι ℝ) (e : ι ⊕ κ ≃ ζ) (drift : (ζ → ℝ) → ℝ → (ζ → ℝ))
    (condDrift : (ζ → ℝ) → ℝ → (κ → ℝ) → (ζ → ℝ)) (disp : ℝ → ℝ) (dt t s : ℝ) (us : Fin N → ι → ℝ) (ws : Fin N → ζ → ℝ)
    (v : κ → ℝ) (mRef : ζ → ℝ) (covRef : Matrix ζ ζ ℝ) (m : ι → ℝ) (cov : Matrix ι ι ℝ) (ns : ℕ) :
    Spec.FreshFrom key (Toy.transitionSampler e drift disp dt us v t key) ∧
    Spec.FreshFrom key (Guided.propSampler condDrift disp dt key ws t v) ∧
    Spec.FreshFrom key (Gp.refSampler (N := N) cf ch e mRef covRef key v ns) ∧
    Spec.FreshFrom key (Gp.rowSampler ch m cov key) ∧
    Spec.FreshFrom key (Gp.initSampler (N := N) ch m cov key ns) ∧
    Spec.FreshFrom key (Gp.genData ch cov s key) :=
  ⟨((consumes_normal _).bind_pure _).freshFrom, ((consumes_normal _).bind_pure _).freshFrom,
    ((consumes_normal _).bind_pure _).freshFrom, ((consumes_normal _).bind_pure _).freshFrom,
    ((consumes_normal _).bind_pure _).freshFrom,
    (Consumes.bind_split (i := 1) (j := 0) (by omega) (consumes_normal _) fun z =>
      ((consumes_normal _).bind_pure _).under (split_prefix _ _ _)).freshFrom⟩

/-- The functions of the toy experiments meet the assumptions of C24. -/
theorem smcKeyed_filterFuns [Fintype κ] [DecidableEq κ] (cf : Matrix κ κ ℝ → Matrix κ κ ℝ)
    (ch : Matrix ι ι ℝ → Matrix ι ι ℝ) (e : ι ⊕ κ ≃ ζ) (drift : (ζ → ℝ) → ℝ → (ζ → ℝ)) (disp : ℝ → ℝ) (dt : ℝ)
    (mRef : ζ → ℝ) (covRef : Matrix ζ ζ ℝ) :
    SmcKeyed (N := N) (Toy.filterFuns e drift disp dt (Gp.refSampler cf ch e mRef covRef)) where
  init _ _ _ := (consumes_normal _).bind_pure _
  trans _ _ _ _ := (consumes_normal _).bind_pure _

/-- **C72, the samplers of the experiments.** -/
theorem C72_samplers [Fintype κ] [Fintype ζ] [DecidableEq ι] [NeZero N] [Inhabited (ι → ℝ)] (key : Key)
    (cf ch : Matrix ι ι ℝ → Matrix ι ι ℝ) (e : ι ⊕ ι ≃ ζ) (e' : ι ⊕ κ ≃ ζ) (drift score : (ζ → ℝ) → ℝ → (ζ → ℝ))
    (disp : ℝ → ℝ) (dt t0 T s : ℝ) (mRef : ζ → ℝ) (covRef : Matrix ζ ζ ℝ) (m : ι → ℝ) (cov : Matrix ι ι ℝ)
    (sde : Linear.SDE) (ts : Arr1 ℝ) (y : ι → ℝ) (y' : κ → ℝ) :
    Spec.FreshFrom key (Kf.conditionalSampler cf ch e drift disp dt mRef covRef sde ts y key) ∧
    Spec.FreshFrom key (Csgm.conditionalSampler cf ch sde t0 T m cov s y ts key) ∧
    Spec.FreshFrom key (Csgm.imgConditional e' sde t0 T dt score ts key y') := by
  refine ⟨(Consumes.bind_split (by omega) (consumes_simulatePath _ _ _ _) fun p =>
      (consumes_normal _).bind_pure _).freshFrom,
    (Consumes.bind_split (by omega) ((consumes_normal _).bind_pure _) fun u =>
      consumes_eulerLast _ _ _ _ _ _).freshFrom,
    (Consumes.bind_split (by omega) (consumes_normal _) fun u =>
      Consumes.bind_split (i := 0) (j := 1) (by omega) (consumes_normalRows _ _) fun rnds =>
        Consumes.bind_pure ?_ _).freshFrom⟩
  refine Rand.Consumes.scan_sublist (n := ts.2.length) (fun i => i.2.2) ?_ _ _
    (map_zip_sublist (zip_map_snd_sublist _ _) _)
  rintro u ⟨rnd, t, k⟩
  exact ((consumes_normal _).bind_pure _).bind_pure _

/-- **C72, the particle methods of the experiments**, given user functions that consume only their key. -/
theorem C72_particles [NeZero N] {m : Smc.Funs N U V} (hm : SmcKeyed m) {mt : Smc.TwistedFuns N (ζ → ℝ) (κ → ℝ)}
    (hi : ∀ k n, Consumes {k} (mt.initSampler k n)) (hp : ∀ k x t y, Consumes {k} (mt.propSampler k x t y))
    {res : Smc.Resampling N} (hres : ∀ w k, Consumes {k} (res w k)) {fwd : Key → Rand (Arr1 V)}
    (hf : ∀ k, Consumes {k} (fwd k)) {fwd' : Key → Rand (Fin (K + 1) → V)} (hf' : ∀ k, Consumes {k} (fwd' k))
    [Zero U] (key : Key) (ts : Arr1 ℝ) (ts' : Fin (K + 1) → ℝ) (y : κ → ℝ) :
    Spec.FreshFrom key (Guided.conditionalSampler mt res y ts key) ∧
    Spec.FreshFrom key (Chains.filterSampler m fwd ts key) ∧
    Spec.FreshFrom key (Chains.pmcmcInit m fwd' ts' key) ∧
    Spec.FreshFrom key (Chains.imgPmcmcInit (U := U) fwd' key) := by
  refine ⟨(Consumes.bind_split (by omega) (consumes_twistedSmc hi hp hres _ _ _) fun r =>
      (consumes_choice _ _).bind_pure _).freshFrom,
    (Consumes.bind_split (by omega) (hf _) fun p =>
      (consumes_bootstrapFilter hm consumes_stratified _ _ _ _ _).bind_pure _).freshFrom,
    (Consumes.of_pieces (n := 4) (s := {0} ∪ ({2} ∪ {3})) ?_).freshFrom,
    (((hf' _).bind_pure _).under (split_prefix _ _ _)).freshFrom⟩
  exact Consumes.bind_pieces (by simp) (hf' _).piece fun p => Consumes.bind_pieces (by simp)
    (consumes_bootstrapFilter hm consumes_stratified _ _ _ _ _).piece fun r => ((hf' _).bind_pure _).piece

/-- The loop draws only from keys derived from its own, for every number of iterations. -/
theorem consumes_gibbsLoop [NeZero n] (ef : Bool) {m : Gibbs.Funs (Gibbs.rows n ef) U V Z} (hm : GibbsKeyed m)
    (margY eb : Bool) (y0 : V) (ts : Arr1 ℝ) : ∀ (ns : ℕ) (key : Key) (x : U) (bs : Arr1 (Fin (Gibbs.rows n ef))),
    Consumes {key} (Gibbs.gibbsLoop ef m margY eb y0 ts ns key x bs)
  | 0, _, _, _ => consumes_pure _ _
  | ns + 1, key, x, bs => Consumes.bind_split (i := 1) (j := 0) (by omega)
      (consumes_gibbsKernel ef hm margY eb _ _ _ _ _) fun out => consumes_gibbsLoop ef hm margY eb y0 ts ns _ _ _

/-- **C72, the Gibbs chain.** -/
theorem C72_gibbs_loop [NeZero n] (ef : Bool) {m : Gibbs.Funs (Gibbs.rows n ef) U V Z} (hm : GibbsKeyed m)
    (margY eb : Bool) (y0 : V) (ts : Arr1 ℝ) (ns : ℕ) (key : Key) (x : U) (bs : Arr1 (Fin (Gibbs.rows n ef))) :
    Spec.FreshFrom key (Gibbs.gibbsLoop ef m margY eb y0 ts ns key x bs) :=
  (consumes_gibbsLoop ef hm margY eb y0 ts ns key x bs).freshFrom

theorem FreshKeys.of_bind {p : Rand α} {g : α → Rand β} (h : Spec.FreshKeys (p >>= g)) {a : α} (ha : p.Returns a) :
    Spec.FreshKeys (g a) := by
  obtain ⟨ks, hks⟩ := ha
  intro ks' b hb
  exact (List.pairwise_append.1 (h (ks ++ ks') b (runs_bind.2 ⟨ks, a, ks', rfl, hks, hb⟩))).2.1

theorem FreshKeys.of_bind_fst {p : Rand α} {g : α → Rand β} (h : Spec.FreshKeys (p >>= g)) (hg : ∀ a, (g a).Live) :
    Spec.FreshKeys p := by
  intro ks a ha
  obtain ⟨b, ks', hb⟩ := (hg a).returns
  exact (List.pairwise_append.1 (h (ks ++ ks') b (runs_bind.2 ⟨ks, a, ks', rfl, ha, hb⟩))).1

/-- **C72, what fails.**  The start of the Gibbs chains of the toy experiments calls the smoother, so with at least one
step its keys are not fresh (see C25), however fresh those of the user's functions are. -/
theorem C72_gibbs_init_not_fresh [NeZero N] (m : Smc.Funs N U V) (tl : U → (Fin N → U) → V → ℝ → (Fin N → ℝ))
    {fwd : Key → Rand (Arr1 V)} (ts : Arr1 ℝ) (hts : ts.2 ≠ [])
    (hf : ∀ k vs, (fwd k).Returns vs → vs.2.length = ts.2.length) (hfl : ∀ k, (fwd k).Live)
    (hi : ∀ k v n, (m.initSampler k v n).Live) (ht : ∀ us v t k, (m.transSampler us v t k).Live) (key : Key) :
    ¬ Spec.FreshKeys (Chains.gibbsInit m tl fwd ts key) := by
  intro h
  obtain ⟨path, hp⟩ := (hfl (split key 3 0)).returns
  have hl := hf _ _ hp
  have h1 := FreshKeys.of_bind h hp
  have hlive : (Smc.bootstrapFilter m Resampling.stratified path.reverse ts (split key 3 2) true false).Live :=
    (hi _ _ _).bind fun _ => (Live.scan (fun s i => (ht _ _ _ _).bind fun _ =>
      ((live_uniforms _ _).map _).bind fun _ => live_pure _) _ _).bind fun _ => live_pure _
  obtain ⟨out, ho⟩ := hlive.returns
  have hrl : path.reverse.2.length = ts.2.length := by rw [arr1_reverse_len, hl]
  obtain ⟨uss, nell, rfl, hu, -⟩ := C19_rows _ _ _ _ _ _ hrl.symm ho
  have h2 := FreshKeys.of_bind h1 ho
  have h3 := FreshKeys.of_bind_fst h2 fun _ => live_pure _
  have hu' : uss.2.length = ts.2.length := by
    have : uss.2.length + 1 = path.reverse.2.length + 1 := by rw [← hu]; simp [Arr1.toList]
    omega
  exact C25_keys_not_fresh _ _ _ _ _ (fun h0 => hts (by
    rw [← List.length_eq_zero_iff, ← hu', h0]; rfl)) (by omega) hu'.symm h3

/-! ### The hypotheses can be met -/

/-- Start of a chain with Gaussian draws and a constant path. -/
example (key : Key) : ¬ Spec.FreshKeys (Chains.gibbsInit (N := 2) (U := Fin 1 → ℝ) (V := ℝ)
    ⟨fun k _ _ => (fun z j i => z (j, i)) <$> normal k (Fin 2 × Fin 1), fun us _ _ k => (fun z j i => us j i + z (j, i)) <$>
      normal k (Fin 2 × Fin 1), fun v us _ _ j => -(us j 0 - v) ^ 2⟩ (fun u us _ _ j => -(us j 0 - u 0) ^ 2)
    (fun k => (fun z => (0, [z])) <$> uniform k) (0, [1]) key) := by
  refine C72_gibbs_init_not_fresh _ _ _ (by simp) ?_ (fun k => (live_uniform k).map _)
    (fun k v n => (live_sample Set.univ_nonempty).map _) (fun us v t k => (live_sample Set.univ_nonempty).map _) key
  intro k vs hvs
  obtain ⟨z, -, rfl⟩ := returns_map.1 hvs
  rfl

/-- The functions of the twisted experiment. -/
example [Fintype ζ] (ch : Matrix ζ ζ ℝ → Matrix ζ ζ ℝ) (mRef : ζ → ℝ) (covRef : Matrix ζ ζ ℝ)
    (drift : (ζ → ℝ) → ℝ → (ζ → ℝ)) (condDrift : (ζ → ℝ) → ℝ → (κ → ℝ) → (ζ → ℝ))
    (twist : (κ → ℝ) → (ζ → ℝ) → ℝ → ℝ) (disp : ℝ → ℝ) (dt : ℝ) :
    (∀ k n, Consumes {k} ((Guided.funs (N := N) (Gp.initSampler ch mRef covRef) drift condDrift twist disp
      dt).initSampler k n)) ∧
    ∀ k x t y, Consumes {k} ((Guided.funs (N := N) (Gp.initSampler ch mRef covRef) drift condDrift twist disp
      dt).propSampler k x t y) :=
  ⟨fun _ _ => (consumes_normal _).bind_pure _, fun _ _ _ _ => (consumes_normal _).bind_pure _⟩

/-- The filter of the toy experiments with the simulated path of observations. -/
example [Fintype κ] [DecidableEq κ] [NeZero N] (cf : Matrix κ κ ℝ → Matrix κ κ ℝ) (ch : Matrix ι ι ℝ → Matrix ι ι ℝ)
    (e : ι ⊕ κ ≃ ζ) (drift : (ζ → ℝ) → ℝ → (ζ → ℝ)) (disp : ℝ → ℝ) (dt : ℝ) (mRef : ζ → ℝ) (covRef : Matrix ζ ζ ℝ)
    (sde : Linear.SDE) (y0 : κ → ℝ) (ts : Arr1 ℝ) (key : Key) :
    Spec.FreshFrom key (Chains.filterSampler (N := N) (Toy.filterFuns e drift disp dt (Gp.refSampler cf ch e mRef covRef))
      (fun k => (fun l => (l.headD 0, l.tail)) <$> Linear.simulatePath sde k y0 ts) ts key) := by
  exact (Consumes.bind_split (n := 3) (i := 0) (j := 2) (by omega) ((consumes_simulatePath _ _ _ _).map _) fun p =>
    (consumes_bootstrapFilter (smcKeyed_filterFuns cf ch e drift disp dt mRef covRef) consumes_stratified _ _ _ _
      _).bind_pure _).freshFrom

/-- Consuming one key twice is not fresh: the claim can fail. -/
example (key : Key) : ¬ Spec.FreshFrom key (do
    let u ← uniform key
    let v ← uniform key
    pure (u + v)) := by
  intro h
  have := (h [key, key] (0 + 0) ⟨0, by simp, _, rfl, 0, by simp, _, rfl, rfl, rfl⟩).2
  simp at this

end Props
end Fbs
