import Verif.Spec.Pmcmc
import Verif.Lemmas.Ker
import Verif.Lemmas.PiKernel
import Verif.Lemmas.Filters

/-! The particle filter inside the pseudo-marginal kernel is a Markov kernel in the observed path. -/

open MeasureTheory ProbabilityTheory
open scoped ENNReal

namespace Fbs

open Jax Spec Smc Csmc

variable {U V X C : Type} [MeasurableSpace U] [MeasurableSpace V] [MeasurableSpace X] [MeasurableSpace C] {N K : ℕ}

theorem measurable_logsumexp : Measurable (logsumexp : (Fin N → ℝ) → ℝ) := by
  unfold logsumexp
  fun_prop

theorem measurable_take {α : Type} [MeasurableSpace α] :
    Measurable fun p : (Fin N → α) × (Fin N → Fin N) => take p.1 p.2 := by
  refine measurable_from_prod_countable_left fun A => ?_
  exact measurable_pi_iff.2 fun i => measurable_pi_apply (A i)

/-- One resampling step with normalised weights. -/
theorem hasKer_res [NeZero N] {res : Smc.Resampling N} (hres : MeasurableScheme res) :
    HasKer fun key (lw : Fin N → ℝ) => res (fun i => Real.exp (lw i - logsumexp lw)) key := by
  obtain ⟨q, hq, h⟩ := hres
  refine hasKer_of_law (fun lw A => q (normalise lw) A) (fun A => (hq A).comp (measurable_normalise measurable_id))
    (fun lw => (h _ (normalise_weights lw)).1) fun key lw f => (h _ (normalise_weights lw)).2 key f

theorem hasKer_trans {m : Smc.Funs N U V} {ref : Kernel V U} {S : StateSpace U V} (hm : PmcmcImplements m ref S)
    (hS : S.JointMeas) (t : ℝ) : HasKer fun key (q : (Fin N → U) × V) => m.transSampler q.1 q.2 t key := by
  let M : Kernel (V × U) U := ⟨fun p => S.trans p.1 t p.2, hS.1 t⟩
  have : IsMarkovKernel M := ⟨fun p => (S.markov p.1 t).isProbabilityMeasure p.2⟩
  have hx : Measurable fun q : (Fin N → U) × V => fun i : Fin N => (q.2, q.1 i) :=
    measurable_pi_iff.2 fun i => measurable_snd.prodMk ((measurable_pi_apply i).comp measurable_fst)
  refine ⟨⟨fun q => Measure.pi fun i => S.trans q.2 t (q.1 i), (measurable_pi_kernel M).comp hx⟩, ⟨fun q => ?_⟩,
    fun key q F hF => hm.trans _ _ _ _ _ hF⟩
  show IsProbabilityMeasure (Measure.pi fun i => S.trans q.2 t (q.1 i))
  infer_instance

theorem hasKer_init {m : Smc.Funs N U V} {ref : Kernel V U} [IsMarkovKernel ref] {S : StateSpace U V}
    (hm : PmcmcImplements m ref S) (n : ℕ) : HasKer fun key v => m.initSampler key v n := by
  have hx : Measurable fun v : V => fun _ : Fin N => v := measurable_pi_iff.2 fun i => measurable_id
  refine ⟨⟨fun v => Measure.pi fun _ => ref v, (measurable_pi_kernel ref).comp hx⟩, ⟨fun v => ?_⟩,
    fun key v F hF => hm.init _ _ _ _ hF⟩
  show IsProbabilityMeasure (Measure.pi fun _ => ref v)
  infer_instance

theorem measurable_lik {m : Smc.Funs N U V} {ref : Kernel V U} {S : StateSpace U V}
    (hm : PmcmcImplements m ref S) (hS : S.JointMeas) (t : ℝ) :
    Measurable fun q : ((Fin N → U) × ℝ) × V × V => m.lik q.2.1 q.1.1 q.2.2 t := by
  refine measurable_pi_iff.2 fun i => ?_
  simp only [hm.lik]
  have h : Measurable fun q : ((Fin N → U) × ℝ) × V × V => (q.2.1, q.2.2, q.1.1 i) := by fun_prop
  exact (hS.2 t).comp h

/-- One step of the filter. -/
theorem hasKer_pmcmcBody [NeZero N] {m : Smc.Funs N U V} {ref : Kernel V U} {S : StateSpace U V}
    (hm : PmcmcImplements m ref S) (hS : S.JointMeas) {res : Smc.Resampling N} (hres : MeasurableScheme res) (t : ℝ) :
    HasKer fun key (q : ((Fin N → U) × ℝ) × V × V) => pmcmcBody m res q.1 (q.2.1, q.2.2, t, key) := by
  have hl := measurable_lik hm hS t
  have h1 := (hasKer_res hres).comap hl fun key => split key 2 1
  have h2 := (hasKer_trans hm hS t).comap (Y := (((Fin N → U) × ℝ) × V × V) × (Fin N → Fin N))
    (g := fun z => (take z.1.1.1 z.2, z.1.2.2))
    ((measurable_take.comp ((by fun_prop : Measurable fun z : (((Fin N → U) × ℝ) × V × V) × (Fin N → Fin N) =>
      (z.1.1.1, z.2)))).prodMk (by fun_prop)) fun key => split key 2 0
  have hg : Measurable fun z : ((((Fin N → U) × ℝ) × V × V) × (Fin N → Fin N)) × (Fin N → U) =>
      (((z.2, z.1.1.1.2 - Real.log N + logsumexp (m.lik z.1.1.2.1 z.1.1.1.1 z.1.1.2.2 t)), ()) :
        ((Fin N → U) × ℝ) × Unit) := by
    have hls : Measurable fun z : ((((Fin N → U) × ℝ) × V × V) × (Fin N → Fin N)) × (Fin N → U) =>
        logsumexp (m.lik z.1.1.2.1 z.1.1.1.1 z.1.1.2.2 t) :=
      (measurable_logsumexp.comp hl).comp (measurable_fst.comp measurable_fst)
    fun_prop
  exact h1.bind (h2.map hg)

/-- The scan of a body which is a kernel, over inputs which are functions of a parameter. -/
theorem hasKer_scan {body : C → StepIn V → Rand (C × Unit)}
    (hb : ∀ t, HasKer fun key (q : C × V × V) => body q.1 (q.2.1, q.2.2, t, key)) :
    ∀ l : List ((X → V) × (X → V) × ℝ), (∀ s ∈ l, Measurable s.1 ∧ Measurable s.2.1) →
      HasKer fun (ks : {ks : List Key // ks.length = l.length}) (z : C × X) =>
        Prod.fst <$> Rand.scan body z.1 (List.zipWith (fun s k => (s.1 z.2, s.2.1 z.2, s.2.2, k)) l ks.1)
  | [], _ => hasKer_ret measurable_fst
  | s :: l, h => by
    obtain ⟨h1, h2⟩ := h s (by simp)
    have hl := hasKer_scan hb l fun s' hs' => h s' (by simp [hs'])
    have hb' := (hb s.2.2).comap (Y := C × X) (g := fun z => (z.1, s.1 z.2, s.2.1 z.2))
      (measurable_fst.prodMk ((h1.comp measurable_snd).prodMk (h2.comp measurable_snd)))
      fun ks : {ks : List Key // ks.length = (s :: l).length} => ks.1.headD []
    have hl' := hl.comap (Y := (C × X) × (C × Unit)) (g := fun z => (z.2.1, z.1.2)) (by fun_prop)
      fun ks : {ks : List Key // ks.length = (s :: l).length} => ⟨ks.1.tail, by simp [ks.2]⟩
    refine (hb'.bind hl').congr ?_
    rintro ⟨ks, hks⟩ z f hf
    cases ks with
    | nil => simp at hks
    | cons k ks =>
      simp only [List.zipWith_cons_cons, Rand.scan, Rand.E_map, Rand.E_bind, Rand.pure_eq, Rand.E_ret,
        List.headD_cons, List.tail_cons]

/-- The inputs of the filter as functions of the path. -/
def pathInputs (ts : Fin (K + 1) → ℝ) : List (((Fin (K + 1) → V) → V) × ((Fin (K + 1) → V) → V) × ℝ) :=
  List.ofFn fun i : Fin K => (fun ys => ys (Fin.rev i.succ), fun ys => ys (Fin.rev i.castSucc), ts i.castSucc)

omit [MeasurableSpace V] in
theorem scanInputs_eq (ts : Fin (K + 1) → ℝ) (ys : Fin (K + 1) → V) (ks : List Key) :
    scanInputs (toArr1 fun i => ys (Fin.rev i)) (toArr1 ts) ks
      = List.zipWith (fun s k => (s.1 ys, s.2.1 ys, s.2.2, k)) (pathInputs ts) ks := by
  refine List.ext_getElem ?_ fun n h1 h2 => ?_
  · simp [Smc.scanInputs, toArr1, Arr1.init, pathInputs]
  · simp [Smc.scanInputs, toArr1, Arr1.init, pathInputs]
    cases n with
    | zero => exact ⟨congrArg ys (Fin.rev_zero K).symm, rfl⟩
    | succ n => exact ⟨by simp, by simp⟩

/-- The whole filter run. -/
noncomputable def runFilter (m : Smc.Funs N U V) (res : Smc.Resampling N) (ts : Fin (K + 1) → ℝ) (key : Key)
    (ys : Fin (K + 1) → V) : Rand ((Fin N → U) × ℝ) :=
  m.initSampler (split key 4 1) (ys (Fin.last K)) N >>= fun u0s =>
    pmcmcFilterStep m res (split key 4 2) (toArr1 fun i => ys (Fin.rev i)) u0s (toArr1 ts)

omit [MeasurableSpace U] [MeasurableSpace V] in
theorem pmcmcEstimate_eq (m : Smc.Funs N U V) (res : Smc.Resampling N) (ts : Fin (K + 1) → ℝ) (key : Key)
    (ys : Fin (K + 1) → V) (i : Fin N) :
    pmcmcEstimate m res key ys ts i = (fun r => (r.1 i, r.2)) <$> runFilter m res ts key ys := by
  show _ = runFilter m res ts key ys >>= fun r => Rand.ret (r.1 i, r.2)
  rw [runFilter, Rand.bind_assoc']
  rw [← Fin.rev_zero]
  rfl

theorem hasKer_runFilter [NeZero N] {m : Smc.Funs N U V} {ref : Kernel V U} [IsMarkovKernel ref] {S : StateSpace U V}
    (hm : PmcmcImplements m ref S) (hS : S.JointMeas) {res : Smc.Resampling N} (hres : MeasurableScheme res)
    (ts : Fin (K + 1) → ℝ) : HasKer fun key ys => runFilter m res ts key ys := by
  have h0 := (hasKer_init hm N).comap (Y := Fin (K + 1) → V) (g := fun ys => ys (Fin.last K)) (by fun_prop) fun key => split key 4 1
  have h1 := hasKer_scan (X := Fin (K + 1) → V) (hasKer_pmcmcBody hm hS hres) (pathInputs ts) (by
    simp only [pathInputs, List.mem_ofFn, forall_exists_index, forall_apply_eq_imp_iff]
    exact fun i => ⟨measurable_pi_apply _, measurable_pi_apply _⟩)
  have h2 := h1.comap (Y := (Fin (K + 1) → V) × (Fin N → U)) (g := fun z => ((z.2, (0 : ℝ)), z.1)) (by fun_prop)
    fun key : Key => ⟨splitAll (split key 4 2) K, by simp [splitAll, pathInputs]⟩
  refine (h0.bind h2).congr fun key ys f hf => ?_
  simp only [runFilter, pmcmcFilterStep, Rand.E_bind, Rand.E_map, Rand.pure_eq, Rand.E_ret, scanInputs_eq]
  simp [toArr1]

end Fbs
