import Verif.Props.InitGuess
import Verif.Props.GibbsBridge
import Verif.Props.Chains
import Verif.Props.IndexFree
import Verif.Props.Losses

/-!
# C89: the guess and the law of the start of the chain
-/

open MeasureTheory ProbabilityTheory
open scoped ENNReal

namespace Fbs
namespace Props

open Jax Spec Gibbs Simulators Smc SbImgs

/-! ### `gibbs_init` as the filter run on the noised observations -/

section Run

variable {N : ℕ} {U V Z : Type}

/-- A function of the first value returned by `gibbs_init`. -/
def onState (F : U → ℝ≥0∞) : Except CsmcResampling.Err (InitOut N U) → ℝ≥0∞
  | .ok (.traj x0 _) => F x0
  | _ => 0

theorem prob_randint [NeZero N] (k : Key) : (randint k N).IsProb := by
  refine ⟨⟨?_⟩, fun _ => trivial⟩
  simp only [Measure.smul_apply, Measure.count_univ, smul_eq_mul, ENat.card_eq_coe_fintype_card, Fintype.card_fin]
  exact ENNReal.inv_mul_cancel (by simp [NeZero.ne N]) (by simp)

theorem prob_choice [NeZero N] (k : Key) (p : Fin N → ℝ) : (choice k p).IsProb :=
  (isProb_uniform' k).bind fun _ => trivial

theorem prob_backwardSmoother [NeZero N] (key : Key) (uss : Arr1 (Fin N → U)) (vs : Arr1 V) (ts : Arr1 ℝ)
    (tl : U → (Fin N → U) → V → ℝ → (Fin N → ℝ)) : (backwardSmoother key uss vs ts tl).IsProb := by
  have hb : ∀ u i, (smootherBody tl u i).IsProb := fun u i => Rand.IsProb.bind (prob_choice _ _) fun _ => trivial
  exact (prob_randint key).bind fun _ => (prob_scan hb _ _).bind fun _ => trivial

theorem isProb_eulerPath {ζ : Type} [Fintype ζ] (key : Key) (x : ζ → ℝ) (ts : Arr1 ℝ) (b : (ζ → ℝ) → ℝ → (ζ → ℝ))
    (disp : ℝ → ℝ) (n : ℕ) : (eulerPath key x ts b disp n).IsProb := by
  have hb : ∀ x i, (emBody b disp n id x i).IsProb := fun x i => Rand.IsProb.bind (isProb_normalRows _ _) fun _ => trivial
  exact (prob_scan hb _ _).bind fun _ => trivial

theorem eulerPath_leaves {ζ : Type} [Fintype ζ] (key : Key) (x : ζ → ℝ) (ts : Arr1 ℝ) (b : (ζ → ℝ) → ℝ → (ζ → ℝ))
    (disp : ℝ → ℝ) (n : ℕ) : (eulerPath key x ts b disp n).Leaves fun p => p.2.length = ts.2.length := by
  have h := leaves_scan_length (body := emBody b disp n id) (emInputs key ts) x
  have hlen : (emInputs key ts).length = ts.2.length := by simp [emInputs, splitAll, Arr1.init]
  rw [hlen] at h
  exact h.bind fun r hr => hr

/-- The functions of the filter inside `gibbs_init`. -/
noncomputable def initFuns (m : Gibbs.Funs N U V Z) (key : Key) : Smc.Funs N U V :=
  ⟨fun _ _ _ => m.normal (split key 6 2) N, m.transSampler, m.lik⟩

/-- The state returned by the methods `filter` and `smoother` is row 0 of the last particles of the filter. -/
theorem init_state_E [NeZero N] (m : Gibbs.Funs N U V Z) {method : String} (hmet : method = "filter" ∨ method = "smoother")
    (key : Key) (y0 : V) (hprob : ∀ k x, (m.fwd k x y0).IsProb) (x : U) (ts : Arr1 ℝ) (F : U → ℝ≥0∞) :
    (gibbsInit m method false key y0 x ts).E (onState F) = (m.fwd (split key 6 0) x y0).E fun p =>
      (bootstrapFilter (initFuns m key) Resampling.stratified (m.unpack p).2.reverse ts (split key 6 3) true true).E
        fun out => F (out.final 0) := by
  simp only [gibbsInit, Rand.E_bind]
  refine Rand.E_congr _ fun p => ?_
  simp only [Bool.false_eq_true, if_false, Rand.pure_eq]
  rcases hmet with rfl | rfl
  · simp only [gibbsInitRest, if_true, Rand.E_bind, Rand.pure_eq, Rand.E_ret, onState]
    refine Rand.E_congr _ fun out => ?_
    exact Rand.E_const (hprob _ _) _
  · rw [C19_return_last, Rand.E_map]
    simp only [gibbsInitRest, show ¬ ("smoother" = "filter") by decide, if_false, if_true, Rand.E_bind, Rand.pure_eq,
      Rand.E_ret, onState]
    refine Rand.E_congr _ fun out => ?_
    rw [Rand.E_const (prob_backwardSmoother _ _ _ _ _)]
    cases out <;> rfl

variable [MeasurableSpace U] [MeasurableSpace V]

/-- One step of the bootstrap filter. -/
theorem hasKer_filterBody [NeZero N] {m : Smc.Funs N U V} {ref : Kernel V U} {S : StateSpace U V}
    (hm : PmcmcImplements m ref S) (hS : S.JointMeas) {res : Smc.Resampling N} (hres : MeasurableScheme res) (t : ℝ) :
    HasKer fun key (q : ((Fin N → U) × ℝ) × V × V) => filterBody m res (fun _ => ()) q.1 (q.2.1, q.2.2, t, key) := by
  have hl := Fbs.measurable_lik hm hS t
  have h1 := (hasKer_trans hm hS t).comap (Y := ((Fin N → U) × ℝ) × V × V) (g := fun q => (q.1.1, q.2.2)) (by fun_prop)
    fun key => split key 2 0
  have h2 := (hasKer_res hres).comap (Y := (((Fin N → U) × ℝ) × V × V) × (Fin N → U)) (hl.comp measurable_fst)
    fun key => split key 2 1
  have hg : Measurable fun z : ((((Fin N → U) × ℝ) × V × V) × (Fin N → U)) × (Fin N → Fin N) =>
      (((take z.1.2 z.2, z.1.1.1.2 - (logsumexp (m.lik z.1.1.2.1 z.1.1.1.1 z.1.1.2.2 t) - Real.log N)), ()) :
        ((Fin N → U) × ℝ) × Unit) := by
    have hls : Measurable fun z : ((((Fin N → U) × ℝ) × V × V) × (Fin N → U)) × (Fin N → Fin N) =>
        logsumexp (m.lik z.1.1.2.1 z.1.1.1.1 z.1.1.2.2 t) :=
      (measurable_logsumexp.comp hl).comp (measurable_fst.comp measurable_fst)
    have ht : Measurable fun z : ((((Fin N → U) × ℝ) × V × V) × (Fin N → U)) × (Fin N → Fin N) => take z.1.2 z.2 :=
      measurable_take.comp (by fun_prop : Measurable fun z : ((((Fin N → U) × ℝ) × V × V) × (Fin N → U)) × (Fin N → Fin N) =>
        (z.1.2, z.2))
    fun_prop
  exact h1.bind (h2.map hg)

/-- The bootstrap filter is a Markov kernel in the observed path. -/
theorem hasKer_filter {K : ℕ} [NeZero N] {m : Smc.Funs N U V} {ref : Kernel V U} [IsMarkovKernel ref] {S : StateSpace U V}
    (hm : PmcmcImplements m ref S) (hS : S.JointMeas) {res : Smc.Resampling N} (hres : MeasurableScheme res)
    (ts : Fin (K + 1) → ℝ) : HasKer fun key (ys : Fin (K + 1) → V) =>
      FilterOut.final <$> bootstrapFilter m res (arr fun i => ys (Fin.rev i)) (arr ts) key true true := by
  have h0 := (hasKer_init hm N).comap (Y := Fin (K + 1) → V) (g := fun ys => ys (Fin.last K)) (by fun_prop) fun key => split key 2 0
  have h1 := hasKer_scan (X := Fin (K + 1) → V) (hasKer_filterBody hm hS hres) (pathInputs ts) (by
    simp only [pathInputs, List.mem_ofFn, forall_exists_index, forall_apply_eq_imp_iff]
    exact fun i => ⟨measurable_pi_apply _, measurable_pi_apply _⟩)
  have h2 := h1.comap (Y := (Fin (K + 1) → V) × (Fin N → U)) (g := fun z => ((z.2, (0 : ℝ)), z.1)) (by fun_prop)
    fun key : Key => ⟨splitAll (split key 2 1) K, by simp [splitAll, pathInputs]⟩
  have h3 := (h0.bind h2).map (g := fun z : (Fin (K + 1) → V) × ((Fin N → U) × ℝ) => z.2.1) (by fun_prop)
  refine h3.congr fun key ys f hf => ?_
  have hsi := scanInputs_eq ts ys (splitAll (split key 2 1) K)
  have hlen : (arr fun i => ys (Fin.rev i)).2.length = K := by simp [arr]
  simp only [bootstrapFilter, Rand.E_map, Rand.E_bind, Rand.pure_eq, Rand.E_ret, if_true, hlen, FilterOut.final]
  change _ = Rand.E _ fun a => Rand.E (Rand.scan _ _ (List.zipWith _ _ _)) _
  rw [← hsi]
  simp [arr, toArr1]

end Run

/-! ### The bound -/

section Bound

variable {N K : ℕ} {ι κ ζ : Type} [Fintype ζ]

/-- **C89, how far the guess moves the start.**  In the situation of `C89_path_bound`, the law of the state returned by
`gibbs_init` (methods `filter` and `smoother`, `marg_y=False`) moves by at most `ε / 2 · √(∑ₖ (tₖ₊₁ - tₖ) / g(tₖ)²)`
when the guess moves from `x` to `x'`. -/
theorem C89_guess_bound [NeZero N] (e : ι ⊕ κ ≃ ζ) {b : (ζ → ℝ) → ℝ → (ζ → ℝ)} (hb : ∀ t, Measurable fun z => b z t)
    {disp : ℝ → ℝ} {ts : Fin (K + 1) → ℝ} (hg : ∀ t ∈ (arr ts).init, disp t ≠ 0)
    (hne : ∀ i ∈ (arr ts).init.zip (arr ts).2, i.1 ≠ i.2) {x x' : ι → ℝ} {ε : ℝ} (hε : 0 ≤ ε)
    (hL : ∀ t ∈ (arr ts).init, ∀ u v,
      ∑ i, (b (Toy.concat e u v) t i - b (Toy.concat e (u + (x' - x)) v) t i) ^ 2 ≤ ε ^ 2)
    {m : Gibbs.Funs N (ι → ℝ) (κ → ℝ) (ζ → ℝ)} {y0 : κ → ℝ}
    (hf : ∀ k x, m.fwd k x y0 = eulerPath k (Toy.concat e x y0) (arr ts) b disp 1)
    (hu : ∀ p, (m.unpack p).2 = p.map (Toy.unpackV e)) {S : StateSpace (ι → ℝ) (κ → ℝ)} (hS : S.JointMeas)
    {ν : Measure (ι → ℝ)} [IsProbabilityMeasure ν]
    (htr : ∀ xs v t k (F : (Fin N → ι → ℝ) → ℝ≥0∞), Measurable F →
      (m.transSampler xs v t k).E F = ∫⁻ x, F x ∂(Measure.pi fun i => S.trans v t (xs i)))
    (hlik : ∀ v xs v' t i, m.lik v xs v' t i = S.logG v v' t (xs i))
    (hn : ∀ k r (F : (Fin N → ι → ℝ) → ℝ≥0∞), Measurable F → (m.normal k r).E F = ∫⁻ x, F x ∂(Measure.pi fun _ => ν))
    {method : String} (hmet : method = "filter" ∨ method = "smoother") (key : Key) {F : (ι → ℝ) → ℝ≥0∞}
    (hF : Measurable F) (h1 : ∀ x, F x ≤ 1) :
    |((gibbsInit m method false key y0 x (arr ts)).E (onState F)).toReal -
      ((gibbsInit m method false key y0 x' (arr ts)).E (onState F)).toReal| ≤
      ε / 2 * Real.sqrt (invMass disp (arr ts).1 (arr ts).2) := by
  have hprob : ∀ k x, (m.fwd k x y0).IsProb := fun k x => by rw [hf]; exact isProb_eulerPath _ _ _ _ _ _
  have hm : PmcmcImplements (initFuns m key) (Kernel.const _ ν) S :=
    ⟨fun k v n F hF => hn _ _ F hF, htr, hlik⟩
  have hker := hasKer_filter hm hS (scheme_stratified (N := N)) ts
  set H : Arr1 (κ → ℝ) → ℝ≥0∞ := fun v =>
    (bootstrapFilter (initFuns m key) Resampling.stratified v.reverse (arr ts) (split key 6 3) true true).E
      fun out => F (out.final 0) with hH
  set G : List (κ → ℝ) → ℝ≥0∞ := fun l => min 1 (H (l.headD 0, l.tail)) with hG
  have hH1 : ∀ q : Fin (K + 1) → κ → ℝ, H (arr q) = (FilterOut.final <$> bootstrapFilter (initFuns m key)
      Resampling.stratified (arr fun i => q (Fin.rev i)) (arr ts) (split key 6 3) true true).E fun us => F (us 0) := by
    intro q
    rw [hH, Rand.E_map]
    simp only [arr_reverse]
  have hHm : Measurable fun q : Fin (K + 1) → κ → ℝ => H (arr q) := by
    simp only [hH1]
    exact hker.measurable (split key 6 3) (f := fun _ us => F (us 0)) (by
      exact hF.comp ((measurable_pi_apply (0 : Fin N)).comp measurable_snd))
  have hHle : ∀ q : Fin (K + 1) → κ → ℝ, H (arr q) ≤ 1 := by
    intro q
    obtain ⟨k, hk, hE⟩ := hker
    rw [hH1]
    refine (hE (split key 6 3) q _ (hF.comp (measurable_pi_apply (0 : Fin N)))).trans_le ?_
    refine (lintegral_mono fun us => h1 _).trans ?_
    simp
  have hGm : MeasList ((arr ts).2.length + 1) G := by
    have hlen : (arr ts).2.length = K := by simp [arr]
    rw [hlen]
    show Measurable fun q : Fin (K + 1) → κ → ℝ => min 1 (H ((List.ofFn q).headD 0, (List.ofFn q).tail))
    have : (fun q : Fin (K + 1) → κ → ℝ => min 1 (H ((List.ofFn q).headD 0, (List.ofFn q).tail))) =
        fun q => min 1 (H (arr q)) := by
      funext q
      simp [arr, List.ofFn_succ]
    rw [this]
    exact measurable_const.min hHm
  have hE : ∀ z : ι → ℝ, (gibbsInit m method false key y0 z (arr ts)).E (onState F) =
      (eulerPath (split key 6 0) (Toy.concat e z y0) (arr ts) b disp 1).E fun p => G (p.toList.map (Toy.unpackV e)) := by
    intro z
    rw [init_state_E m hmet key y0 hprob, hf]
    refine Rand.E_congr_leaves (eulerPath_leaves (split key 6 0) (Toy.concat e z y0) (arr ts) b disp 1) fun p hp => ?_
    have hp' : p.2.length = K := by simpa [arr] using hp
    have h2 : H (p.map (Toy.unpackV e)) ≤ 1 := by
      have := hHle fun i => Toy.unpackV e (p.toList[i.1]'(by simp [Arr1.toList, hp']; omega))
      refine le_trans (le_of_eq ?_) this
      congr 1
      apply arr1_ext
      rw [arr_toList]
      refine List.ext_getElem ?_ fun n h1 h2 => ?_
      · simp [Arr1.toList, Arr1.map, hp']
      · cases n <;> simp [Arr1.toList, Arr1.map]
    rw [hu]
    show H (p.map (Toy.unpackV e)) = _
    simp only [hG, Arr1.toList, List.map_cons, List.headD_cons, List.tail_cons]
    exact (min_eq_right h2).symm
  rw [hE, hE]
  exact C89_path_bound e hb hg hne hε hL y0 _ _ hGm fun l => min_le_left _ _

end Bound

end Props
end Fbs
