import Verif.Model.ToyGibbs
import Verif.Props.GibbsBridge
import Verif.Props.GibbsError
import Verif.Props.PosteriorStability

/-!
# C92: the Gibbs chain with an inexact drift, on average over the observation

C91 fixes the observation `y0`.  The error of a learnt score is known only on average over the data, hence on average over the
observation too.  Here `(x0, y0)` has a joint law, and the error of the chain is measured by test functions of the state and of
the observation.
-/

open MeasureTheory ProbabilityTheory InformationTheory
open scoped ENNReal BigOperators

namespace Fbs
namespace Props

open Jax Spec Csmc Gibbs

variable {n N : ℕ} {U V Z Y : Type} [MeasurableSpace U] [MeasurableSpace V] [MeasurableSpace Y]

/-! ### Measurability in a parameter of the test function -/

/-- A functional of the particle system with a parameter is jointly measurable. -/
def MeasFunP (k : ℕ) (Ψ : Y → St N U → Fin N → ℝ≥0∞) : Prop :=
  ∀ (X : Type) [MeasurableSpace X] (y : X → Y), Measurable y → ∀ st : X → St N U, MeasSt k st → ∀ b,
    Measurable fun x => Ψ (y x) (st x) b

theorem measurable_lastF_param {F : Y → U → ℝ≥0∞} (hF : Measurable fun q : Y × U => F q.1 q.2) {k : ℕ} {X : Type}
    [MeasurableSpace X] {y : X → Y} (hy : Measurable y) {st : X → St N U} (hst : MeasSt k st) (b : Fin N) :
    Measurable fun x => lastF (fun u _ => F (y x) u) (((st x).P b).map Prod.fst) (((st x).P b).map Prod.snd) := by
  obtain ⟨p, hp, hP⟩ := hst.P
  simp only [hP, lastF]
  cases k with
  | zero => simp
  | succ k =>
    simp only [List.range_succ, List.map_append, List.map_cons, List.map_nil, List.getLast?_append, List.getLast?_singleton,
      Option.some_or, Option.elim_some]
    exact hF.comp (hy.prodMk (measurable_fst.comp ((measurable_pi_apply k).comp ((measurable_pi_apply b).comp hp))))

theorem measFunP_move {k : ℕ} (eb : Bool) {F : Y → U → ℝ≥0∞} (hF : Measurable fun q : Y × U => F q.1 q.2) :
    MeasFunP (N := N) k fun y => moveΨ eb (F y) := by
  intro X _ y hy st hst b
  have hk : ∀ i, Measurable fun x => keepΨ (lastF (fun u _ => F (y x) u)) (st x) i := fun i =>
    measurable_lastF_param hF hy hst i
  have hW : ∀ i, Measurable fun z => (st z).W i := fun i => (measurable_pi_apply i).comp hst.W
  unfold moveΨ
  cases eb
  · simp only [Bool.false_eq_true, if_false, selectΨ]
    exact Finset.measurable_sum _ fun B _ => (ENNReal.measurable_ofReal.comp
      ((hW B).div (Finset.measurable_sum _ fun i _ => hW i))).mul (hk B)
  · simp only [if_true, forceΨ]
    refine (Finset.measurable_sum _ fun i _ =>
      (ENNReal.measurable_ofReal.comp (measurable_moveP hst.W b i)).mul (hk i)).add ?_
    exact (ENNReal.measurable_ofReal.comp
      (measurable_const.sub (Finset.measurable_sum _ fun i _ => measurable_moveP hst.W b i))).mul (hk b)

theorem measurable_Cf_param [NeZero N] {c : (Fin N → ℝ) → Fin N → Fin N → (Fin N → Fin N) → ℝ≥0∞}
    (hc : ∀ i j A, Measurable fun w => c w i j A) {Ψ : Y → St N U → Fin N → ℝ≥0∞} (S : StateSpace U V)
    (hS : S.JointMeas) : ∀ (n : ℕ) (ts : List ℝ), n ≤ ts.length → ∀ k : ℕ, MeasFunP (k + n) Ψ →
    ∀ (X : Type) [MeasurableSpace X] (y : X → Y), Measurable y → ∀ (st : X → St N U), MeasSt k st →
    ∀ q : X → ℕ → U × Fin N, Measurable q → ∀ v : X → ℕ → V, Measurable v → ∀ b,
      Measurable fun z => Cf c (Ψ (y z)) (seqSteps S (v z) n ts) ((List.range n).map (q z)) (st z) b := by
  intro n
  induction n with
  | zero =>
    intro ts _ k h X _ y hy st hst q hq v hv b
    simp only [seqSteps_zero, List.range_zero, List.map_nil, Cf]
    exact h X y hy st hst b
  | succ n ih =>
    intro ts hts k hΨ X _ y hy st hst q hq v hv b
    obtain ⟨t, ts, rfl⟩ : ∃ t ts', ts = t :: ts' := by
      cases ts with
      | nil => simp at hts
      | cons t ts => exact ⟨t, ts, rfl⟩
    have ih' := ih ts (by simpa using hts) (k + 1) (by rw [show k + 1 + n = k + (n + 1) by omega]; exact hΨ)
    simp only [seqSteps_cons, range_map_succ]
    have h0 : Measurable fun z => q z 0 := (measurable_pi_apply 0).comp hq
    have hv0 : Measurable fun z => v z 0 := (measurable_pi_apply 0).comp hv
    have hq' := measurable_tail hq
    have hv' := measurable_tail hv
    let s : X → FKStep U := fun z =>
      ⟨S.trans (v z 0) t, S.markov (v z 0) t, S.logG (v z 1) (v z 0) t, S.measG (v z 1) (v z 0) t⟩
    have key : ∀ b', Measurable fun z => ∑ A, c (st z).W b b' A *
        ∫⁻ x, Cf c (Ψ (y z)) (seqSteps S (fun j => v z (j + 1)) n ts) ((List.range n).map fun j => q z (j + 1))
          (next (s z) (st z) A (Function.update x b' (q z 0).1)) b'
          ∂(Measure.pi fun i => S.trans (v z 0) t ((st z).x (A i))) := by
      intro b'
      refine Finset.measurable_sum _ fun A _ => Measurable.mul ((hc b b' A).comp hst.W) ?_
      refine measurable_lintegral_pi (Z := X) (X := V × U) (x := fun z i => (v z 0, (st z).x (A i)))
        (jointTrans S hS t) ?_ ?_
      · exact measurable_pi_iff.2 fun i => hv0.prodMk ((measurable_pi_apply (A i)).comp hst.x)
      · refine ih' (X × (Fin N → U)) (fun r => y r.1) (hy.comp measurable_fst)
          (fun r => next (s r.1) (st r.1) A (Function.update r.2 b' (q r.1 0).1))
          ?_ (fun r j => q r.1 (j + 1)) (hq'.comp measurable_fst) (fun r j => v r.1 (j + 1))
          (hv'.comp measurable_fst) b'
        refine (hst.comp measurable_fst).next_param _ (fun x hx => ?_) A
          (measurable_update_pi measurable_snd (measurable_fst.comp (h0.comp measurable_fst)))
        exact measurable_logG S hS t (v := fun r : X × (Fin N → U) => v r.1) (hv.comp measurable_fst) hx
    have := measurable_idx (F := fun b' z => ∑ A, c (st z).W b b' A *
        ∫⁻ x, Cf c (Ψ (y z)) (seqSteps S (fun j => v z (j + 1)) n ts) ((List.range n).map fun j => q z (j + 1))
          (next (s z) (st z) A (Function.update x b' (q z 0).1)) b'
          ∂(Measure.pi fun i => S.trans (v z 0) t ((st z).x (A i)))) key (b := fun z => (q z 0).2)
          (measurable_snd.comp h0)
    exact this

omit [MeasurableSpace U] in
theorem getLastD_arr {α : Type} {K : ℕ} (q : Fin (K + 1) → α) : (arr q).2.getLastD (arr q).1 = q (Fin.last K) := by
  cases K with
  | zero => simp [arr]
  | succ K =>
    simp only [arr]
    rw [List.ofFn_succ', List.concat_eq_append]
    simp

/-- The conditional run as a functional of the two paths, with the end of the second path as parameter of the test function. -/
theorem measPaths_joint [NeZero N] {K : ℕ} {S : StateSpace U V} (hS : S.JointMeas)
    {Ψ : V → St N U → Fin N → ℝ≥0∞} (hΨ : MeasFunP (1 + K) Ψ) (c : ℝ) {ts : Arr1 ℝ} (hts : ts.2.length = K)
    {bs : Arr1 (Fin N)} (hb : bs.2.length = K) :
    MeasPaths K fun us vs => Cf killingScheme.cond (Ψ (vs.2.getLastD vs.1)) (S.steps vs.1 vs.2 ts.toList) (us.2.zip bs.2)
      (startSt N c us.1) bs.1 := by
  have htl : K ≤ ts.toList.length := by simp [Arr1.toList, hts]
  unfold MeasPaths
  have e : ∀ q : (Fin (K + 1) → U) × (Fin (K + 1) → V),
      Cf killingScheme.cond (Ψ ((arr q.2).2.getLastD (arr q.2).1)) (S.steps (arr q.2).1 (arr q.2).2 ts.toList)
        ((arr q.1).2.zip bs.2) (startSt N c (arr q.1).1) bs.1
      = Cf killingScheme.cond (Ψ (q.2 (Fin.last K))) (seqSteps S (ext q.2) K ts.toList)
        ((List.range K).map fun j => (ext q.1 (j + 1), bs.2.getD j bs.1)) (startSt N c (ext q.1 0)) bs.1 := by
    intro q
    rw [getLastD_arr]
    simp only [arr_eq q.1, arr_eq q.2, zip_range _ bs.2 hb bs.1]
    rfl
  simp only [e]
  refine measurable_Cf_param killingScheme.meas S hS K ts.toList htl 1 hΨ ((Fin (K + 1) → U) × (Fin (K + 1) → V))
    (fun q => q.2 (Fin.last K)) ((measurable_pi_apply (Fin.last K)).comp measurable_snd) _
    (measSt_start _ ((measurable_pi_apply 0).comp (measurable_ext.comp measurable_fst))) _ ?_
    (fun q => ext q.2) (measurable_ext.comp measurable_snd) bs.1
  exact measurable_pi_iff.2 fun j => ((measurable_pi_apply (j + 1)).comp
    (measurable_ext.comp measurable_fst)).prodMk measurable_const

theorem measurable_pinned {K : ℕ} {S : StateSpace U V} (hS : S.JointMeas) {ts : Arr1 ℝ} (hts : ts.2.length = K)
    {φ : Arr1 U → Arr1 V → ℝ≥0∞} (hφ : MeasPaths K φ) : Measurable fun q : U × (Fin (K + 1) → V) =>
      pathInt (S.steps (arr q.2).1 (arr q.2).2 ts.toList) q.1 (fun l => φ (q.1, l) (arr q.2)) := by
  have htl : K ≤ ts.toList.length := by simp [Arr1.toList, hts]
  have hss : ∀ v : Fin (K + 1) → V, S.steps (arr v).1 (arr v).2 ts.toList = seqSteps S (ext v) K ts.toList := by
    intro v; simp only [arr_eq]; rfl
  simp only [hss]
  refine measurable_pathInt_obs S hS K ts.toList htl _ (fun q l => φ (q.1, l) (arr q.2)) ?_ _ measurable_fst
    (fun q => ext q.2) (measurable_ext.comp measurable_snd)
  have hm : Measurable fun q : (U × (Fin (K + 1) → V)) × (ℕ → U) =>
      (((Fin.cons q.1.1 fun j : Fin K => q.2 j), q.1.2) : (Fin (K + 1) → U) × (Fin (K + 1) → V)) := by
    refine Measurable.prodMk (measurable_pi_iff.2 fun j => ?_) (measurable_snd.comp measurable_fst)
    refine Fin.cases ?_ (fun j => ?_) j
    · exact measurable_fst.comp measurable_fst
    · exact (measurable_pi_apply (j : ℕ)).comp measurable_snd
  have := Measurable.comp hφ hm
  convert this using 1
  funext q
  simp only [Function.comp_apply]
  congr 1
  refine Prod.ext (by simp [arr]) ?_
  simp only [arr]
  apply List.ext_getElem <;> simp

theorem pinnedLaw_dirac {K : ℕ} {S : StateSpace U V} (hS : S.JointMeas) {ts : Arr1 ℝ} (hts : ts.2.length = K)
    {φ : Arr1 U → Arr1 V → ℝ≥0∞} (hφ : MeasPaths K φ) (q : U × (Fin (K + 1) → V)) :
    pinnedLaw S ts (Measure.dirac q) φ =
      pathInt (S.steps (arr q.2).1 (arr q.2).2 ts.toList) q.1 (fun l => φ (q.1, l) (arr q.2)) :=
  lintegral_dirac' q (measurable_pinned hS hts hφ)

/-- `gibbs_core_law` for test functions of the end of both paths. -/
theorem core_joint {K : ℕ} [NeZero N] {S : StateSpace U V} (hS : S.JointMeas) {ts : Arr1 ℝ} (hts : ts.2.length = K)
    (Λ : Measure (U × (Fin (K + 1) → V))) (c : ℝ) (eb : Bool)
    (hreg : eb = true → ∀ v v' t (x : Fin N → U), Regular (normalise fun i => S.logG v v' t (x i)))
    {F : U → V → ℝ≥0∞} (hF : Measurable fun q : U × V => F q.1 q.2) :
    avgBs N K (fun bs => pinnedLaw S ts Λ fun us vs => Cf killingScheme.cond (moveΨ eb fun u => F u (vs.2.getLastD vs.1))
        (S.steps vs.1 vs.2 ts.toList) (us.2.zip bs.2) (startSt N c us.1) bs.1) =
      pinnedLaw S ts Λ fun us vs => F (us.2.getLastD us.1) (vs.2.getLastD vs.1) := by
  have hFy : ∀ y, Measurable fun u => F u y := fun y => hF.comp (measurable_id.prodMk measurable_const)
  have hF' : Measurable fun q : V × U => F q.2 q.1 := hF.comp measurable_swap
  have hm : ∀ bs : Arr1 (Fin N), bs.2.length = K → MeasPaths K fun us vs =>
      Cf killingScheme.cond (moveΨ eb fun u => F u (vs.2.getLastD vs.1))
        (S.steps vs.1 vs.2 ts.toList) (us.2.zip bs.2) (startSt N c us.1) bs.1 := fun bs hb =>
    measPaths_joint (Ψ := fun y => moveΨ eb fun u => F u y) hS (measFunP_move (F := fun y u => F u y) eb hF') c hts hb
  have hp : ∀ q : U × (Fin (K + 1) → V),
      avgBs N K (fun bs => pathInt (S.steps (arr q.2).1 (arr q.2).2 ts.toList) q.1 fun l =>
        Cf killingScheme.cond (moveΨ eb fun u => F u ((arr q.2).2.getLastD (arr q.2).1))
          (S.steps (arr q.2).1 (arr q.2).2 ts.toList) (l.zip bs.2) (startSt N c q.1) bs.1) =
        pathInt (S.steps (arr q.2).1 (arr q.2).2 ts.toList) q.1 fun l =>
          F (l.getLastD q.1) ((arr q.2).2.getLastD (arr q.2).1) := by
    intro q
    set y := (arr q.2).2.getLastD (arr q.2).1 with hy
    have h := gibbs_core_law (N := N) hS hts (Λ := Measure.dirac q) (I := pinnedLaw S ts (Measure.dirac q)) (fun φ _ => rfl) c
      (Ψ := moveΨ eb fun u => F u y) (measFun_move eb (hFy y)) (Q := fun w => eb = true → Regular w)
      (fun v v' t x he => hreg he v v' t x) (fun _ => regular_uniform _) (F := fun x _ => F x y) (fun _ => hFy y)
      (fun st hW hQ => move_eq_keep (Q := fun w => eb = true → Regular w) (fun he w hw => hw he) (fun u => F u y) st hW hQ)
      (R := fun us vs bs => Cf killingScheme.cond (moveΨ eb fun u => F u y) (S.steps vs.1 vs.2 ts.toList) (us.2.zip bs.2)
        (startSt N c us.1) bs.1) fun us vs bs _ _ _ => rfl
    have e1 := avgBs_congr (N := N) (K := K) fun bs hb => pinnedLaw_dirac hS hts
      (measPaths_pinned hS (measFun_move eb (hFy y)) c hts (bs := bs) hb) q
    rw [e1] at h
    rw [h]
    simp only [lastF_toList (fun u => F u y), avgBs_const]
    exact pinnedLaw_dirac hS hts (measPaths_last (hFy y)) q
  have hL := lintegral_avgBs (N := N) Λ (K := K) fun bs hb => measurable_pinned hS hts (hm bs hb)
  unfold pinnedLaw
  rw [← hL]
  exact lintegral_congr hp

/-! ### One call and the loop -/

/-- The paths drawn by `gibbs_kernel` have a law for every `x0` and `y0`, which is jointly measurable in them, and the second of the
reversed paths ends in `y0`. -/
structure JointPaths {ef : Bool} (m : Gibbs.Funs (rows n ef) U V Z) (margY : Bool) (ts : Arr1 ℝ) (K : ℕ) : Prop where
  prob : ∀ key x y0 (c : ℝ≥0∞), (gibbsPaths m margY key x y0 ts).E (fun _ => c) = c
  meas : ∀ key φ, MeasPaths K φ → Measurable fun q : U × V => (gibbsPaths m margY key q.1 q.2 ts).E (fun p => φ p.1 p.2)
  ends : ∀ key x y0, (gibbsPaths m margY key x y0 ts).Leaves fun p => p.2.2.getLastD p.2.1 = y0

/-- With `(x0, y0) ~ ϖ`, the two reversed paths drawn by `gibbs_kernel` have a law that exceeds the law `L` by at most `δ` and falls
short of it by at most `δ'`, uniformly over events. -/
structure NearJoint {ef : Bool} (K : ℕ) (m : Gibbs.Funs (rows n ef) U V Z) (margY : Bool) (ϖ : Measure (U × V)) (ts : Arr1 ℝ)
    (L : (Arr1 U → Arr1 V → ℝ≥0∞) → ℝ≥0∞) (δ δ' : ℝ≥0∞) : Prop where
  le : ∀ key φ, MeasPaths K φ → (∀ us vs, φ us vs ≤ 1) →
    ∫⁻ q, (gibbsPaths m margY key q.1 q.2 ts).E (fun p => φ p.1 p.2) ∂ϖ ≤ L φ + δ
  ge : ∀ key φ, MeasPaths K φ → (∀ us vs, φ us vs ≤ 1) →
    L φ ≤ ∫⁻ q, (gibbsPaths m margY key q.1 q.2 ts).E (fun p => φ p.1 p.2) ∂ϖ + δ'

theorem measPaths_ends {K : ℕ} {F : U → V → ℝ≥0∞} (hF : Measurable fun q : U × V => F q.1 q.2) :
    MeasPaths K fun us vs => F (us.2.getLastD us.1) (vs.2.getLastD vs.1) := by
  unfold MeasPaths
  simp only [getLastD_arr]
  have hm : Measurable fun q : (Fin (K + 1) → U) × (Fin (K + 1) → V) => (q.1 (Fin.last K), q.2 (Fin.last K)) :=
    ((measurable_pi_apply _).comp measurable_fst).prodMk ((measurable_pi_apply _).comp measurable_snd)
  exact hF.comp hm

theorem leaves_and {α : Type} {P Q : α → Prop} {p : Rand α} (h : p.Leaves P) (h' : p.Leaves Q) :
    p.Leaves fun a => P a ∧ Q a := by
  induction p with
  | ret a => exact ⟨h, h'⟩
  | draw k β' S μ c ih => exact fun b => ih b (h b) (h' b)

theorem leaves_imp {α : Type} {P Q : α → Prop} {p : Rand α} (h : p.Leaves P) (h' : ∀ a, P a → Q a) : p.Leaves Q := by
  induction p with
  | ret a => exact h' a h
  | draw k β' S μ c ih => exact fun b => ih b (h b)

omit [MeasurableSpace V] in
/-- One call as a mean over the paths, whatever the indices passed in. -/
theorem kernel_paths {K : ℕ} [NeZero n] {m : Gibbs.Funs (rows n false) U V Z} {S : StateSpace U V}
    (htr : ∀ xs v t k (F : (Fin (rows n false) → U) → ℝ≥0∞), Measurable F →
      (m.transSampler xs v t k).E F = ∫⁻ x, F x ∂(Measure.pi fun i => S.trans v t (xs i)))
    (hlik : ∀ v xs v' t i, m.lik v xs v' t i = S.logG v v' t (xs i))
    (hst : ∀ key x y0 (F : U → ℝ≥0∞), Measurable F → (m.fwd key x y0).E (fun p => F (m.unpack p).1.1) = F x)
    (hsh : PathShape m K) {margY : Bool} (eb : Bool) {ts : Arr1 ℝ} (hts : ts.2.length = K)
    (hends : ∀ key x y0, (gibbsPaths m margY key x y0 ts).Leaves fun p => p.2.2.getLastD p.2.1 = y0)
    (key : Key) {bs bs' : Arr1 (Fin (rows n false))} (hb : bs.2.length = K) (hb' : bs'.2.length = K) {F : U → V → ℝ≥0∞}
    (hF : ∀ y, Measurable fun x => F x y) (x : U) (y0 : V) :
    (gibbsKernel false m margY eb key x y0 bs ts).E (fun out => F out.1 y0) =
      (gibbsPaths m margY key x y0 ts).E (fun p => Cf killingScheme.cond (moveΨ eb fun u => F u (p.2.2.getLastD p.2.1))
        (S.steps p.2.1 p.2.2 ts.toList) (p.1.2.zip bs'.2) (startSt (rows n false) (-Real.log n) p.1.1) bs'.1) := by
  rw [C58_gibbs_index_free htr hlik (hst · · y0) hsh margY eb key x hb' hb hts (hF y0),
    E_gibbs_x0 (hst · · y0) margY eb key x bs' ts (hF y0)]
  refine Rand.E_congr_leaves (leaves_and (leaves_gibbsPaths margY key x y0 ts hsh) (hends key x y0)) fun q hq => ?_
  obtain ⟨⟨hu, hv⟩, hy⟩ := hq
  rw [hy]
  exact E_forwardPass_pinned htr hlik _ ts.1 q.1 bs' q.2 ts (hu.trans hv.symm) (hb'.trans hv.symm) (hts.trans hv.symm)
    (by rw [hv]; exact measFun_move eb (hF y0))

theorem joint_step {K : ℕ} [NeZero n] {m : Gibbs.Funs (rows n false) U V Z} {S : StateSpace U V}
    (hS : S.JointMeas)
    (htr : ∀ xs v t k (F : (Fin (rows n false) → U) → ℝ≥0∞), Measurable F →
      (m.transSampler xs v t k).E F = ∫⁻ x, F x ∂(Measure.pi fun i => S.trans v t (xs i)))
    (hlik : ∀ v xs v' t i, m.lik v xs v' t i = S.logG v v' t (xs i))
    (hst : ∀ key x y0 (F : U → ℝ≥0∞), Measurable F → (m.fwd key x y0).E (fun p => F (m.unpack p).1.1) = F x)
    (hsh : PathShape m K) {margY : Bool} (eb : Bool) {ts : Arr1 ℝ} (hts : ts.2.length = K)
    (hbr : margY = true → ∀ key a b (c : ℝ≥0∞), (m.bridge key a b ts).E (fun _ => c) = c)
    (hjp : JointPaths m margY ts K)
    (hreg : eb = true → ∀ v v' t (x : Fin (rows n false) → U), Regular (normalise fun i => S.logG v v' t (x i)))
    {ϖ : Measure (U × V)} {Λ : Measure (U × (Fin (K + 1) → V))} {δ δ' : ℝ≥0∞}
    (hnear : NearJoint K m margY ϖ ts (pinnedLaw S ts Λ) δ δ')
    (key : Key) {F : U → V → ℝ≥0∞} (hF : Measurable fun q : U × V => F q.1 q.2) (h1 : ∀ x y, F x y ≤ 1) :
    ∃ G : U → V → ℝ≥0∞, (Measurable fun q : U × V => G q.1 q.2) ∧ (∀ x y, G x y ≤ 1) ∧
      (∀ (bs : Arr1 (Fin (rows n false))) x y0, bs.2.length = K →
        (gibbsKernel false m margY eb key x y0 bs ts).E (fun out => F out.1 y0) = G x y0) ∧
      ∫⁻ q, F q.1 q.2 ∂ϖ ≤ ∫⁻ q, G q.1 q.2 ∂ϖ + (δ + δ') ∧ ∫⁻ q, G q.1 q.2 ∂ϖ ≤ ∫⁻ q, F q.1 q.2 ∂ϖ + (δ + δ') := by
  have hFy : ∀ y, Measurable fun u => F u y := fun y => hF.comp (measurable_id.prodMk measurable_const)
  let R : Arr1 U → Arr1 V → Arr1 (Fin (rows n false)) → ℝ≥0∞ := fun us vs bs =>
    Cf killingScheme.cond (moveΨ eb fun u => F u (vs.2.getLastD vs.1)) (S.steps vs.1 vs.2 ts.toList) (us.2.zip bs.2)
      (startSt (rows n false) (-Real.log n) us.1) bs.1
  have hR1 : ∀ us vs bs, R us vs bs ≤ 1 := fun us vs bs =>
    Cf_move_le_one eb (fun u => h1 u _) _ _ _ _ (normalise_weights _) fun a => by simp [startSt, initSt]
  have hRm : ∀ bs : Arr1 (Fin (rows n false)), bs.2.length = K → MeasPaths K fun us vs => R us vs bs := fun bs hb =>
    measPaths_joint (Ψ := fun y => moveΨ eb fun u => F u y) hS
      (measFunP_move (F := fun y u => F u y) eb (hF.comp measurable_swap)) _ hts hb
  have hcore := core_joint (N := rows n false) hS hts Λ (-Real.log n) eb hreg hF
  let b0 : Arr1 (Fin (rows n false)) := (0, List.replicate K 0)
  have hb0 : b0.2.length = K := by simp [b0]
  let G : U → V → ℝ≥0∞ := fun x y0 => (gibbsPaths m margY key x y0 ts).E fun p => R p.1 p.2 b0
  have hk : ∀ (bs bs' : Arr1 (Fin (rows n false))), bs.2.length = K → bs'.2.length = K → ∀ x y0,
      (gibbsKernel false m margY eb key x y0 bs ts).E (fun out => F out.1 y0) =
        (gibbsPaths m margY key x y0 ts).E fun p => R p.1 p.2 bs' := fun bs bs' hb hb' x y0 =>
    kernel_paths htr hlik hst hsh eb hts hjp.ends key hb hb' hFy x y0
  have hGb : ∀ bs' : Arr1 (Fin (rows n false)), bs'.2.length = K → ∀ x y0,
      G x y0 = (gibbsPaths m margY key x y0 ts).E fun p => R p.1 p.2 bs' := fun bs' hb' x y0 =>
    (hk b0 b0 hb0 hb0 x y0).symm.trans (hk b0 bs' hb0 hb' x y0)
  have hFe : ∫⁻ q, F q.1 q.2 ∂ϖ = ∫⁻ q, (gibbsPaths m margY key q.1 q.2 ts).E
      (fun p => F (p.1.2.getLastD p.1.1) (p.2.2.getLastD p.2.1)) ∂ϖ := by
    refine lintegral_congr fun q => ?_
    rw [Rand.E_congr_leaves (hjp.ends key q.1 q.2) (g := fun p => F (p.1.2.getLastD p.1.1) q.2) fun p hp => by rw [hp]]
    exact (paths_end (hst · · q.2) hbr key q.1 (hFy q.2)).symm
  refine ⟨G, hjp.meas key _ (hRm b0 hb0), fun x y0 => ?_, fun bs x y0 hb => hk bs b0 hb hb0 x y0, ?_, ?_⟩
  · exact (Rand.E_mono _ fun p => hR1 _ _ _).trans (hjp.prob key x y0 1).le
  · calc ∫⁻ q, F q.1 q.2 ∂ϖ ≤ pinnedLaw S ts Λ (fun us vs => F (us.2.getLastD us.1) (vs.2.getLastD vs.1)) + δ := by
          rw [hFe]; exact hnear.le key _ (measPaths_ends hF) fun us vs => h1 _ _
      _ = avgBs (rows n false) K (fun bs => pinnedLaw S ts Λ fun us vs => R us vs bs) + δ := by rw [hcore]
      _ ≤ avgBs (rows n false) K (fun _ => ∫⁻ q, G q.1 q.2 ∂ϖ + δ') + δ := by
          gcongr
          exact avgBs_mono fun bs' hb' => (hnear.ge key _ (hRm bs' hb') fun us vs => hR1 us vs bs').trans
            (by simp only [hGb bs' hb']; exact le_rfl)
      _ = _ := by rw [avgBs_const, add_assoc, add_comm δ']
  · calc ∫⁻ q, G q.1 q.2 ∂ϖ = avgBs (rows n false) K (fun _ => ∫⁻ q, G q.1 q.2 ∂ϖ) := (avgBs_const _ _).symm
      _ ≤ avgBs (rows n false) K (fun bs => pinnedLaw S ts Λ (fun us vs => R us vs bs) + δ) :=
          avgBs_mono fun bs' hb' => by
            simp only [hGb bs' hb']
            exact hnear.le key _ (hRm bs' hb') fun us vs => hR1 us vs bs'
      _ = pinnedLaw S ts Λ (fun us vs => F (us.2.getLastD us.1) (vs.2.getLastD vs.1)) + δ := by
          rw [avgBs_add, avgBs_const, hcore]
      _ ≤ _ := by
          rw [hFe, add_comm δ δ', ← add_assoc]
          gcongr
          exact hnear.ge key _ (measPaths_ends hF) fun us vs => h1 _ _

/-- **C92.**  Let `(x0, y0) ~ ϖ`, and let the law of the two reversed paths exceed the path law of the model `S`, whose transition
sampler and likelihood are used, by at most `δ`, and fall short of it by at most `δ'`.  Then the joint law of the state after `k`
iterations and of `y0` is within `k (δ + δ')` of `ϖ`, with any number of particles and any indices. -/
theorem C92_joint_drift {K : ℕ} [NeZero n] {m : Gibbs.Funs (rows n false) U V Z} {S : StateSpace U V}
    (hS : S.JointMeas)
    (htr : ∀ xs v t k (F : (Fin (rows n false) → U) → ℝ≥0∞), Measurable F →
      (m.transSampler xs v t k).E F = ∫⁻ x, F x ∂(Measure.pi fun i => S.trans v t (xs i)))
    (hlik : ∀ v xs v' t i, m.lik v xs v' t i = S.logG v v' t (xs i))
    (hst : ∀ key x y0 (F : U → ℝ≥0∞), Measurable F → (m.fwd key x y0).E (fun p => F (m.unpack p).1.1) = F x)
    (hsh : PathShape m K) {margY : Bool} (eb : Bool) {ts : Arr1 ℝ} (hts : ts.2.length = K)
    (hbr : margY = true → ∀ key a b (c : ℝ≥0∞), (m.bridge key a b ts).E (fun _ => c) = c)
    (hjp : JointPaths m margY ts K)
    (hreg : eb = true → ∀ v v' t (x : Fin (rows n false) → U), Regular (normalise fun i => S.logG v v' t (x i)))
    {ϖ : Measure (U × V)} {Λ : Measure (U × (Fin (K + 1) → V))} {δ δ' : ℝ≥0∞}
    (hnear : NearJoint K m margY ϖ ts (pinnedLaw S ts Λ) δ δ')
    {F : U → V → ℝ≥0∞} (hF : Measurable fun q : U × V => F q.1 q.2) (h1 : ∀ x y, F x y ≤ 1) (k : ℕ) (key : Key)
    {bs : Arr1 (Fin (rows n false))} (hb : bs.2.length = K) :
    ∫⁻ q, (gibbsLoop false m margY eb q.2 ts k key q.1 bs).E (fun out => F out.1 q.2) ∂ϖ ≤
        ∫⁻ q, F q.1 q.2 ∂ϖ + k * (δ + δ') ∧
      ∫⁻ q, F q.1 q.2 ∂ϖ ≤
        ∫⁻ q, (gibbsLoop false m margY eb q.2 ts k key q.1 bs).E (fun out => F out.1 q.2) ∂ϖ + k * (δ + δ') := by
  have main : ∀ (k : ℕ) (key : Key), ∃ G : U → V → ℝ≥0∞, (Measurable fun q : U × V => G q.1 q.2) ∧ (∀ x y, G x y ≤ 1) ∧
      (∀ (bs : Arr1 (Fin (rows n false))) x y0, bs.2.length = K →
        (gibbsLoop false m margY eb y0 ts k key x bs).E (fun out => F out.1 y0) = G x y0) ∧
      ∫⁻ q, G q.1 q.2 ∂ϖ ≤ ∫⁻ q, F q.1 q.2 ∂ϖ + k * (δ + δ') ∧
      ∫⁻ q, F q.1 q.2 ∂ϖ ≤ ∫⁻ q, G q.1 q.2 ∂ϖ + k * (δ + δ') := by
    intro k
    induction k with
    | zero => exact fun key => ⟨F, hF, h1, fun _ _ _ _ => rfl, by simp, by simp⟩
    | succ k ih =>
      intro key
      obtain ⟨G, hG, hG1, hE, ha, hb⟩ := ih (split key 2 0)
      obtain ⟨H, hH, hH1, hHE, hc, hd⟩ := joint_step hS htr hlik hst hsh eb hts hbr hjp hreg hnear (split key 2 1) hG hG1
      refine ⟨H, hH, hH1, fun bs x y0 hb => ?_, ?_, ?_⟩
      · rw [← hHE bs x y0 hb]
        simp only [gibbsLoop, Rand.E_bind]
        refine Rand.E_congr_leaves (leaves_gibbs_length hsh margY eb _ x y0 hb hts) fun out ho => ?_
        refine hE _ _ _ ?_
        match h : out.2.2.1 with
        | [] => simp [h] at ho
        | b :: l => simpa [h, asIdx] using ho
      · refine hd.trans ((add_le_add_left ha _).trans (le_of_eq ?_))
        push_cast; ring
      · refine hb.trans ((add_le_add_left hc _).trans (le_of_eq ?_))
        push_cast; ring
  obtain ⟨G, -, -, hE, ha, hc⟩ := main k key
  simp only [fun q : U × V => hE bs q.1 q.2 hb]
  exact ⟨ha, hc⟩

/-! ### The functions of the experiments -/

open Simulators Toy Girsanov

section Toy

variable {ζ ι κ : Type} [Fintype ζ] [Fintype ι] [Fintype κ] (e : ι ⊕ κ ≃ ζ)

/-- A test function of two paths as a test function of the path of pairs. -/
def onPairs (φ : Arr1 (ι → ℝ) → Arr1 (κ → ℝ) → ℝ≥0∞) : List (ζ → ℝ) → ℝ≥0∞
  | [] => 0
  | z :: l => φ (Arr1.map (unpackU e) (z, l)) (Arr1.map (unpackV e) (z, l))

omit [Fintype ζ] [Fintype ι] [Fintype κ] in
theorem measList_onPairs {K : ℕ} {φ : Arr1 (ι → ℝ) → Arr1 (κ → ℝ) → ℝ≥0∞} (hφ : MeasPaths K φ) :
    MeasList (K + 1) (onPairs e φ) := by
  have hm : Measurable fun q : Fin (K + 1) → ζ → ℝ =>
      ((fun j => unpackU e (q j), fun j => unpackV e (q j)) : (Fin (K + 1) → ι → ℝ) × (Fin (K + 1) → κ → ℝ)) :=
    (measurable_pi_iff.2 fun j => (measurable_unpackU e).comp (measurable_pi_apply j)).prodMk
      (measurable_pi_iff.2 fun j => (measurable_unpackV e).comp (measurable_pi_apply _))
  have h := Measurable.comp hφ hm
  show Measurable fun q : Fin (K + 1) → ζ → ℝ => onPairs e φ (List.ofFn q)
  convert h using 1
  funext q
  simp only [List.ofFn_succ, onPairs, Function.comp_apply, arr, Arr1.map, List.map_ofFn]
  rfl

omit [Fintype ζ] [Fintype ι] [Fintype κ] in
theorem onPairs_toList (φ : Arr1 (ι → ℝ) → Arr1 (κ → ℝ) → ℝ≥0∞) (p : Arr1 (ζ → ℝ)) :
    onPairs e φ p.toList = φ (p.map (unpackU e)) (p.map (unpackV e)) := rfl

omit [MeasurableSpace U] [MeasurableSpace V] [MeasurableSpace Y] in
theorem arr1_map_reverse {α β : Type} (f : α → β) (p : Arr1 α) : (p.map f).reverse = p.reverse.map f := by
  apply arr1_ext
  rw [reverse_toList]
  show (p.toList.map f).reverse = p.reverse.toList.map f
  rw [reverse_toList, List.map_reverse]

/-- A sampler of paths from a given start. -/
structure Forward (fwd : Key → (ζ → ℝ) → Rand (Arr1 (ζ → ℝ))) (K : ℕ) : Prop where
  shape : ∀ key z, (fwd key z).Leaves fun p => p.2.length = K ∧ p.1 = z
  prob : ∀ key z (c : ℝ≥0∞), (fwd key z).E (fun _ => c) = c
  meas : ∀ key φ, MeasList (K + 1) φ → Measurable fun z => (fwd key z).E (fun p => φ p.toList)

variable {fwd : Key → (ζ → ℝ) → Rand (Arr1 (ζ → ℝ))} {bridge : Key → (κ → ℝ) → (κ → ℝ) → Arr1 ℝ → Rand (Arr1 (κ → ℝ))}
  {b b' : (ζ → ℝ) → ℝ → (ζ → ℝ)} {disp : ℝ → ℝ} {dt : ℝ}

omit [Fintype ζ] in
theorem E_gibbsPaths_toy (key : Key) (x : ι → ℝ) (y : κ → ℝ) (ts : Arr1 ℝ) (φ : Arr1 (ι → ℝ) → Arr1 (κ → ℝ) → ℝ≥0∞) :
    (gibbsPaths (n := n) (ef := false) (gibbsFuns e b' disp dt fwd bridge) false key x y ts).E (fun p => φ p.1 p.2) =
      (fwd (split key 3 0) (concat e x y)).E (fun p => onPairs e φ p.toList.reverse) := by
  simp only [gibbsPaths, Rand.E_bind, Rand.pure_eq, Rand.E_ret, Bool.false_eq_true, if_false, gibbsFuns]
  refine Rand.E_congr _ fun p => ?_
  rw [← reverse_toList, onPairs_toList, arr1_map_reverse, arr1_map_reverse]

omit [Fintype ζ] in
theorem measList_reverse {K : ℕ} {φ : List (ζ → ℝ) → ℝ≥0∞} (hφ : MeasList K φ) : MeasList K fun l => φ l.reverse := by
  have hm : Measurable fun q : Fin K → ζ → ℝ => fun j : Fin K => q j.rev := measurable_pi_iff.2 fun j => measurable_pi_apply _
  have h := Measurable.comp hφ hm
  show Measurable fun q : Fin K → ζ → ℝ => φ (List.ofFn q).reverse
  convert h using 1
  funext q
  simp only [Function.comp_apply]
  congr 1
  apply List.ext_getElem
  · simp
  · intro i h1 h2
    simp only [List.length_reverse, List.length_ofFn] at h1
    simp only [List.getElem_reverse, List.getElem_ofFn, List.length_ofFn]
    congr 1
    ext
    simp [Fin.val_rev]
    omega

omit [Fintype ζ] in
theorem pathShape_toy {K : ℕ} (hf : Forward fwd K) (hbr : ∀ k y y' ts, (bridge k y y' ts).Leaves fun p => p.2.length = K) :
    PathShape (N := N) (gibbsFuns e b' disp dt fwd bridge) K := by
  refine ⟨fun k x y => ?_, hbr⟩
  have := hf.shape k (concat e x y)
  refine leaves_imp this fun p hp => ?_
  simp [gibbsFuns, Arr1.map, hp.1]

omit [Fintype ζ] in
theorem starts_toy {K : ℕ} (hf : Forward fwd K) (key : Key) (x : ι → ℝ) (y : κ → ℝ) (F : (ι → ℝ) → ℝ≥0∞) :
    ((gibbsFuns (N := N) e b' disp dt fwd bridge).fwd key x y).E
      (fun p => F ((gibbsFuns (N := N) e b' disp dt fwd bridge).unpack p).1.1) = F x := by
  rw [← hf.prob key (concat e x y) (F x)]
  refine Rand.E_congr_leaves (hf.shape key (concat e x y)) fun p hp => ?_
  simp only [gibbsFuns, Arr1.map, hp.2, unpackU_concat]

omit [Fintype ζ] in
theorem jointPaths_toy {K : ℕ} (hf : Forward fwd K) (ts : Arr1 ℝ) :
    JointPaths (n := n) (ef := false) (gibbsFuns e b' disp dt fwd bridge) false ts K where
  prob key x y c := by
    rw [E_gibbsPaths_toy e key x y ts fun _ _ => c, ← hf.prob (split key 3 0) (concat e x y) c]
    refine Rand.E_congr _ fun p => ?_
    rw [← reverse_toList, onPairs_toList, hf.prob]
  meas key φ hφ := by
    simp only [E_gibbsPaths_toy e]
    have h := hf.meas (split key 3 0) _ (measList_reverse (measList_onPairs e hφ))
    exact h.comp ((measurable_concat e).comp (measurable_fst.prodMk measurable_snd))
  ends key x y := by
    unfold gibbsPaths
    refine (hf.shape (split key 3 0) (concat e x y)).bind fun p hp => ?_
    simp only [Bool.false_eq_true, if_false, Rand.pure_eq, Rand.Leaves, reverse_last]
    simp only [gibbsFuns, Arr1.map, hp.2, unpackV_concat]

/-- The law of `(u_0, v)` when `(u_0, v_0) ~ ρ` and the other `v` are independent with the volume as law. -/
noncomputable def startLaw (ρ : Measure (ζ → ℝ)) (K : ℕ) : Measure ((ι → ℝ) × (Fin (K + 1) → κ → ℝ)) :=
  (ρ.prod (Measure.pi fun _ : Fin K => (volume : Measure (κ → ℝ)))).map
    fun q => (unpackU e q.1, Fin.cons (unpackV e q.1) q.2)

theorem pinned_toy (hb : ∀ t, Measurable fun z => b z t) (c : ℝ) (ref : Measure (ι → ℝ)) [IsProbabilityMeasure ref] (hdt : 0 < dt)
    (ts : Arr1 ℝ) (hts : UniformGrid dt disp ts.1 ts.2) (ρ : Measure (ζ → ℝ)) [SFinite ρ] (key : Key)
    {φ : Arr1 (ι → ℝ) → Arr1 (κ → ℝ) → ℝ≥0∞} (hφ : MeasPaths ts.2.length φ) :
    pinnedLaw (toyModel e hb disp dt c ref) ts (startLaw e ρ ts.2.length) φ =
      ∫⁻ z, (eulerPath key z ts b disp 1).E (fun p => onPairs e φ p.toList) ∂ρ := by
  have hS := toyModel_jointMeas e hb disp dt c ref
  have hm : Measurable fun q : (ζ → ℝ) × (Fin ts.2.length → κ → ℝ) =>
      ((unpackU e q.1, Fin.cons (unpackV e q.1) q.2) : (ι → ℝ) × (Fin (ts.2.length + 1) → κ → ℝ)) := by
    refine ((measurable_unpackU e).comp measurable_fst).prodMk (measurable_pi_iff.2 fun j => ?_)
    refine Fin.cases ?_ (fun j => ?_) j
    · exact (measurable_unpackV e).comp measurable_fst
    · exact (measurable_pi_apply j).comp measurable_snd
  have hp := measurable_pinned hS rfl hφ
  unfold pinnedLaw startLaw
  rw [lintegral_map hp hm]
  refine (lintegral_prod _ (hp.comp hm).aemeasurable).trans ?_
  simp only [Function.comp_apply]
  refine lintegral_congr fun z => ?_
  obtain ⟨t, ts⟩ := ts
  have hφ' : Measurable fun q : (ℕ → ι → ℝ) × (ℕ → κ → ℝ) =>
      φ (unpackU e z, (List.range ts.length).map q.1) (unpackV e z, (List.range ts.length).map q.2) := by
    have hm : Measurable fun q : (ℕ → ι → ℝ) × (ℕ → κ → ℝ) =>
        ((Fin.cons (unpackU e z) fun j : Fin ts.length => q.1 j, Fin.cons (unpackV e z) fun j : Fin ts.length => q.2 j) :
          (Fin (ts.length + 1) → ι → ℝ) × (Fin (ts.length + 1) → κ → ℝ)) := by
      refine Measurable.prodMk (measurable_pi_iff.2 fun j => ?_) (measurable_pi_iff.2 fun j => ?_)
      · refine Fin.cases ?_ (fun j => ?_) j
        · exact measurable_const
        · exact (measurable_pi_apply (j : ℕ)).comp measurable_fst
      · refine Fin.cases ?_ (fun j => ?_) j
        · exact measurable_const
        · exact (measurable_pi_apply (j : ℕ)).comp measurable_snd
    have := Measurable.comp hφ hm
    convert this using 1
    funext q
    have hr : ∀ {α : Type} (q : ℕ → α), (List.range ts.length).map q = List.ofFn fun j : Fin ts.length => q j := by
      intro α q
      apply List.ext_getElem <;> simp
    simp only [Function.comp_apply, arr, hr, Fin.cons_zero, Fin.cons_succ]
  have h := lintegral_pathInt_em e hb c ref hdt ts t hts (splitAll key ts.length) (by simp [splitAll]) (unpackU e z) (unpackV e z)
    (fun l m => φ (unpackU e z, l) (unpackV e z, m)) hφ'
  rw [concat_unpack] at h
  simp only [arr, Fin.cons_zero, Fin.cons_succ, Arr1.toList]
  rw [h]
  simp only [Simulators.eulerPath, Rand.E_bind, Rand.pure_eq, Rand.E_ret]
  rfl

/-- The forward sampler of `experiments/sb_imgs/supr.py` is a sampler of paths. -/
theorem forward_euler {f : (ζ → ℝ) → ℝ → (ζ → ℝ)} (hf : ∀ t, Measurable fun z => f z t) (g : ℝ → ℝ) (ts : Arr1 ℝ) :
    Forward (fun key z => eulerPath key z ts f g 1) ts.2.length where
  shape key z := by
    refine (leaves_scan_length (body := emBody f g 1 id) (emInputs key ts) z).bind fun r hr => ?_
    refine ⟨?_, rfl⟩
    rw [hr]
    simp [emInputs, splitAll, Arr1.init]
  prob key z c := by
    have h := E_eulerPath f g key z ts 1 fun _ => c
    rw [h]
    generalize ts.init.zip ts.2 = is
    clear h
    induction is generalizing z with
    | nil => rfl
    | cons i is ih =>
      obtain ⟨t, t'⟩ := i
      simp only [pathE, ih, lintegral_const, measure_univ, mul_one]
  meas key φ hφ := measurable_eulerPath_start g hf key ts hφ

omit [Fintype ζ] in
/-- **C92, the density handed over.**  The functions the experiments hand to `gibbs_kernel` fit together: `exp(trans_logpdf)` is the
density of each particle drawn by `trans_sampler`, which backward sampling relies on. -/
theorem C92_transition_density {b : (ζ → ℝ) → ℝ → (ζ → ℝ)} (hdt : 0 < dt) {t : ℝ} (ht : disp t ≠ 0) (us : Fin N → ι → ℝ)
    (v : κ → ℝ) (key : Key) (j : Fin N) {f : (ι → ℝ) → ℝ≥0∞} (hf : Measurable f) :
    ((gibbsFuns e b disp dt fwd bridge).transSampler us v t key).E (fun x => f (x j)) =
      ∫⁻ x, ENNReal.ofReal (Real.exp ((gibbsFuns e b disp dt fwd bridge).transLogpdf x us v t j)) * f x :=
  C59_transition_density e b disp hdt ht us v key j hf

omit [Fintype ζ] in
/-- **C92, the reference draws handed over.**  With `explicit_final` the other particles start from independent standard normals,
whatever the number of rows asked for. -/
theorem C92_reference_law {b : (ζ → ℝ) → ℝ → (ζ → ℝ)} (key : Key) (r : ℕ) {F : (Fin N → ι → ℝ) → ℝ≥0∞} (hF : Measurable F) :
    ((gibbsFuns e b disp dt fwd bridge).normal key r).E F = ∫⁻ x, F x ∂(Measure.pi fun _ => stdNormal ι) := by
  simp only [gibbsFuns, Rand.E_bind, normal, Rand.E_sample, Rand.pure_eq, Rand.E_ret]
  have := lintegral_normal_rows (v := 1) (fun (_ : Fin N) (_ : ι) => 0) 1 (by norm_num) hF
  simpa [stdNormal_eq, show (fun _ : ι => (0 : ℝ)) = 0 from rfl] using this

/-- **C92, the functions of the experiments.**  Let `(x0, y0) ~ ϖ`.  Let the law of the reversed paths of the forward sampler exceed
the law of the Euler–Maruyama run with the reverse drift `b`, from a start with law `ρ`, by at most `δ`, and fall short of it by at
most `δ'`: the error of the discretisation and of the reference.  The chain runs with the drift `b'` instead of `b`.  Then the joint
law of the state after `k` iterations and of `y0` is within `k (δ + δ' + 2 √(B / 2))` of `ϖ`, where `B` is the mean cost of the
difference of the drifts along the run with `b`. -/
theorem C92_drift [NeZero n] {b b' : (ζ → ℝ) → ℝ → (ζ → ℝ)} (hb : ∀ t, Measurable fun z => b z t)
    (hb' : ∀ t, Measurable fun z => b' z t) (hdt : 0 < dt) (ts : Arr1 ℝ) (hts : UniformGrid dt disp ts.1 ts.2)
    (hf : Forward fwd ts.2.length) (hbr : ∀ k y y' s, (bridge k y y' s).Leaves fun p => p.2.length = ts.2.length)
    {ϖ : Measure ((ι → ℝ) × (κ → ℝ))} {ρ : Measure (ζ → ℝ)} [IsProbabilityMeasure ρ] {δ δ' : ℝ≥0∞} (key' : Key)
    (hle : ∀ key φ, MeasList (ts.2.length + 1) φ → (∀ p, φ p ≤ 1) →
      ∫⁻ q, (fwd key (concat e q.1 q.2)).E (fun p => φ p.toList.reverse) ∂ϖ ≤
        ∫⁻ z, (eulerPath key' z ts b disp 1).E (fun p => φ p.toList) ∂ρ + δ)
    (hge : ∀ key φ, MeasList (ts.2.length + 1) φ → (∀ p, φ p ≤ 1) →
      ∫⁻ z, (eulerPath key' z ts b disp 1).E (fun p => φ p.toList) ∂ρ ≤
        ∫⁻ q, (fwd key (concat e q.1 q.2)).E (fun p => φ p.toList.reverse) ∂ϖ + δ')
    {B : ℝ≥0∞} (hB : ∫⁻ z, (eulerPath key' z ts b disp 1).E
      (fun p => ENNReal.ofReal (driftCost b b' disp ts.1 ts.2 p.toList)) ∂ρ ≤ B) (hBt : B ≠ ∞)
    {F : (ι → ℝ) → (κ → ℝ) → ℝ≥0∞} (hF : Measurable fun q : (ι → ℝ) × (κ → ℝ) => F q.1 q.2) (h1 : ∀ x y, F x y ≤ 1)
    (k : ℕ) (key : Key) {bs : Arr1 (Fin (rows n false))} (hlen : bs.2.length = ts.2.length) :
    ∫⁻ q, (gibbsLoop false (gibbsFuns e b' disp dt fwd bridge) false false q.2 ts k key q.1 bs).E (fun out => F out.1 q.2) ∂ϖ ≤
        ∫⁻ q, F q.1 q.2 ∂ϖ + k * (δ + δ' + ENNReal.ofReal (2 * Real.sqrt (B.toReal / 2))) ∧
      ∫⁻ q, F q.1 q.2 ∂ϖ ≤
        ∫⁻ q, (gibbsLoop false (gibbsFuns e b' disp dt fwd bridge) false false q.2 ts k key q.1 bs).E (fun out => F out.1 q.2) ∂ϖ +
          k * (δ + δ' + ENNReal.ofReal (2 * Real.sqrt (B.toReal / 2))) := by
  let ref : Measure (ι → ℝ) := stdNormal ι
  have hS := toyModel_jointMeas e hb' disp dt 0 ref
  set B0 := ∫⁻ z, (eulerPath key' z ts b disp 1).E
      (fun p => ENNReal.ofReal (driftCost b b' disp ts.1 ts.2 p.toList)) ∂ρ with hB0
  have hB0t : B0 ≠ ∞ := ne_top_of_le_ne_top hBt hB
  set s := Real.sqrt (B.toReal / 2) with hs
  have hE1 : ∀ (d : (ζ → ℝ) → ℝ → (ζ → ℝ)) (_ : ∀ t, Measurable fun z => d z t) (φ : List (ζ → ℝ) → ℝ≥0∞), (∀ p, φ p ≤ 1) →
      ∫⁻ z, (eulerPath key' z ts d disp 1).E (fun p => φ p.toList) ∂ρ ≤ 1 := by
    intro d hd φ h
    refine (lintegral_mono fun z => (Rand.E_mono _ fun p => h _).trans ((forward_euler hd disp ts).prob key' z 1).le).trans ?_
    simp
  have hgap : ∀ φ, MeasList (ts.2.length + 1) φ → (∀ p, φ p ≤ 1) →
      |(∫⁻ z, (eulerPath key' z ts b disp 1).E (fun p => φ p.toList) ∂ρ).toReal -
        (∫⁻ z, (eulerPath key' z ts b' disp 1).E (fun p => φ p.toList) ∂ρ).toReal| ≤ s := by
    intro φ hφ h
    refine (C87_path disp hb hb' (uniformGrid_disp hts) (uniformGrid_ne hdt hts) ρ ρ key' key' (B := B0) (by
      rw [klDiv_self, zero_add]) hB0t hφ h).trans ?_
    exact Real.sqrt_le_sqrt (by have := ENNReal.toReal_mono hBt hB; linarith)
  have hnear : NearJoint (n := n) (ef := false) ts.2.length (gibbsFuns e b' disp dt fwd bridge) false ϖ ts
      (pinnedLaw (toyModel e hb' disp dt 0 ref) ts (startLaw e ρ ts.2.length)) (δ + ENNReal.ofReal s) (δ' + ENNReal.ofReal s) := by
    have hpair : ∀ (φ : Arr1 (ι → ℝ) → Arr1 (κ → ℝ) → ℝ≥0∞), (∀ us vs, φ us vs ≤ 1) → ∀ p : List (ζ → ℝ), onPairs e φ p ≤ 1 := by
      intro φ h p
      cases p with
      | nil => exact bot_le
      | cons z l => exact h _ _
    refine ⟨fun key φ hφ h => ?_, fun key φ hφ h => ?_⟩
    · rw [pinned_toy e hb' 0 ref hdt ts hts ρ key' hφ]
      simp only [E_gibbsPaths_toy e]
      refine (hle _ _ (measList_onPairs e hφ) (hpair φ h)).trans ?_
      rw [add_comm δ, ← add_assoc]
      refine add_le_add ?_ le_rfl
      exact le_add_of_gap (hE1 b hb _ (hpair φ h)) (hE1 b' hb' _ (hpair φ h)) (hgap _ (measList_onPairs e hφ) (hpair φ h))
    · rw [pinned_toy e hb' 0 ref hdt ts hts ρ key' hφ]
      simp only [E_gibbsPaths_toy e]
      refine (le_add_of_gap (δ := s) (hE1 b' hb' _ (hpair φ h)) (hE1 b hb _ (hpair φ h)) (by
        rw [abs_sub_comm]; exact hgap _ (measList_onPairs e hφ) (hpair φ h))).trans ?_
      rw [← add_assoc]
      refine add_le_add ?_ le_rfl
      exact hge _ _ (measList_onPairs e hφ) (hpair φ h)
  have h := C92_joint_drift (n := n) (m := gibbsFuns e b' disp dt fwd bridge) (S := toyModel e hb' disp dt 0 ref) hS
    (fun xs v t k F hF => E_transitionSampler e disp dt hdt.le xs v t k hF) (fun v xs v' t i => rfl)
    (fun key x y F _ => starts_toy e hf key x y F) (pathShape_toy e hf hbr) false rfl (by simp) (jointPaths_toy e hf ts)
    (by simp) hnear hF h1 k key hlen
  have e2 : δ + ENNReal.ofReal s + (δ' + ENNReal.ofReal s) = δ + δ' + ENNReal.ofReal (2 * s) := by
    rw [two_mul, ENNReal.ofReal_add (Real.sqrt_nonneg _) (Real.sqrt_nonneg _)]
    ring
  rw [e2] at h
  exact h

/-- **C92, the score.**  As before, with the reverse drifts of a score `s` and of a learnt score `s'` that is within `ε` of it in the
root of the mean square along the reverse run.  The joint law of the state after `k` iterations and of `y0` is within
`k (δ + δ' + ε √(∑ₖ Δₖ g²))` of `ϖ`. -/
theorem C92_score [NeZero n] {T : ℝ} {s s' f : (ζ → ℝ) → ℝ → (ζ → ℝ)} (hs : ∀ t, Measurable fun z => s z t)
    (hs' : ∀ t, Measurable fun z => s' z t) (hfm : ∀ t, Measurable fun z => f z t) (hdt : 0 < dt) (ts : Arr1 ℝ)
    (hts : UniformGrid dt (reverseDispersion T disp) ts.1 ts.2)
    (hf : Forward fwd ts.2.length) (hbr : ∀ k y y' s, (bridge k y y' s).Leaves fun p => p.2.length = ts.2.length)
    {ϖ : Measure ((ι → ℝ) × (κ → ℝ))} {ρ : Measure (ζ → ℝ)} [IsProbabilityMeasure ρ] {δ δ' : ℝ≥0∞} (key' : Key)
    (hle : ∀ key φ, MeasList (ts.2.length + 1) φ → (∀ p, φ p ≤ 1) →
      ∫⁻ q, (fwd key (concat e q.1 q.2)).E (fun p => φ p.toList.reverse) ∂ϖ ≤
        ∫⁻ z, (eulerPath key' z ts (reverseDrift T s f disp) (reverseDispersion T disp) 1).E (fun p => φ p.toList) ∂ρ + δ)
    (hge : ∀ key φ, MeasList (ts.2.length + 1) φ → (∀ p, φ p ≤ 1) →
      ∫⁻ z, (eulerPath key' z ts (reverseDrift T s f disp) (reverseDispersion T disp) 1).E (fun p => φ p.toList) ∂ρ ≤
        ∫⁻ q, (fwd key (concat e q.1 q.2)).E (fun p => φ p.toList.reverse) ∂ϖ + δ')
    {ε : ℝ} (hε : 0 ≤ ε) (herr : ∫⁻ z, (eulerPath key' z ts (reverseDrift T s f disp) (reverseDispersion T disp) 1).E
      (fun p => ENNReal.ofReal (scoreCost s s' disp T ts.1 ts.2 p.toList)) ∂ρ ≤
        ENNReal.ofReal (ε ^ 2 / 2 * dispMass disp T ts.1 ts.2))
    {F : (ι → ℝ) → (κ → ℝ) → ℝ≥0∞} (hF : Measurable fun q : (ι → ℝ) × (κ → ℝ) => F q.1 q.2) (h1 : ∀ x y, F x y ≤ 1)
    (k : ℕ) (key : Key) {bs : Arr1 (Fin (rows n false))} (hlen : bs.2.length = ts.2.length) :
    ∫⁻ q, (gibbsLoop false (gibbsFuns e (reverseDrift T s' f disp) (reverseDispersion T disp) dt fwd bridge) false false q.2 ts k
        key q.1 bs).E (fun out => F out.1 q.2) ∂ϖ ≤
        ∫⁻ q, F q.1 q.2 ∂ϖ + k * (δ + δ' + ENNReal.ofReal (ε * Real.sqrt (dispMass disp T ts.1 ts.2))) ∧
      ∫⁻ q, F q.1 q.2 ∂ϖ ≤
        ∫⁻ q, (gibbsLoop false (gibbsFuns e (reverseDrift T s' f disp) (reverseDispersion T disp) dt fwd bridge) false false q.2 ts k
          key q.1 bs).E (fun out => F out.1 q.2) ∂ϖ +
          k * (δ + δ' + ENNReal.ofReal (ε * Real.sqrt (dispMass disp T ts.1 ts.2))) := by
  have hM : 0 ≤ dispMass disp T ts.1 ts.2 := dispMass_nonneg disp T ts.2 ts.1
  have h := C92_drift e (measurable_reverseDrift_of disp hs hfm T) (measurable_reverseDrift_of disp hs' hfm T) hdt ts hts hf hbr
    key' hle hge (B := ENNReal.ofReal (ε ^ 2 / 2 * dispMass disp T ts.1 ts.2)) (by
      refine le_trans (le_of_eq ?_) herr
      refine lintegral_congr fun z => Rand.E_congr _ fun p => ?_
      rw [scoreCost_eq disp s s' f T ts.2 ts.1 p.toList (uniformGrid_disp hts)]) ENNReal.ofReal_ne_top hF h1 k key hlen
  have e1 : 2 * Real.sqrt ((ENNReal.ofReal (ε ^ 2 / 2 * dispMass disp T ts.1 ts.2)).toReal / 2) =
      ε * Real.sqrt (dispMass disp T ts.1 ts.2) := by
    rw [ENNReal.toReal_ofReal (by positivity), show ε ^ 2 / 2 * dispMass disp T ts.1 ts.2 / 2 =
      (ε / 2) ^ 2 * dispMass disp T ts.1 ts.2 by ring, Real.sqrt_mul (by positivity), Real.sqrt_sq (by positivity)]
    ring
  rw [e1] at h
  exact h

/-! ### Example -/

/-- With drift `-x`, unit dispersion and one unit step, the next state is a fresh standard normal. -/
theorem E_fresh (key : Key) (z : ζ → ℝ) {φ : List (ζ → ℝ) → ℝ≥0∞} (hφ : MeasList 2 φ) :
    (eulerPath key z (0, [1]) (fun x _ i => -x i) (fun _ => 1) 1).E (fun p => φ p.toList) =
      ∫⁻ w, φ [z, w] ∂(stdNormal ζ) := by
  have hm : Measurable fun w : ζ → ℝ => φ [z, w] := by
    have h := Measurable.comp hφ (show Measurable fun w : ζ → ℝ => (![z, w] : Fin 2 → ζ → ℝ) from
      measurable_pi_iff.2 fun j => by refine Fin.cases measurable_const (fun j => ?_) j; simpa using measurable_id')
    simpa [Function.comp_def, List.ofFn_succ] using h
  have he := E_eulerPath (fun x _ i => -x i) (fun _ => 1) key z (0, [1]) 1 φ
  rw [he]
  have hz : (Arr1.init ((0, [1]) : Arr1 ℝ)).zip [1] = [((0 : ℝ), (1 : ℝ))] := rfl
  simp only [hz, pathE]
  have hs : ∀ w : Fin 1 → ζ → ℝ, emStep (fun (x : ζ → ℝ) (_ : ℝ) i => -x i) (fun _ => 1) 1 z 0 1 (List.ofFn w) = w 0 := by
    intro w
    rw [emStep_unit]
    funext k
    simp
  simp only [hs]
  exact (measurePreserving_eval (fun _ : Fin 1 => stdNormal ζ) 0).lintegral_comp hm

/-- The pairs of the example: standard normal. -/
noncomputable def iidLaw : Measure ((ι → ℝ) × (κ → ℝ)) := (stdNormal ζ).map fun z => (unpackU e z, unpackV e z)

omit [Fintype ι] [Fintype κ] in
theorem iid_reversal (key key' : Key) {φ : List (ζ → ℝ) → ℝ≥0∞} (hφ : MeasList 2 φ) :
    ∫⁻ q, (eulerPath key (concat e q.1 q.2) (0, [1]) (fun x _ i => -x i) (fun _ => 1) 1).E (fun p => φ p.toList.reverse)
        ∂(iidLaw e : Measure ((ι → ℝ) × (κ → ℝ))) =
      ∫⁻ z, (eulerPath key' z (0, [1]) (fun x _ i => -x i) (fun _ => 1) 1).E (fun p => φ p.toList) ∂(stdNormal ζ) := by
  have hd : ∀ t : ℝ, Measurable fun x : ζ → ℝ => (fun i => -x i : ζ → ℝ) := fun _ => measurable_neg
  have h2 := measurable_eulerPath_start (fun _ => (1 : ℝ)) hd key (0, [1]) (φ := fun l => φ l.reverse) (measList_reverse hφ)
  rw [iidLaw]
  refine (lintegral_map (h2.comp ((measurable_concat e).comp (measurable_fst.prodMk measurable_snd)))
    ((measurable_unpackU e).prodMk (measurable_unpackV e))).trans ?_
  simp only [Function.comp_apply, concat_unpack]
  have e1 : ∀ z : ζ → ℝ, (eulerPath key z (0, [1]) (fun x _ i => -x i) (fun _ => 1) 1).E (fun p => φ p.toList.reverse) =
      ∫⁻ w, φ [w, z] ∂(stdNormal ζ) := fun z => E_fresh key z (φ := fun l => φ l.reverse) (measList_reverse hφ)
  simp only [e1, E_fresh key' _ hφ]
  have hm : Measurable fun q : (ζ → ℝ) × (ζ → ℝ) => φ [q.2, q.1] := by
    have h := Measurable.comp hφ (show Measurable fun q : (ζ → ℝ) × (ζ → ℝ) => (![q.2, q.1] : Fin 2 → ζ → ℝ) from
      measurable_pi_iff.2 fun j => by
        refine Fin.cases measurable_snd (fun j => ?_) j
        simpa using measurable_fst)
    simpa [Function.comp_def, List.ofFn_succ] using h
  exact lintegral_lintegral_swap hm.aemeasurable

/-- The hypotheses can be met: forward and reverse runs with drift `-x`, which draw a fresh pair in one unit step, and a score
with a constant error `c` in each entry. -/
example [NeZero n] (bridge : Key → (κ → ℝ) → (κ → ℝ) → Arr1 ℝ → Rand (Arr1 (κ → ℝ)))
    (hbr : ∀ k y y' s, (bridge k y y' s).Leaves fun p => p.2.length = 1) (c : ℝ)
    {F : (ι → ℝ) → (κ → ℝ) → ℝ≥0∞} (hF : Measurable fun q : (ι → ℝ) × (κ → ℝ) => F q.1 q.2) (h1 : ∀ x y, F x y ≤ 1)
    (k : ℕ) (key : Key) {bs : Arr1 (Fin (rows n false))} (hlen : bs.2.length = 1) :
    ∫⁻ q, (gibbsLoop false (gibbsFuns e (reverseDrift 1 (fun x _ i => -x i + c) (fun _ _ _ => 0) fun _ => 1)
        (reverseDispersion 1 fun _ => 1) 1 (fun key z => eulerPath key z (0, [1]) (fun x _ i => -x i) (fun _ => 1) 1) bridge)
        false false q.2 (0, [1]) k key q.1 bs).E (fun out => F out.1 q.2) ∂(iidLaw e) ≤
      ∫⁻ q, F q.1 q.2 ∂(iidLaw e) + k * ENNReal.ofReal (Real.sqrt (Fintype.card ζ * c ^ 2)) := by
  have hrd : reverseDrift 1 (fun (x : ζ → ℝ) (_ : ℝ) i => -x i) (fun _ _ _ => 0) (fun _ => 1) = fun x _ i => -x i := by
    funext x t i
    simp [reverseDrift]
  have hrg : reverseDispersion 1 (fun _ => 1) = fun _ => 1 := by
    funext t
    simp [reverseDispersion]
  have hd : ∀ t : ℝ, Measurable fun x : ζ → ℝ => (fun i => -x i : ζ → ℝ) := fun _ => measurable_neg
  have hM : dispMass (fun _ => 1) 1 ((0, [1]) : Arr1 ℝ).1 ((0, [1]) : Arr1 ℝ).2 = 1 := by simp [dispMass]
  have h := (C92_score (n := n) e (T := 1) (disp := fun _ => 1) (dt := 1) (s := fun x _ i => -x i) (s' := fun x _ i => -x i + c)
    (f := fun _ _ _ => 0) (fun _ => measurable_neg) (fun _ => measurable_neg.add measurable_const) (fun _ => measurable_const)
    one_pos (0, [1]) (by simp [UniformGrid, reverseDispersion])
    (forward_euler hd (fun _ => 1) (0, [1])) hbr (ϖ := iidLaw e) (ρ := stdNormal ζ) (δ := 0) (δ' := 0) []
    (fun key φ hφ _ => by rw [hrd, hrg, add_zero]; exact (iid_reversal e key [] hφ).le)
    (fun key φ hφ _ => by rw [hrd, hrg, add_zero]; exact (iid_reversal e key [] hφ).ge)
    (ε := Real.sqrt (Fintype.card ζ * c ^ 2)) (Real.sqrt_nonneg _) (by
      rw [hrd, hrg]
      refine (lintegral_mono fun z => (Rand.E_mono _ fun p => ENNReal.ofReal_le_ofReal (scoreCost_le (fun _ => 1) _ _ _
        (ε := Real.sqrt (Fintype.card ζ * c ^ 2)) fun t _ x => ?_)).trans
          ((forward_euler hd (fun _ => 1) (0, [1])).prob [] z _).le).trans ?_
      · rw [Real.sq_sqrt (by positivity)]
        simp
      · rw [lintegral_const, measure_univ, mul_one])
    hF h1 k key hlen).1
  rw [hM, Real.sqrt_one, mul_one, add_zero, zero_add] at h
  exact h

end Toy

end Props
end Fbs
