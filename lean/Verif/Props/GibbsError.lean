import Verif.Props.Ergodic

/-!
# C91: the Gibbs chains with inexact functions

C14, C15, C57 and C82 need the functions handed to `gibbs_kernel` to be the exact time reversal of the forward sampler.  In the
experiments they are discretised, and their score is learnt.  Here the functions are those of a model `S` whose path law is only
close to the law of the reversed paths of the forward sampler.
-/

open MeasureTheory ProbabilityTheory
open scoped ENNReal BigOperators

namespace Fbs
namespace Props

open Jax Spec Csmc Gibbs

variable {n N : ℕ} {U V Z : Type} [MeasurableSpace U]

/-! ### Values of test functions bounded by one -/

omit [MeasurableSpace U] in
theorem move_mono (eb : Bool) {F G : U → ℝ≥0∞} (h : ∀ x, F x ≤ G x) (st : St N U) (b : Fin N) :
    moveΨ eb F st b ≤ moveΨ eb G st b := by
  have hl : ∀ us bl, lastF (fun x (_ : List (Fin N)) => F x) us bl ≤ lastF (fun x (_ : List (Fin N)) => G x) us bl := by
    intro us bl
    unfold lastF
    cases us.getLast? with
    | none => exact le_rfl
    | some x => exact h x
  unfold moveΨ
  cases eb
  · simp only [Bool.false_eq_true, if_false, selectΨ]
    exact Finset.sum_le_sum fun i _ => mul_le_mul' le_rfl (hl _ _)
  · simp only [if_true, forceΨ, keepΨ]
    exact add_le_add (Finset.sum_le_sum fun i _ => mul_le_mul' le_rfl (hl _ _)) (mul_le_mul' le_rfl (hl _ _))

theorem Cf_mono [NeZero N] {cond : (Fin N → ℝ) → Fin N → Fin N → (Fin N → Fin N) → ℝ≥0∞}
    {Ψ Ψ' : St N U → Fin N → ℝ≥0∞} (h : ∀ st b, Ψ st b ≤ Ψ' st b) : ∀ (ss : List (FKStep U)) (l : List (U × Fin N))
      (st : St N U) (b : Fin N), Cf cond Ψ ss l st b ≤ Cf cond Ψ' ss l st b
  | [], _, st, b => by simpa [Cf] using h st b
  | s :: ss, [], st, b => by simpa [Cf] using h st b
  | s :: ss, (u', b') :: l, st, b => by
    simp only [Cf]
    exact Finset.sum_le_sum fun A _ => mul_le_mul' le_rfl (lintegral_mono fun y => Cf_mono h ss l _ b')

theorem Cf_move_le_one [NeZero N] (eb : Bool) {F : U → ℝ≥0∞} (h1 : ∀ x, F x ≤ 1) (ss : List (FKStep U))
    (l : List (U × Fin N)) (st : St N U) (b : Fin N) (hW : Weights st.W) (hP : ∀ a, st.P a ≠ []) :
    Cf killingScheme.cond (moveΨ eb F) ss l st b ≤ 1 :=
  (Cf_mono (move_mono eb h1) ss l st b).trans
    (Cf_const killingScheme 1 ss l st b hW hP fun st b hW hP => move_const eb 1 st b hW hP).le

theorem avgIdx_mono (N : ℕ) : ∀ (k : ℕ) {f g : List (Fin N) → ℝ≥0∞}, (∀ l, l.length = k → f l ≤ g l) → avgIdx N k f ≤ avgIdx N k g
  | 0, _, _, h => h [] rfl
  | k + 1, f, g, h => by
    simp only [avgIdx]
    gcongr with b
    exact avgIdx_mono N k fun l hl => h _ (by simp [hl])

theorem avgBs_mono {K : ℕ} {f g : Arr1 (Fin N) → ℝ≥0∞} (h : ∀ bs : Arr1 (Fin N), bs.2.length = K → f bs ≤ g bs) :
    avgBs N K f ≤ avgBs N K g := by
  unfold avgBs
  gcongr with b
  exact avgIdx_mono N K fun l hl => h (b, l) hl

/-! ### The end of the reversed path -/

theorem reverse_last {α : Type} (a : Arr1 α) : a.reverse.2.getLastD a.reverse.1 = a.1 := reverse_getLastD a

/-- The reversed path ends in the state the kernel was called with. -/
theorem paths_end {ef : Bool} {m : Gibbs.Funs (rows n ef) U V Z} {y0 : V} {ts : Arr1 ℝ} {margY : Bool}
    (hst : ∀ key x (F : U → ℝ≥0∞), Measurable F → (m.fwd key x y0).E (fun p => F (m.unpack p).1.1) = F x)
    (hbr : margY = true → ∀ key a b (c : ℝ≥0∞), (m.bridge key a b ts).E (fun _ => c) = c) (key : Key) (x : U)
    {F : U → ℝ≥0∞} (hF : Measurable F) :
    (gibbsPaths m margY key x y0 ts).E (fun q => F (q.1.2.getLastD q.1.1)) = F x := by
  cases margY
  · simp only [gibbsPaths, Rand.E_bind, Rand.pure_eq, Rand.E_ret, Bool.false_eq_true, if_false, reverse_last]
    exact hst _ x F hF
  · simp only [gibbsPaths, Rand.E_bind, Rand.pure_eq, Rand.E_ret, if_true, reverse_last]
    rw [← hst (split key 3 0) x F hF]
    exact Rand.E_congr _ fun p => hbr rfl _ _ _ _

/-! ### One call -/

variable [MeasurableSpace V]

/-- The law `Λ(du_0, dv) Π_k exp(logG(v_k | u_{k-1}, v_{k-1})) M(du_k | u_{k-1}, v_{k-1})` of two paths. -/
noncomputable def pinnedLaw {K : ℕ} (S : StateSpace U V) (ts : Arr1 ℝ) (Λ : Measure (U × (Fin (K + 1) → V)))
    (φ : Arr1 U → Arr1 V → ℝ≥0∞) : ℝ≥0∞ :=
  ∫⁻ q, pathInt (S.steps (arr q.2).1 (arr q.2).2 ts.toList) q.1 (fun l => φ (q.1, l) (arr q.2)) ∂Λ

/-- The law `Λ(dv) exp(logG(v_0 | u_0, v_1)) ν(du_0) Π_k exp(logG(v_k | u_{k-1}, v_{k-1})) M(du_k | u_{k-1}, v_{k-1})`. -/
noncomputable def refLaw {K : ℕ} (S : StateSpace U V) (ν : Measure U) (ts : Arr1 ℝ) (Λ : Measure (Fin (K + 1) → V))
    (φ : Arr1 U → Arr1 V → ℝ≥0∞) : ℝ≥0∞ :=
  ∫⁻ v, ∫⁻ u, ENNReal.ofReal (Real.exp (S.logG (arr v).1 ((arr v).2.headD (arr v).1) ts.1 u)) *
    pathInt (S.steps (arr v).1 (arr v).2 ts.toList) u (fun l => φ (u, l) (arr v)) ∂ν ∂Λ

/-- With `x0 ~ π0`, the two reversed paths drawn by `gibbs_kernel` have a law that exceeds the law `L` by at most `δ` and falls
short of it by at most `δ'`, uniformly over events. -/
structure Near {ef : Bool} (K : ℕ) (m : Gibbs.Funs (rows n ef) U V Z) (margY : Bool) (π0 : Measure U) (y0 : V) (ts : Arr1 ℝ)
    (L : (Arr1 U → Arr1 V → ℝ≥0∞) → ℝ≥0∞) (δ δ' : ℝ≥0∞) : Prop where
  le : ∀ key φ, MeasPaths K φ → (∀ us vs, φ us vs ≤ 1) →
    ∫⁻ x, (gibbsPaths m margY key x y0 ts).E (fun q => φ q.1 q.2) ∂π0 ≤ L φ + δ
  ge : ∀ key φ, MeasPaths K φ → (∀ us vs, φ us vs ≤ 1) →
    L φ ≤ ∫⁻ x, (gibbsPaths m margY key x y0 ts).E (fun q => φ q.1 q.2) ∂π0 + δ'

theorem measPaths_last {K : ℕ} {F : U → ℝ≥0∞} (hF : Measurable F) : MeasPaths (V := V) K fun us _ => F (us.2.getLastD us.1) := by
  unfold MeasPaths
  have e : ∀ q : (Fin (K + 1) → U) × (Fin (K + 1) → V), F ((arr q.1).2.getLastD (arr q.1).1) = F (q.1 (Fin.last K)) := by
    intro q
    congr 1
    cases K with
    | zero => simp [arr]
    | succ K =>
      simp only [arr]
      rw [List.ofFn_succ', List.concat_eq_append]
      simp
  simp only [e]
  exact hF.comp ((measurable_pi_apply _).comp measurable_fst)

omit [MeasurableSpace U] [MeasurableSpace V] in
theorem lastF_toList (F : U → ℝ≥0∞) (us : Arr1 U) (bl : List (Fin N)) :
    lastF (fun x _ => F x) us.toList bl = F (us.2.getLastD us.1) := by
  obtain ⟨u, l⟩ := us
  exact elim_last F u l

theorem pinned_step {K : ℕ} [NeZero n] {m : Gibbs.Funs (rows n false) U V Z} {S : StateSpace U V}
    (hS : S.JointMeas) {y0 : V}
    (htr : ∀ xs v t k (F : (Fin (rows n false) → U) → ℝ≥0∞), Measurable F →
      (m.transSampler xs v t k).E F = ∫⁻ x, F x ∂(Measure.pi fun i => S.trans v t (xs i)))
    (hlik : ∀ v xs v' t i, m.lik v xs v' t i = S.logG v v' t (xs i))
    (hst : ∀ key x (F : U → ℝ≥0∞), Measurable F → (m.fwd key x y0).E (fun p => F (m.unpack p).1.1) = F x)
    (hsh : PathShape m K) {margY : Bool} (eb : Bool) {ts : Arr1 ℝ} (hts : ts.2.length = K)
    (hbr : margY = true → ∀ key a b (c : ℝ≥0∞), (m.bridge key a b ts).E (fun _ => c) = c)
    (hreg : eb = true → ∀ v v' t (x : Fin (rows n false) → U), Regular (normalise fun i => S.logG v v' t (x i)))
    {π0 : Measure U} {Λ : Measure (U × (Fin (K + 1) → V))} {δ δ' : ℝ≥0∞}
    (hnear : Near K m margY π0 y0 ts (pinnedLaw S ts Λ) δ δ')
    (key : Key) {bs : Arr1 (Fin (rows n false))} (hb : bs.2.length = K) {F : U → ℝ≥0∞} (hF : Measurable F) (h1 : ∀ x, F x ≤ 1) :
    ∫⁻ x, F x ∂π0 ≤ ∫⁻ x, (gibbsKernel false m margY eb key x y0 bs ts).E (fun out => F out.1) ∂π0 + (δ + δ') := by
  let R : Arr1 U → Arr1 V → Arr1 (Fin (rows n false)) → ℝ≥0∞ := fun us vs bs =>
    Cf killingScheme.cond (moveΨ eb F) (S.steps vs.1 vs.2 ts.toList) (us.2.zip bs.2) (startSt (rows n false) (-Real.log n) us.1) bs.1
  have hR1 : ∀ us vs bs, R us vs bs ≤ 1 := fun us vs bs =>
    Cf_move_le_one eb h1 _ _ _ _ (normalise_weights _) fun a => by simp [startSt, initSt]
  have hRm : ∀ bs : Arr1 (Fin (rows n false)), bs.2.length = K → MeasPaths K fun us vs => R us vs bs := fun bs hb =>
    measPaths_pinned hS (measFun_move eb hF) _ hts hb
  have hcore := gibbs_core_law (N := rows n false) hS hts (Λ := Λ) (I := pinnedLaw S ts Λ) (fun φ _ => rfl) (-Real.log n)
    (Ψ := moveΨ eb F) (measFun_move eb hF) (Q := fun w => eb = true → Regular w) (fun v v' t x he => hreg he v v' t x)
    (fun _ => regular_uniform _) (F := fun x _ => F x) (fun _ => hF)
    (fun st hW hQ => move_eq_keep (Q := fun w => eb = true → Regular w) (fun he w hw => hw he) F st hW hQ)
    (R := R) fun us vs bs _ _ _ => rfl
  simp only [lastF_toList, avgBs_const] at hcore
  have hk : ∀ bs' : Arr1 (Fin (rows n false)), bs'.2.length = K →
      ∫⁻ x, (gibbsKernel false m margY eb key x y0 bs ts).E (fun out => F out.1) ∂π0 =
        ∫⁻ x, (gibbsPaths m margY key x y0 ts).E (fun q => R q.1 q.2 bs') ∂π0 := by
    intro bs' hb'
    refine lintegral_congr fun x => ?_
    rw [C58_gibbs_index_free htr hlik hst hsh margY eb key x hb' hb hts hF, E_gibbs_x0 hst margY eb key x bs' ts hF]
    refine Rand.E_congr_leaves (leaves_gibbsPaths margY key x y0 ts hsh) fun q hq => ?_
    obtain ⟨hu, hv⟩ := hq
    exact E_forwardPass_pinned htr hlik _ ts.1 q.1 bs' q.2 ts (hu.trans hv.symm) (hb'.trans hv.symm) (hts.trans hv.symm)
      (by rw [hv]; exact measFun_move eb hF)
  calc ∫⁻ x, F x ∂π0 = ∫⁻ x, (gibbsPaths m margY key x y0 ts).E (fun q => F (q.1.2.getLastD q.1.1)) ∂π0 :=
        lintegral_congr fun x => (paths_end hst hbr key x hF).symm
    _ ≤ pinnedLaw S ts Λ (fun us _ => F (us.2.getLastD us.1)) + δ := hnear.le key _ (measPaths_last hF) fun us vs => h1 _
    _ = avgBs (rows n false) K (fun bs => pinnedLaw S ts Λ fun us vs => R us vs bs) + δ := by rw [hcore]
    _ ≤ avgBs (rows n false) K (fun _ => ∫⁻ x, (gibbsKernel false m margY eb key x y0 bs ts).E (fun out => F out.1) ∂π0 + δ') +
        δ := by
        gcongr
        exact avgBs_mono fun bs' hb' => (hnear.ge key _ (hRm bs' hb') fun us vs => hR1 us vs bs').trans
          (by rw [hk bs' hb'])
    _ = _ := by rw [avgBs_const, add_assoc, add_comm δ']

theorem ref_step_near {K : ℕ} [NeZero n] {m : Gibbs.Funs (rows n true) U V Z} {S : StateSpace U V}
    (hS : S.JointMeas) {ν : Measure U} [IsProbabilityMeasure ν] {y0 : V}
    (htr : ∀ xs v t k (F : (Fin (rows n true) → U) → ℝ≥0∞), Measurable F →
      (m.transSampler xs v t k).E F = ∫⁻ x, F x ∂(Measure.pi fun i => S.trans v t (xs i)))
    (hlik : ∀ v xs v' t i, m.lik v xs v' t i = S.logG v v' t (xs i))
    (hn : ∀ k r (F : (Fin (rows n true) → U) → ℝ≥0∞), Measurable F →
      (m.normal k r).E F = ∫⁻ x, F x ∂(Measure.pi fun _ => ν))
    (hst : ∀ key x (F : U → ℝ≥0∞), Measurable F → (m.fwd key x y0).E (fun p => F (m.unpack p).1.1) = F x)
    (hsh : PathShape m K) {margY : Bool} (eb : Bool) {ts : Arr1 ℝ} (hts : ts.2.length = K)
    (hbr : margY = true → ∀ key a b (c : ℝ≥0∞), (m.bridge key a b ts).E (fun _ => c) = c)
    (hreg : eb = true → ∀ v v' t (x : Fin (rows n true) → U), Regular (normalise fun i => S.logG v v' t (x i)))
    {π0 : Measure U} {Λ : Measure (Fin (K + 1) → V)} {δ δ' : ℝ≥0∞}
    (hnear : Near K m margY π0 y0 ts (refLaw S ν ts Λ) δ δ')
    (key : Key) {bs : Arr1 (Fin (rows n true))} (hb : bs.2.length = K) {F : U → ℝ≥0∞} (hF : Measurable F) (h1 : ∀ x, F x ≤ 1) :
    ∫⁻ x, F x ∂π0 ≤ ∫⁻ x, (gibbsKernel true m margY eb key x y0 bs ts).E (fun out => F out.1) ∂π0 + (δ + δ') := by
  let R : Arr1 U → Arr1 V → Arr1 (Fin (rows n true)) → ℝ≥0∞ := fun us vs bs =>
    ∫⁻ y, Cf killingScheme.cond (moveΨ eb F) (S.steps vs.1 vs.2 ts.toList) (us.2.zip bs.2)
      (initSt (S.logG vs.1 (vs.2.headD vs.1) ts.1) (Function.update y bs.1 us.1)) bs.1 ∂(Measure.pi fun _ => ν)
  have hR1 : ∀ us vs bs, R us vs bs ≤ 1 := fun us vs bs => by
    refine (lintegral_mono (g := fun _ => 1) fun y =>
      Cf_move_le_one eb h1 _ _ _ _ (normalise_weights _) fun a => by simp [initSt]).trans ?_
    simp
  have hRm : ∀ bs : Arr1 (Fin (rows n true)), bs.2.length = K → MeasPaths K fun us vs => R us vs bs := fun bs hb =>
    measPaths_ref hS (measFun_move eb hF) _ hts hb
  have hcore := ref_core_law (N := rows n true) hS (ν := ν) hts (Λ := Λ) (I := refLaw S ν ts Λ) (fun φ _ => rfl)
    (Ψ := moveΨ eb F) (measFun_move eb hF) (Q := fun w => eb = true → Regular w) (fun v v' t x he => hreg he v v' t x)
    (F := fun x _ => F x) (fun _ => hF)
    (fun st hW hQ => move_eq_keep (Q := fun w => eb = true → Regular w) (fun he w hw => hw he) F st hW hQ)
    (R := R) fun us vs bs _ _ _ => rfl
  simp only [lastF_toList, avgBs_const] at hcore
  have hk : ∀ bs' : Arr1 (Fin (rows n true)), bs'.2.length = K →
      ∫⁻ x, (gibbsKernel true m margY eb key x y0 bs ts).E (fun out => F out.1) ∂π0 =
        ∫⁻ x, (gibbsPaths m margY key x y0 ts).E (fun q => R q.1 q.2 bs') ∂π0 := by
    intro bs' hb'
    refine lintegral_congr fun x => ?_
    rw [C58_gibbs_final_index_free htr hlik hn hst hsh margY eb key x hb' hb hts hF, E_gibbs_x0 hst margY eb key x bs' ts hF]
    refine Rand.E_congr_leaves (leaves_gibbsPaths margY key x y0 ts hsh) fun q hq => ?_
    obtain ⟨hu, hv⟩ := hq
    exact E_forwardPass_ref htr hlik hn _ ts.1 q.1 bs' q.2 ts (hu.trans hv.symm) (hb'.trans hv.symm) (hts.trans hv.symm)
      (by rw [hv]; exact measFun_move eb hF)
  calc ∫⁻ x, F x ∂π0 = ∫⁻ x, (gibbsPaths m margY key x y0 ts).E (fun q => F (q.1.2.getLastD q.1.1)) ∂π0 :=
        lintegral_congr fun x => (paths_end hst hbr key x hF).symm
    _ ≤ refLaw S ν ts Λ (fun us _ => F (us.2.getLastD us.1)) + δ := hnear.le key _ (measPaths_last hF) fun us vs => h1 _
    _ = avgBs (rows n true) K (fun bs => refLaw S ν ts Λ fun us vs => R us vs bs) + δ := by rw [hcore]
    _ ≤ avgBs (rows n true) K (fun _ => ∫⁻ x, (gibbsKernel true m margY eb key x y0 bs ts).E (fun out => F out.1) ∂π0 + δ') +
        δ := by
        gcongr
        exact avgBs_mono fun bs' hb' => (hnear.ge key _ (hRm bs' hb') fun us vs => hR1 us vs bs').trans
          (by rw [hk bs' hb'])
    _ = _ := by rw [avgBs_const, add_assoc, add_comm δ']

/-! ### The loop -/

/-- One call changes the mean of a function with values in `[a, a + r]` by at most `r d`, both ways. -/
theorem affine_step {π0 : Measure U} [IsFiniteMeasure π0] {κ : (U → ℝ≥0∞) → U → ℝ≥0∞}
    (hmeas : ∀ f, Measurable f → Measurable (κ f)) (hsup : ∀ f g x, κ f x + κ g x ≤ κ (fun y => f y + g y) x)
    (hmul : ∀ (c : ℝ≥0∞) f x, c ≠ ∞ → κ (fun y => c * f y) x = c * κ f x) (hconst : ∀ (c : ℝ≥0∞) x, κ (fun _ => c) x = c)
    {d : ℝ≥0∞} (hd : ∀ f, Measurable f → (∀ x, f x ≤ 1) → ∫⁻ x, f x ∂π0 ≤ ∫⁻ x, κ f x ∂π0 + d)
    {G : U → ℝ≥0∞} (hG : Measurable G) {a r : ℝ≥0∞} (hr : r ≠ ∞) (h : ∀ x, a ≤ G x ∧ G x ≤ a + r) :
    ∫⁻ x, G x ∂π0 ≤ ∫⁻ x, κ G x ∂π0 + r * d ∧ ∫⁻ x, κ G x ∂π0 ≤ ∫⁻ x, G x ∂π0 + r * d := by
  by_cases hr0 : r = 0
  · have e : G = fun _ => a := funext fun x => le_antisymm (by simpa [hr0] using (h x).2) (h x).1
    subst e
    simp [hconst]
  set M := π0 Set.univ with hM
  have hMt : M ≠ ∞ := measure_ne_top _ _
  set g : U → ℝ≥0∞ := fun x => (G x - a) / r with hg
  have hgm : Measurable g := (hG.sub measurable_const).div_const r
  have hg1 : ∀ x, g x ≤ 1 := fun x => by
    rw [hg]
    exact ENNReal.div_le_of_le_mul (by rw [one_mul, tsub_le_iff_left]; exact (h x).2)
  have e1 : ∀ x, a + r * g x = G x := fun x => by
    rw [hg, ENNReal.mul_div_cancel hr0 hr, add_tsub_cancel_of_le (h x).1]
  have hc1 : ∀ x, 1 - g x ≤ 1 := fun x => tsub_le_self
  have hcm : Measurable fun x => 1 - g x := measurable_const.sub hgm
  have e2 : ∀ x, G x + r * (1 - g x) = a + r := fun x => by
    rw [← e1, add_assoc, ← mul_add, add_tsub_cancel_of_le (hg1 x), mul_one]
  have i1 : ∫⁻ x, G x ∂π0 = a * M + r * ∫⁻ x, g x ∂π0 := by
    rw [← lintegral_congr e1, lintegral_add_left measurable_const, lintegral_const, lintegral_const_mul _ hgm]
  have i2 : ∫⁻ x, G x ∂π0 + r * ∫⁻ x, 1 - g x ∂π0 = (a + r) * M := by
    rw [← lintegral_const_mul _ hcm, ← lintegral_add_left hG, lintegral_congr e2, lintegral_const]
  constructor
  · calc ∫⁻ x, G x ∂π0 = a * M + r * ∫⁻ x, g x ∂π0 := i1
      _ ≤ a * M + r * (∫⁻ x, κ g x ∂π0 + d) := by gcongr; exact hd g hgm hg1
      _ = ∫⁻ x, (a + r * κ g x) ∂π0 + r * d := by
          rw [lintegral_add_left measurable_const, lintegral_const, lintegral_const_mul _ (hmeas g hgm)]
          ring
      _ ≤ ∫⁻ x, κ G x ∂π0 + r * d := by
          gcongr with x
          have := hsup (fun _ => a) (fun y => r * g y) x
          rwa [hconst, hmul _ _ _ hr, show (fun y => a + r * g y) = G from funext e1] at this
  · have hfin : r * ∫⁻ x, 1 - g x ∂π0 ≠ ∞ := by
      refine ENNReal.mul_ne_top hr (ne_top_of_le_ne_top hMt ?_)
      refine (lintegral_mono hc1).trans ?_
      simp [hM]
    refine (ENNReal.add_le_add_iff_right hfin).1 ?_
    calc ∫⁻ x, κ G x ∂π0 + r * ∫⁻ x, 1 - g x ∂π0
        ≤ ∫⁻ x, κ G x ∂π0 + r * (∫⁻ x, κ (fun y => 1 - g y) x ∂π0 + d) := by gcongr; exact hd _ hcm hc1
      _ = ∫⁻ x, (κ G x + r * κ (fun y => 1 - g y) x) ∂π0 + r * d := by
          rw [lintegral_add_left (hmeas G hG), lintegral_const_mul _ (hmeas _ hcm)]
          ring
      _ ≤ ∫⁻ _, (a + r) ∂π0 + r * d := by
          refine add_le_add (lintegral_mono fun x => ?_) le_rfl
          have := hsup G (fun y => r * (1 - g y)) x
          rwa [hmul _ _ _ hr, show (fun y => G y + r * (1 - g y)) = fun _ => a + r from funext e2, hconst] at this
      _ = ∫⁻ x, G x ∂π0 + r * d + r * ∫⁻ x, 1 - g x ∂π0 := by
          rw [lintegral_const, ← hM, ← i2]; ring

omit [MeasurableSpace V] in
/-- The means of the loop drift away from those of `π0` by a geometric series. -/
theorem loop_drift {K : ℕ} [NeZero n] {ef : Bool} {m : Gibbs.Funs (rows n ef) U V Z} {y0 : V} {ts : Arr1 ℝ}
    {margY eb : Bool} (hsh : PathShape m K) (hts : ts.2.length = K)
    {π0 : Measure U} [IsFiniteMeasure π0] {ρ d : ℝ≥0∞} (hρ : ρ ≤ 1)
    (hmeas : ∀ key (bs : Arr1 (Fin (rows n ef))), bs.2.length = K → ∀ F : U → ℝ≥0∞, Measurable F →
      Measurable fun x => (gibbsKernel ef m margY eb key x y0 bs ts).E (fun out => F out.1))
    (hconst : ∀ key x (bs : Arr1 (Fin (rows n ef))), bs.2.length = K → ∀ c : ℝ≥0∞,
      (gibbsKernel ef m margY eb key x y0 bs ts).E (fun _ => c) = c)
    (hd : ∀ key (bs : Arr1 (Fin (rows n ef))), bs.2.length = K → ∀ F : U → ℝ≥0∞, Measurable F → (∀ x, F x ≤ 1) →
      ∫⁻ x, F x ∂π0 ≤ ∫⁻ x, (gibbsKernel ef m margY eb key x y0 bs ts).E (fun out => F out.1) ∂π0 + d)
    {F : U → ℝ≥0∞}
    (hcon : ∀ i key, ∃ (G : U → ℝ≥0∞) (a : ℝ≥0∞), Measurable G ∧ a ≠ ∞ ∧ (∀ x, a ≤ G x ∧ G x ≤ a + ρ ^ i) ∧
      ∀ (bs : Arr1 (Fin (rows n ef))) (x : U), bs.2.length = K →
        (gibbsLoop ef m margY eb y0 ts i key x bs).E (fun out => F out.1) = G x) :
    ∀ (i : ℕ) (key : Key) (bs : Arr1 (Fin (rows n ef))), bs.2.length = K →
      ∫⁻ x, F x ∂π0 ≤ ∫⁻ x, (gibbsLoop ef m margY eb y0 ts i key x bs).E (fun out => F out.1) ∂π0 +
          d * ∑ j ∈ Finset.range i, ρ ^ j ∧
        ∫⁻ x, (gibbsLoop ef m margY eb y0 ts i key x bs).E (fun out => F out.1) ∂π0 ≤ ∫⁻ x, F x ∂π0 +
          d * ∑ j ∈ Finset.range i, ρ ^ j
  | 0, key, bs, _ => by simp [gibbsLoop]
  | i + 1, key, bs, hb => by
    obtain ⟨G, a, hG, -, hr, hE⟩ := hcon i (split key 2 0)
    have ih := loop_drift hsh hts hρ hmeas hconst hd hcon i (split key 2 0) bs hb
    simp only [hE bs _ hb] at ih
    have hρt : ρ ^ i ≠ ∞ := ENNReal.pow_ne_top (ne_top_of_le_ne_top ENNReal.one_ne_top hρ)
    have hs : ∀ x, (gibbsLoop ef m margY eb y0 ts (i + 1) key x bs).E (fun out => F out.1) =
        (gibbsKernel ef m margY eb (split key 2 1) x y0 bs ts).E fun out => G out.1 := by
      intro x
      simp only [gibbsLoop, Rand.E_bind]
      refine Rand.E_congr_leaves (leaves_gibbs_length hsh margY eb _ x y0 hb hts) fun out ho => ?_
      refine hE _ _ ?_
      match h : out.2.2.1 with
      | [] => simp [h] at ho
      | b :: l => simpa [h, asIdx] using ho
    have hst := affine_step (π0 := π0)
      (κ := fun f x => (gibbsKernel ef m margY eb (split key 2 1) x y0 bs ts).E fun out => f out.1)
      (fun f hf => hmeas _ bs hb f hf) (fun f g x => Rand.E_add_le _ _ _) (fun c f x hc => Rand.E_const_mul _ hc _)
      (fun c x => hconst _ x bs hb c) (fun f hf h1 => hd _ bs hb f hf h1) hG hρt hr
    simp only [hs, Finset.sum_range_succ, mul_add]
    constructor
    · calc ∫⁻ x, F x ∂π0 ≤ ∫⁻ x, G x ∂π0 + d * ∑ j ∈ Finset.range i, ρ ^ j := ih.1
        _ ≤ _ := by
          refine (add_le_add_left hst.1 _).trans (le_of_eq ?_)
          ring
    · refine hst.2.trans ((add_le_add_left ih.2 _).trans (le_of_eq ?_))
      ring

omit [MeasurableSpace V] in
/-- The means of the loop as functions of the start. -/
theorem loop_meas {K : ℕ} [NeZero n] {ef : Bool} {m : Gibbs.Funs (rows n ef) U V Z} {y0 : V} {ts : Arr1 ℝ}
    {margY eb : Bool} (hsh : PathShape m K) (hts : ts.2.length = K)
    (hfree : ∀ key x (bs bs' : Arr1 (Fin (rows n ef))), bs.2.length = K → bs'.2.length = K → ∀ F : U → ℝ≥0∞,
      Measurable F → (gibbsKernel ef m margY eb key x y0 bs' ts).E (fun out => F out.1)
        = (gibbsKernel ef m margY eb key x y0 bs ts).E (fun out => F out.1))
    (hmeas : ∀ key (bs : Arr1 (Fin (rows n ef))), bs.2.length = K → ∀ F : U → ℝ≥0∞, Measurable F →
      Measurable fun x => (gibbsKernel ef m margY eb key x y0 bs ts).E (fun out => F out.1))
    (hconst : ∀ key x (bs : Arr1 (Fin (rows n ef))), bs.2.length = K → ∀ c : ℝ≥0∞,
      (gibbsKernel ef m margY eb key x y0 bs ts).E (fun _ => c) = c)
    {F : U → ℝ≥0∞} (hF : Measurable F) (h1 : ∀ x, F x ≤ 1) :
    ∀ (i : ℕ) (key : Key), ∃ (G : U → ℝ≥0∞) (a : ℝ≥0∞), Measurable G ∧ a ≠ ∞ ∧ (∀ x, a ≤ G x ∧ G x ≤ a + 1 ^ i) ∧
      ∀ (bs : Arr1 (Fin (rows n ef))) (x : U), bs.2.length = K →
        (gibbsLoop ef m margY eb y0 ts i key x bs).E (fun out => F out.1) = G x
  | 0, _ => ⟨F, 0, hF, ENNReal.zero_ne_top, fun x => ⟨bot_le, by simpa using h1 x⟩, fun _ _ _ => rfl⟩
  | i + 1, key => by
    obtain ⟨G, a, hG, -, -, hE⟩ := loop_meas hsh hts hfree hmeas hconst hF h1 i (split key 2 0)
    let b0 : Arr1 (Fin (rows n ef)) := (0, List.replicate K 0)
    have hb0 : b0.2.length = K := by simp [b0]
    have hs : ∀ (bs : Arr1 (Fin (rows n ef))) x, bs.2.length = K →
        (gibbsLoop ef m margY eb y0 ts (i + 1) key x bs).E (fun out => F out.1) =
        (gibbsKernel ef m margY eb (split key 2 1) x y0 b0 ts).E fun out => G out.1 := by
      intro bs x hb
      simp only [gibbsLoop, Rand.E_bind]
      rw [← hfree _ x b0 bs hb0 hb G hG]
      refine Rand.E_congr_leaves (leaves_gibbs_length hsh margY eb _ x y0 hb hts) fun out ho => ?_
      refine hE _ _ ?_
      match h : out.2.2.1 with
      | [] => simp [h] at ho
      | b :: l => simpa [h, asIdx] using ho
    have hle : ∀ (j : ℕ) (key : Key) (bs : Arr1 (Fin (rows n ef))) (x : U), bs.2.length = K →
        (gibbsLoop ef m margY eb y0 ts j key x bs).E (fun out => F out.1) ≤ 1 := by
      intro j
      induction j with
      | zero => intro key bs x _; exact h1 x
      | succ j ih =>
        intro key bs x hb
        simp only [gibbsLoop, Rand.E_bind]
        refine (Rand.E_mono_leaves (leaves_gibbs_length hsh margY eb _ x y0 hb hts) fun out ho => ih _ _ _ ?_).trans
          (hconst (split key 2 1) x bs hb 1).le
        match h : out.2.2.1 with
        | [] => simp [h] at ho
        | b :: l => simpa [h, asIdx] using ho
    refine ⟨_, 0, hmeas (split key 2 1) b0 hb0 G hG, ENNReal.zero_ne_top, fun x => ⟨bot_le, ?_⟩, hs⟩
    rw [← hs b0 x hb0]
    simpa using hle (i + 1) key b0 x hb0

theorem geom_le {ε : ℝ≥0∞} (hε : ε ≤ 1) (k : ℕ) : ∑ j ∈ Finset.range k, (1 - ε) ^ j ≤ ε⁻¹ := by
  refine (ENNReal.sum_le_tsum _).trans ?_
  rw [ENNReal.tsum_geometric, ENNReal.sub_sub_cancel ENNReal.one_ne_top hε]

theorem error_of_drift {π0 : Measure U} [IsProbabilityMeasure π0] {F G : U → ℝ≥0∞} {a r D : ℝ≥0∞}
    (hr : ∀ x, a ≤ G x ∧ G x ≤ a + r) (h : ∫⁻ x, F x ∂π0 ≤ ∫⁻ x, G x ∂π0 + D ∧ ∫⁻ x, G x ∂π0 ≤ ∫⁻ x, F x ∂π0 + D) (x : U) :
    G x ≤ ∫⁻ u, F u ∂π0 + (r + D) ∧ ∫⁻ u, F u ∂π0 ≤ G x + (r + D) := by
  have hc := close_of_contract (π0 := π0) rfl hr x
  simp only [measure_univ, mul_one] at hc
  constructor
  · calc G x ≤ ∫⁻ u, G u ∂π0 + r := hc.1
      _ ≤ ∫⁻ u, F u ∂π0 + D + r := add_le_add h.2 le_rfl
      _ = _ := by rw [add_assoc, add_comm D]
  · calc ∫⁻ u, F u ∂π0 ≤ ∫⁻ u, G u ∂π0 + D := h.1
      _ ≤ G x + r + D := add_le_add hc.2 le_rfl
      _ = _ := by rw [add_assoc]

/-! ### C91 -/

/-- **C91, `explicit_final=False`.**  Let the law of the reversed paths of `gibbs_kernel`, with `x0 ~ π0`, exceed the path law
of the model `S`, whose transition sampler and likelihood are used, by at most `δ`, and fall short of it by at most `δ'`.  Then the
law of the state after `k` iterations, from any start and with any number of particles, is within
`(1 - rate)^k + (δ + δ') ∑_{j < k} (1 - rate)^j` of `π0`. -/
theorem C91_gibbs_error {K : ℕ} [NeZero n] {m : Gibbs.Funs (rows n false) U V Z} {S : StateSpace U V}
    (hS : S.JointMeas) {y0 : V}
    (htr : ∀ xs v t k (F : (Fin (rows n false) → U) → ℝ≥0∞), Measurable F →
      (m.transSampler xs v t k).E F = ∫⁻ x, F x ∂(Measure.pi fun i => S.trans v t (xs i)))
    (hlik : ∀ v xs v' t i, m.lik v xs v' t i = S.logG v v' t (xs i))
    (hst : ∀ key x (F : U → ℝ≥0∞), Measurable F → (m.fwd key x y0).E (fun p => F (m.unpack p).1.1) = F x)
    (hsh : PathShape m K) {margY : Bool} (eb : Bool) {ts : Arr1 ℝ} (hts : ts.2.length = K)
    (hbr : margY = true → ∀ key a b (c : ℝ≥0∞), (m.bridge key a b ts).E (fun _ => c) = c)
    (hpl : PathsLaw m margY y0 ts K)
    (hreg : eb = true → ∀ v v' t (x : Fin (rows n false) → U), Regular (normalise fun i => S.logG v v' t (x i)))
    {β : ℝ} (hβ : ∀ v v' t u, S.logG v v' t u ≤ β)
    {Λ : Measure (U × (Fin (K + 1) → V))} (hΛ : MinorPinned m margY y0 ts Λ)
    {π0 : Measure U} [IsProbabilityMeasure π0] {Λ' : Measure (U × (Fin (K + 1) → V))} {δ δ' : ℝ≥0∞}
    (hnear : Near K m margY π0 y0 ts (pinnedLaw S ts Λ') δ δ')
    {F : U → ℝ≥0∞} (hF : Measurable F) (h1 : ∀ x, F x ≤ 1) (x : U) {bs : Arr1 (Fin (rows n false))}
    (hb : bs.2.length = K) (k : ℕ) (key : Key) :
    (gibbsLoop false m margY eb y0 ts k key x bs).E (fun out => F out.1) ≤ ∫⁻ u, F u ∂π0 +
        ((1 - pinnedRate eb n β S ts Λ) ^ k + (δ + δ') * ∑ j ∈ Finset.range k, (1 - pinnedRate eb n β S ts Λ) ^ j) ∧
      ∫⁻ u, F u ∂π0 ≤ (gibbsLoop false m margY eb y0 ts k key x bs).E (fun out => F out.1) +
        ((1 - pinnedRate eb n β S ts Λ) ^ k + (δ + δ') * ∑ j ∈ Finset.range k, (1 - pinnedRate eb n β S ts Λ) ^ j) := by
  have hcon := fun i key => pinned_contract hS htr hlik hst hsh hβ margY eb hts hpl hΛ hF h1 x i key
  obtain ⟨G, a, -, -, hr, hE⟩ := hcon k key
  have hd := loop_drift hsh hts (π0 := π0) tsub_le_self
    (fun key bs hb F hF => kernel_meas hS htr hlik hst hsh margY eb hts hpl key hb hF)
    (fun key x bs hb c => kernel_const htr hlik hst hsh margY eb hts hpl key x hb c)
    (fun key bs hb F hF h1 => pinned_step hS htr hlik hst hsh eb hts hbr hreg hnear key hb hF h1) hcon k key bs hb
  simp only [hE bs _ hb] at hd ⊢
  exact error_of_drift hr hd x

/-- **C91, `explicit_final=True`.** -/
theorem C91_gibbs_final_error {K : ℕ} [NeZero n] {m : Gibbs.Funs (rows n true) U V Z} {S : StateSpace U V}
    (hS : S.JointMeas) {ν : Measure U} [IsProbabilityMeasure ν] {y0 : V}
    (htr : ∀ xs v t k (F : (Fin (rows n true) → U) → ℝ≥0∞), Measurable F →
      (m.transSampler xs v t k).E F = ∫⁻ x, F x ∂(Measure.pi fun i => S.trans v t (xs i)))
    (hlik : ∀ v xs v' t i, m.lik v xs v' t i = S.logG v v' t (xs i))
    (hn : ∀ k r (F : (Fin (rows n true) → U) → ℝ≥0∞), Measurable F →
      (m.normal k r).E F = ∫⁻ x, F x ∂(Measure.pi fun _ => ν))
    (hst : ∀ key x (F : U → ℝ≥0∞), Measurable F → (m.fwd key x y0).E (fun p => F (m.unpack p).1.1) = F x)
    (hsh : PathShape m K) {margY : Bool} (eb : Bool) {ts : Arr1 ℝ} (hts : ts.2.length = K)
    (hbr : margY = true → ∀ key a b (c : ℝ≥0∞), (m.bridge key a b ts).E (fun _ => c) = c)
    (hpl : PathsLaw m margY y0 ts K)
    (hreg : eb = true → ∀ v v' t (x : Fin (rows n true) → U), Regular (normalise fun i => S.logG v v' t (x i)))
    {β : ℝ} (hβ : ∀ v v' t u, S.logG v v' t u ≤ β)
    {Λ : Measure (Fin (K + 1) → V)} (hΛ : MinorObs m margY y0 ts Λ)
    {π0 : Measure U} [IsProbabilityMeasure π0] {Λ' : Measure (Fin (K + 1) → V)} {δ δ' : ℝ≥0∞}
    (hnear : Near K m margY π0 y0 ts (refLaw S ν ts Λ') δ δ')
    {F : U → ℝ≥0∞} (hF : Measurable F) (h1 : ∀ x, F x ≤ 1) (x : U) {bs : Arr1 (Fin (rows n true))}
    (hb : bs.2.length = K) (k : ℕ) (key : Key) :
    (gibbsLoop true m margY eb y0 ts k key x bs).E (fun out => F out.1) ≤ ∫⁻ u, F u ∂π0 +
        ((1 - refRate eb n β S ν ts Λ) ^ k + (δ + δ') * ∑ j ∈ Finset.range k, (1 - refRate eb n β S ν ts Λ) ^ j) ∧
      ∫⁻ u, F u ∂π0 ≤ (gibbsLoop true m margY eb y0 ts k key x bs).E (fun out => F out.1) +
        ((1 - refRate eb n β S ν ts Λ) ^ k + (δ + δ') * ∑ j ∈ Finset.range k, (1 - refRate eb n β S ν ts Λ) ^ j) := by
  have hcon := fun i key => ref_contract hS htr hlik hn hst hsh hβ margY eb hts hpl hΛ hF h1 x i key
  obtain ⟨G, a, -, -, hr, hE⟩ := hcon k key
  have hd := loop_drift hsh hts (π0 := π0) tsub_le_self
    (fun key bs hb F hF => kernel_final_meas hS htr hlik hn hst hsh margY eb hts hpl key hb hF)
    (fun key x bs hb c => kernel_final_const htr hlik hn hst hsh margY eb hts hpl key x hb c)
    (fun key bs hb F hF h1 => ref_step_near hS htr hlik hn hst hsh eb hts hbr hreg hnear key hb hF h1) hcon k key bs hb
  simp only [hE bs _ hb] at hd ⊢
  exact error_of_drift hr hd x

/-- **C91, no assumption of mixing, `explicit_final=False`.**  Started from `x0 ~ π0`, `k` iterations move the law of the state by at
most `k (δ + δ')`. -/
theorem C91_gibbs_drift {K : ℕ} [NeZero n] {m : Gibbs.Funs (rows n false) U V Z} {S : StateSpace U V}
    (hS : S.JointMeas) {y0 : V}
    (htr : ∀ xs v t k (F : (Fin (rows n false) → U) → ℝ≥0∞), Measurable F →
      (m.transSampler xs v t k).E F = ∫⁻ x, F x ∂(Measure.pi fun i => S.trans v t (xs i)))
    (hlik : ∀ v xs v' t i, m.lik v xs v' t i = S.logG v v' t (xs i))
    (hst : ∀ key x (F : U → ℝ≥0∞), Measurable F → (m.fwd key x y0).E (fun p => F (m.unpack p).1.1) = F x)
    (hsh : PathShape m K) {margY : Bool} (eb : Bool) {ts : Arr1 ℝ} (hts : ts.2.length = K)
    (hbr : margY = true → ∀ key a b (c : ℝ≥0∞), (m.bridge key a b ts).E (fun _ => c) = c)
    (hpl : PathsLaw m margY y0 ts K)
    (hreg : eb = true → ∀ v v' t (x : Fin (rows n false) → U), Regular (normalise fun i => S.logG v v' t (x i)))
    {π0 : Measure U} [IsFiniteMeasure π0] {Λ : Measure (U × (Fin (K + 1) → V))} {δ δ' : ℝ≥0∞}
    (hnear : Near K m margY π0 y0 ts (pinnedLaw S ts Λ) δ δ')
    {F : U → ℝ≥0∞} (hF : Measurable F) (h1 : ∀ x, F x ≤ 1) {bs : Arr1 (Fin (rows n false))}
    (hb : bs.2.length = K) (k : ℕ) (key : Key) :
    ∫⁻ x, (gibbsLoop false m margY eb y0 ts k key x bs).E (fun out => F out.1) ∂π0 ≤ ∫⁻ u, F u ∂π0 + k * (δ + δ') ∧
      ∫⁻ u, F u ∂π0 ≤ ∫⁻ x, (gibbsLoop false m margY eb y0 ts k key x bs).E (fun out => F out.1) ∂π0 + k * (δ + δ') := by
  have hmeas := fun (key : Key) (bs : Arr1 (Fin (rows n false))) (hb : bs.2.length = K) (F : U → ℝ≥0∞) (hF : Measurable F) =>
    kernel_meas hS htr hlik hst hsh margY eb hts hpl key hb hF
  have hconst := fun (key : Key) x (bs : Arr1 (Fin (rows n false))) (hb : bs.2.length = K) (c : ℝ≥0∞) =>
    kernel_const htr hlik hst hsh margY eb hts hpl key x hb c
  have hd := loop_drift hsh hts (π0 := π0) le_rfl hmeas hconst
    (fun key bs hb F hF h1 => pinned_step hS htr hlik hst hsh eb hts hbr hreg hnear key hb hF h1)
    (loop_meas hsh hts (fun key x bs bs' h h' F hF => C58_gibbs_index_free htr hlik hst hsh margY eb key x h h' hts hF) hmeas
      hconst hF h1) k key bs hb
  simp only [one_pow, Finset.sum_const, Finset.card_range, nsmul_eq_mul, mul_one] at hd
  rw [mul_comm (k : ℝ≥0∞)]
  exact ⟨hd.2, hd.1⟩

/-- **C91, no assumption of mixing, `explicit_final=True`.** -/
theorem C91_gibbs_final_drift {K : ℕ} [NeZero n] {m : Gibbs.Funs (rows n true) U V Z} {S : StateSpace U V}
    (hS : S.JointMeas) {ν : Measure U} [IsProbabilityMeasure ν] {y0 : V}
    (htr : ∀ xs v t k (F : (Fin (rows n true) → U) → ℝ≥0∞), Measurable F →
      (m.transSampler xs v t k).E F = ∫⁻ x, F x ∂(Measure.pi fun i => S.trans v t (xs i)))
    (hlik : ∀ v xs v' t i, m.lik v xs v' t i = S.logG v v' t (xs i))
    (hn : ∀ k r (F : (Fin (rows n true) → U) → ℝ≥0∞), Measurable F →
      (m.normal k r).E F = ∫⁻ x, F x ∂(Measure.pi fun _ => ν))
    (hst : ∀ key x (F : U → ℝ≥0∞), Measurable F → (m.fwd key x y0).E (fun p => F (m.unpack p).1.1) = F x)
    (hsh : PathShape m K) {margY : Bool} (eb : Bool) {ts : Arr1 ℝ} (hts : ts.2.length = K)
    (hbr : margY = true → ∀ key a b (c : ℝ≥0∞), (m.bridge key a b ts).E (fun _ => c) = c)
    (hpl : PathsLaw m margY y0 ts K)
    (hreg : eb = true → ∀ v v' t (x : Fin (rows n true) → U), Regular (normalise fun i => S.logG v v' t (x i)))
    {π0 : Measure U} [IsFiniteMeasure π0] {Λ : Measure (Fin (K + 1) → V)} {δ δ' : ℝ≥0∞}
    (hnear : Near K m margY π0 y0 ts (refLaw S ν ts Λ) δ δ')
    {F : U → ℝ≥0∞} (hF : Measurable F) (h1 : ∀ x, F x ≤ 1) {bs : Arr1 (Fin (rows n true))}
    (hb : bs.2.length = K) (k : ℕ) (key : Key) :
    ∫⁻ x, (gibbsLoop true m margY eb y0 ts k key x bs).E (fun out => F out.1) ∂π0 ≤ ∫⁻ u, F u ∂π0 + k * (δ + δ') ∧
      ∫⁻ u, F u ∂π0 ≤ ∫⁻ x, (gibbsLoop true m margY eb y0 ts k key x bs).E (fun out => F out.1) ∂π0 + k * (δ + δ') := by
  have hmeas := fun (key : Key) (bs : Arr1 (Fin (rows n true))) (hb : bs.2.length = K) (F : U → ℝ≥0∞) (hF : Measurable F) =>
    kernel_final_meas hS htr hlik hn hst hsh margY eb hts hpl key hb hF
  have hconst := fun (key : Key) x (bs : Arr1 (Fin (rows n true))) (hb : bs.2.length = K) (c : ℝ≥0∞) =>
    kernel_final_const htr hlik hn hst hsh margY eb hts hpl key x hb c
  have hd := loop_drift hsh hts (π0 := π0) le_rfl hmeas hconst
    (fun key bs hb F hF h1 => ref_step_near hS htr hlik hn hst hsh eb hts hbr hreg hnear key hb hF h1)
    (loop_meas hsh hts
      (fun key x bs bs' h h' F hF => C58_gibbs_final_index_free htr hlik hn hst hsh margY eb key x h h' hts hF) hmeas
      hconst hF h1) k key bs hb
  simp only [one_pow, Finset.sum_const, Finset.card_range, nsmul_eq_mul, mul_one] at hd
  rw [mul_comm (k : ℝ≥0∞)]
  exact ⟨hd.2, hd.1⟩

/-- A bound on all iterates of a family of transition functions bounds their invariant laws. -/
theorem stationary_le {π0 μ : Measure U} [IsProbabilityMeasure μ] {ε D : ℝ≥0∞} (hε : 0 < ε) (hε1 : ε ≤ 1)
    {P : ℕ → U → ℝ≥0∞} {F : U → ℝ≥0∞} (hPm : ∀ k, Measurable (P k)) (hinv : ∀ k, ∫⁻ x, P k x ∂μ = ∫⁻ x, F x ∂μ)
    (h : ∀ k x, P k x ≤ ∫⁻ u, F u ∂π0 + ((1 - ε) ^ k + D * ∑ j ∈ Finset.range k, (1 - ε) ^ j) ∧
      ∫⁻ u, F u ∂π0 ≤ P k x + ((1 - ε) ^ k + D * ∑ j ∈ Finset.range k, (1 - ε) ^ j)) :
    ∫⁻ x, F x ∂μ ≤ ∫⁻ u, F u ∂π0 + D / ε ∧ ∫⁻ u, F u ∂π0 ≤ ∫⁻ x, F x ∂μ + D / ε := by
  have hlt : 1 - ε < 1 := ENNReal.sub_lt_self ENNReal.one_ne_top one_ne_zero hε.ne'
  have hp : Filter.Tendsto (fun k => (1 - ε) ^ k) Filter.atTop (nhds 0) := ENNReal.tendsto_pow_atTop_nhds_zero_of_lt_one hlt
  have hb : ∀ k, (1 - ε) ^ k + D * ∑ j ∈ Finset.range k, (1 - ε) ^ j ≤ (1 - ε) ^ k + D / ε := fun k => by
    rw [div_eq_mul_inv]
    gcongr
    exact geom_le hε1 k
  constructor
  · refine ge_of_tendsto (x := Filter.atTop) (f := fun k : ℕ => ∫⁻ u, F u ∂π0 + ((1 - ε) ^ k + D / ε)) ?_
      (Filter.Eventually.of_forall fun k => ?_)
    · simpa using (hp.add_const (D / ε)).const_add (∫⁻ u, F u ∂π0)
    · rw [← hinv k]
      refine (lintegral_mono fun x => ((h k x).1.trans (add_le_add le_rfl (hb k)))).trans ?_
      simp
  · refine ge_of_tendsto (x := Filter.atTop) (f := fun k : ℕ => ∫⁻ x, F x ∂μ + ((1 - ε) ^ k + D / ε)) ?_
      (Filter.Eventually.of_forall fun k => ?_)
    · simpa using (hp.add_const (D / ε)).const_add (∫⁻ u, F u ∂μ)
    · rw [← hinv k]
      calc ∫⁻ u, F u ∂π0 = ∫⁻ _, (∫⁻ u, F u ∂π0) ∂μ := by simp
        _ ≤ ∫⁻ x, (P k x + ((1 - ε) ^ k + D / ε)) ∂μ :=
            lintegral_mono fun x => (h k x).2.trans (add_le_add le_rfl (hb k))
        _ = _ := by rw [lintegral_add_left (hPm k)]; simp

theorem pinnedRate_le_one {K : ℕ} [NeZero n] {m : Gibbs.Funs (rows n false) U V Z} {S : StateSpace U V}
    (hS : S.JointMeas) {y0 : V}
    (htr : ∀ xs v t k (F : (Fin (rows n false) → U) → ℝ≥0∞), Measurable F →
      (m.transSampler xs v t k).E F = ∫⁻ x, F x ∂(Measure.pi fun i => S.trans v t (xs i)))
    (hlik : ∀ v xs v' t i, m.lik v xs v' t i = S.logG v v' t (xs i))
    (hst : ∀ key x (F : U → ℝ≥0∞), Measurable F → (m.fwd key x y0).E (fun p => F (m.unpack p).1.1) = F x)
    (hsh : PathShape m K) {β : ℝ} (hβ : ∀ v v' t u, S.logG v v' t u ≤ β) {margY : Bool} (eb : Bool) {ts : Arr1 ℝ}
    (hts : ts.2.length = K) (hpl : PathsLaw m margY y0 ts K)
    {Λ : Measure (U × (Fin (K + 1) → V))} (hΛ : MinorPinned m margY y0 ts Λ) (x : U) : pinnedRate eb n β S ts Λ ≤ 1 := by
  have hb0 : ((0, List.replicate K 0) : Arr1 (Fin (rows n false))).2.length = K := by simp
  exact (C82_gibbs_minorisation hS htr hlik hst hsh hβ margY eb hts hΛ [] x hb0 measurable_const).trans
    (kernel_const htr hlik hst hsh margY eb hts hpl [] x hb0 1).le

/-- **C91, the stationary law.**  Every probability `μ` that the iterations leave invariant is within `(δ + δ') / rate` of `π0`. -/
theorem C91_gibbs_stationary {K : ℕ} [NeZero n] {m : Gibbs.Funs (rows n false) U V Z} {S : StateSpace U V}
    (hS : S.JointMeas) {y0 : V}
    (htr : ∀ xs v t k (F : (Fin (rows n false) → U) → ℝ≥0∞), Measurable F →
      (m.transSampler xs v t k).E F = ∫⁻ x, F x ∂(Measure.pi fun i => S.trans v t (xs i)))
    (hlik : ∀ v xs v' t i, m.lik v xs v' t i = S.logG v v' t (xs i))
    (hst : ∀ key x (F : U → ℝ≥0∞), Measurable F → (m.fwd key x y0).E (fun p => F (m.unpack p).1.1) = F x)
    (hsh : PathShape m K) {margY : Bool} (eb : Bool) {ts : Arr1 ℝ} (hts : ts.2.length = K)
    (hbr : margY = true → ∀ key a b (c : ℝ≥0∞), (m.bridge key a b ts).E (fun _ => c) = c)
    (hpl : PathsLaw m margY y0 ts K)
    (hreg : eb = true → ∀ v v' t (x : Fin (rows n false) → U), Regular (normalise fun i => S.logG v v' t (x i)))
    {β : ℝ} (hβ : ∀ v v' t u, S.logG v v' t u ≤ β)
    {Λ : Measure (U × (Fin (K + 1) → V))} (hΛ : MinorPinned m margY y0 ts Λ) (hpos : 0 < pinnedRate eb n β S ts Λ)
    {π0 : Measure U} [IsProbabilityMeasure π0] {Λ' : Measure (U × (Fin (K + 1) → V))} {δ δ' : ℝ≥0∞}
    (hnear : Near K m margY π0 y0 ts (pinnedLaw S ts Λ') δ δ')
    {F : U → ℝ≥0∞} (hF : Measurable F) (h1 : ∀ x, F x ≤ 1) {bs : Arr1 (Fin (rows n false))} (hb : bs.2.length = K) (key : Key)
    {μ : Measure U} [IsProbabilityMeasure μ]
    (hμ : ∀ k, ∫⁻ x, (gibbsLoop false m margY eb y0 ts k key x bs).E (fun out => F out.1) ∂μ = ∫⁻ x, F x ∂μ) :
    ∫⁻ x, F x ∂μ ≤ ∫⁻ u, F u ∂π0 + (δ + δ') / pinnedRate eb n β S ts Λ ∧
      ∫⁻ u, F u ∂π0 ≤ ∫⁻ x, F x ∂μ + (δ + δ') / pinnedRate eb n β S ts Λ := by
  obtain ⟨x0⟩ : Nonempty U := nonempty_of_isProbabilityMeasure μ
  refine stationary_le hpos (pinnedRate_le_one hS htr hlik hst hsh hβ eb hts hpl hΛ x0) (fun k => ?_) hμ fun k x =>
    C91_gibbs_error hS htr hlik hst hsh eb hts hbr hpl hreg hβ hΛ hnear hF h1 x hb k key
  obtain ⟨G, a, hG, -, -, hE⟩ := pinned_contract hS htr hlik hst hsh hβ margY eb hts hpl hΛ hF h1 x0 k key
  simp only [hE bs _ hb]
  exact hG

/-- **C91, the stationary law, `explicit_final=True`.** -/
theorem C91_gibbs_final_stationary {K : ℕ} [NeZero n] {m : Gibbs.Funs (rows n true) U V Z} {S : StateSpace U V}
    (hS : S.JointMeas) {ν : Measure U} [IsProbabilityMeasure ν] {y0 : V}
    (htr : ∀ xs v t k (F : (Fin (rows n true) → U) → ℝ≥0∞), Measurable F →
      (m.transSampler xs v t k).E F = ∫⁻ x, F x ∂(Measure.pi fun i => S.trans v t (xs i)))
    (hlik : ∀ v xs v' t i, m.lik v xs v' t i = S.logG v v' t (xs i))
    (hn : ∀ k r (F : (Fin (rows n true) → U) → ℝ≥0∞), Measurable F →
      (m.normal k r).E F = ∫⁻ x, F x ∂(Measure.pi fun _ => ν))
    (hst : ∀ key x (F : U → ℝ≥0∞), Measurable F → (m.fwd key x y0).E (fun p => F (m.unpack p).1.1) = F x)
    (hsh : PathShape m K) {margY : Bool} (eb : Bool) {ts : Arr1 ℝ} (hts : ts.2.length = K)
    (hbr : margY = true → ∀ key a b (c : ℝ≥0∞), (m.bridge key a b ts).E (fun _ => c) = c)
    (hpl : PathsLaw m margY y0 ts K)
    (hreg : eb = true → ∀ v v' t (x : Fin (rows n true) → U), Regular (normalise fun i => S.logG v v' t (x i)))
    {β : ℝ} (hβ : ∀ v v' t u, S.logG v v' t u ≤ β)
    {Λ : Measure (Fin (K + 1) → V)} (hΛ : MinorObs m margY y0 ts Λ) (hpos : 0 < refRate eb n β S ν ts Λ)
    {π0 : Measure U} [IsProbabilityMeasure π0] {Λ' : Measure (Fin (K + 1) → V)} {δ δ' : ℝ≥0∞}
    (hnear : Near K m margY π0 y0 ts (refLaw S ν ts Λ') δ δ')
    {F : U → ℝ≥0∞} (hF : Measurable F) (h1 : ∀ x, F x ≤ 1) {bs : Arr1 (Fin (rows n true))} (hb : bs.2.length = K) (key : Key)
    {μ : Measure U} [IsProbabilityMeasure μ]
    (hμ : ∀ k, ∫⁻ x, (gibbsLoop true m margY eb y0 ts k key x bs).E (fun out => F out.1) ∂μ = ∫⁻ x, F x ∂μ) :
    ∫⁻ x, F x ∂μ ≤ ∫⁻ u, F u ∂π0 + (δ + δ') / refRate eb n β S ν ts Λ ∧
      ∫⁻ u, F u ∂π0 ≤ ∫⁻ x, F x ∂μ + (δ + δ') / refRate eb n β S ν ts Λ := by
  obtain ⟨x0⟩ : Nonempty U := nonempty_of_isProbabilityMeasure μ
  have hle : refRate eb n β S ν ts Λ ≤ 1 := by
    have hb0 : ((0, List.replicate K 0) : Arr1 (Fin (rows n true))).2.length = K := by simp
    exact (C82_gibbs_final_minorisation hS htr hlik hn hst hsh hβ margY eb hts hΛ [] x0 hb0 measurable_const).trans
      (kernel_final_const htr hlik hn hst hsh margY eb hts hpl [] x0 hb0 1).le
  refine stationary_le hpos hle (fun k => ?_) hμ fun k x =>
    C91_gibbs_final_error hS htr hlik hn hst hsh eb hts hbr hpl hreg hβ hΛ hnear hF h1 x hb k key
  obtain ⟨G, a, hG, -, -, hE⟩ := ref_contract hS htr hlik hn hst hsh hβ margY eb hts hpl hΛ hF h1 x0 k key
  simp only [hE bs _ hb]
  exact hG

/-! ### Errors of the likelihood -/

omit [MeasurableSpace V] in
theorem pathInt_lik_le {S S' : StateSpace U V} (htr : ∀ v t, S'.trans v t = S.trans v t) {η : ℝ} (hη : 0 ≤ η)
    (hl : ∀ v v' t u, S'.logG v v' t u ≤ S.logG v v' t u + η) : ∀ (vs : List V) (v : V) (ts : List ℝ) (u : U)
    (φ : List U → ℝ≥0∞), pathInt (S'.steps v vs ts) u φ ≤
      ENNReal.ofReal (Real.exp (vs.length * η)) * pathInt (S.steps v vs ts) u φ
  | [], v, ts, u, φ => by simp [StateSpace.steps]
  | v' :: vs, v, [], u, φ => by
    simp only [StateSpace.steps, pathInt]
    refine le_mul_of_one_le_left' ?_
    rw [← ENNReal.ofReal_one]
    exact ENNReal.ofReal_le_ofReal (Real.one_le_exp (by positivity))
  | v' :: vs, v, t :: ts, u, φ => by
    simp only [StateSpace.steps, pathInt, htr]
    calc ENNReal.ofReal (Real.exp (S'.logG v' v t u)) *
          ∫⁻ u', pathInt (S'.steps v' vs ts) u' (fun l => φ (u' :: l)) ∂(S.trans v t u)
        ≤ ENNReal.ofReal (Real.exp (S.logG v' v t u + η)) * ∫⁻ u', ENNReal.ofReal (Real.exp (vs.length * η)) *
            pathInt (S.steps v' vs ts) u' (fun l => φ (u' :: l)) ∂(S.trans v t u) :=
          mul_le_mul' (ENNReal.ofReal_le_ofReal (Real.exp_le_exp.2 (hl _ _ _ _)))
            (lintegral_mono fun u' => pathInt_lik_le htr hη hl vs v' ts u' _)
      _ = _ := by
          rw [lintegral_const_mul' _ _ ENNReal.ofReal_ne_top, Real.exp_add, ENNReal.ofReal_mul (Real.exp_pos _).le,
            List.length_cons, Nat.cast_succ, add_mul, one_mul, Real.exp_add, ENNReal.ofReal_mul (Real.exp_pos _).le]
          ring

/-- If the density of one law with respect to the other is between `exp(-r)` and `exp(r)`. -/
theorem near_of_ratio {K : ℕ} {ef : Bool} {m : Gibbs.Funs (rows n ef) U V Z} {margY : Bool} {π0 : Measure U}
    [IsProbabilityMeasure π0] {y0 : V} {ts : Arr1 ℝ} {L L' : (Arr1 U → Arr1 V → ℝ≥0∞) → ℝ≥0∞} {r : ℝ} (hr : 0 ≤ r)
    (hup : ∀ φ, L' φ ≤ ENNReal.ofReal (Real.exp r) * L φ) (hdn : ∀ φ, L φ ≤ ENNReal.ofReal (Real.exp r) * L' φ)
    (hpl1 : ∀ key x, (gibbsPaths m margY key x y0 ts).E (fun _ => 1) = 1)
    (hL : ∀ key φ, MeasPaths K φ → ∫⁻ x, (gibbsPaths m margY key x y0 ts).E (fun q => φ q.1 q.2) ∂π0 = L φ) :
    Near K m margY π0 y0 ts L' (ENNReal.ofReal (1 - Real.exp (-r))) (ENNReal.ofReal (Real.exp r - 1)) := by
  have hI1 : ∀ (key : Key) (φ : Arr1 U → Arr1 V → ℝ≥0∞), (∀ us vs, φ us vs ≤ 1) →
      ∫⁻ x, (gibbsPaths m margY key x y0 ts).E (fun q => φ q.1 q.2) ∂π0 ≤ 1 := fun key φ h1 => by
    refine (lintegral_mono fun x => (Rand.E_mono _ fun q => h1 q.1 q.2).trans (hpl1 key x).le).trans ?_
    simp
  have hE : 1 ≤ Real.exp r := Real.one_le_exp hr
  refine ⟨fun key φ hφ h1 => ?_, fun key φ hφ h1 => ?_⟩
  · have hI := hI1 key φ h1
    rw [hL key φ hφ] at hI ⊢
    set I := L φ
    have hIt : I ≠ ∞ := ne_top_of_le_ne_top ENNReal.one_ne_top hI
    have hr : I.toReal ≤ 1 := ENNReal.toReal_le_of_le_ofReal one_pos.le (by simpa using hI)
    have h2 : ENNReal.ofReal (Real.exp (-r)) * I ≤ L' φ := by
      refine (mul_le_mul' le_rfl (hdn φ)).trans ?_
      rw [← mul_assoc, ← ENNReal.ofReal_mul (Real.exp_pos _).le, ← Real.exp_add]
      simp
    refine le_trans ?_ (add_le_add h2 le_rfl)
    have he : Real.exp (-r) ≤ 1 := Real.exp_le_one_iff.2 (by linarith)
    rw [← ENNReal.ofReal_toReal hIt, ← ENNReal.ofReal_mul (Real.exp_pos _).le, ← ENNReal.ofReal_add (by positivity) (by linarith)]
    refine ENNReal.ofReal_le_ofReal ?_
    nlinarith [ENNReal.toReal_nonneg (a := I)]
  · have hI := hI1 key φ h1
    rw [hL key φ hφ] at hI ⊢
    refine (hup φ).trans ?_
    set I := L φ
    have hIt : I ≠ ∞ := ne_top_of_le_ne_top ENNReal.one_ne_top hI
    have hr : I.toReal ≤ 1 := ENNReal.toReal_le_of_le_ofReal one_pos.le (by simpa using hI)
    rw [← ENNReal.ofReal_toReal hIt, ← ENNReal.ofReal_mul (Real.exp_pos _).le, ← ENNReal.ofReal_add (by positivity) (by linarith)]
    refine ENNReal.ofReal_le_ofReal ?_
    nlinarith [ENNReal.toReal_nonneg (a := I)]

theorem pinnedLaw_lik_le {K : ℕ} {S S' : StateSpace U V} (htr : ∀ v t, S'.trans v t = S.trans v t) {η : ℝ} (hη : 0 ≤ η)
    (hl : ∀ v v' t u, S'.logG v v' t u ≤ S.logG v v' t u + η) (ts : Arr1 ℝ) (Λ : Measure (U × (Fin (K + 1) → V)))
    (φ : Arr1 U → Arr1 V → ℝ≥0∞) : pinnedLaw S' ts Λ φ ≤ ENNReal.ofReal (Real.exp (K * η)) * pinnedLaw S ts Λ φ := by
  unfold pinnedLaw
  rw [← lintegral_const_mul' _ _ ENNReal.ofReal_ne_top]
  refine lintegral_mono fun q => ?_
  have h := pathInt_lik_le htr hη hl (arr q.2).2 (arr q.2).1 ts.toList q.1 fun l => φ (q.1, l) (arr q.2)
  rwa [show (arr q.2).2.length = K by simp [arr]] at h

theorem refLaw_lik_le {K : ℕ} {S S' : StateSpace U V} (htr : ∀ v t, S'.trans v t = S.trans v t) {η : ℝ} (hη : 0 ≤ η)
    (hl : ∀ v v' t u, S'.logG v v' t u ≤ S.logG v v' t u + η) (ν : Measure U) (ts : Arr1 ℝ) (Λ : Measure (Fin (K + 1) → V))
    (φ : Arr1 U → Arr1 V → ℝ≥0∞) :
    refLaw S' ν ts Λ φ ≤ ENNReal.ofReal (Real.exp ((K + 1) * η)) * refLaw S ν ts Λ φ := by
  unfold refLaw
  rw [← lintegral_const_mul' _ _ ENNReal.ofReal_ne_top]
  refine lintegral_mono fun v => ?_
  beta_reduce
  rw [← lintegral_const_mul' _ _ ENNReal.ofReal_ne_top]
  refine lintegral_mono fun u => ?_
  have h := pathInt_lik_le htr hη hl (arr v).2 (arr v).1 ts.toList u fun l => φ (u, l) (arr v)
  rw [show (arr v).2.length = K by simp [arr]] at h
  refine (mul_le_mul' (ENNReal.ofReal_le_ofReal (Real.exp_le_exp.2 (hl _ _ _ _))) h).trans (le_of_eq ?_)
  rw [Real.exp_add, ENNReal.ofReal_mul (Real.exp_pos _).le, add_mul, one_mul, Real.exp_add,
    ENNReal.ofReal_mul (Real.exp_pos _).le]
  ring

/-- **C91, errors of the likelihood.**  Exact functions whose log-likelihood is replaced by one that is off by at most `η` satisfy
the hypothesis of `C91_gibbs_error` with `δ + δ' = exp(Kη) - exp(-Kη)`. -/
theorem C91_near_likelihood {K : ℕ} {ef : Bool} {m : Gibbs.Funs (rows n ef) U V Z} {S S' : StateSpace U V}
    (htr : ∀ v t, S'.trans v t = S.trans v t) {η : ℝ} (hη : 0 ≤ η)
    (hl : ∀ v v' t u, |S'.logG v v' t u - S.logG v v' t u| ≤ η) {margY : Bool} {π0 : Measure U} [IsProbabilityMeasure π0]
    {y0 : V} {ts : Arr1 ℝ} {Λ : Measure (U × (Fin (K + 1) → V))}
    (hpl1 : ∀ key x, (gibbsPaths m margY key x y0 ts).E (fun _ => 1) = 1)
    (hΛ : ∀ key φ, MeasPaths K φ →
      ∫⁻ x, (gibbsPaths m margY key x y0 ts).E (fun q => φ q.1 q.2) ∂π0 = pinnedLaw S ts Λ φ) :
    Near K m margY π0 y0 ts (pinnedLaw S' ts Λ) (ENNReal.ofReal (1 - Real.exp (-(K * η))))
      (ENNReal.ofReal (Real.exp (K * η) - 1)) :=
  near_of_ratio (by positivity)
    (pinnedLaw_lik_le htr hη (fun v v' t u => by linarith [(abs_le.1 (hl v v' t u)).2]) ts Λ)
    (pinnedLaw_lik_le (fun v t => (htr v t).symm) hη (fun v v' t u => by linarith [(abs_le.1 (hl v v' t u)).1]) ts Λ) hpl1 hΛ

/-- **C91, errors of the likelihood, `explicit_final=True`.**  The likelihood also weights the first particles. -/
theorem C91_near_likelihood_final {K : ℕ} {ef : Bool} {m : Gibbs.Funs (rows n ef) U V Z} {S S' : StateSpace U V}
    (htr : ∀ v t, S'.trans v t = S.trans v t) {η : ℝ} (hη : 0 ≤ η)
    (hl : ∀ v v' t u, |S'.logG v v' t u - S.logG v v' t u| ≤ η) {margY : Bool} {π0 : Measure U} [IsProbabilityMeasure π0]
    {ν : Measure U} {y0 : V} {ts : Arr1 ℝ} {Λ : Measure (Fin (K + 1) → V)}
    (hpl1 : ∀ key x, (gibbsPaths m margY key x y0 ts).E (fun _ => 1) = 1)
    (hΛ : ∀ key φ, MeasPaths K φ →
      ∫⁻ x, (gibbsPaths m margY key x y0 ts).E (fun q => φ q.1 q.2) ∂π0 = refLaw S ν ts Λ φ) :
    Near K m margY π0 y0 ts (refLaw S' ν ts Λ) (ENNReal.ofReal (1 - Real.exp (-((K + 1) * η))))
      (ENNReal.ofReal (Real.exp ((K + 1) * η) - 1)) :=
  near_of_ratio (by positivity)
    (refLaw_lik_le htr hη (fun v v' t u => by linarith [(abs_le.1 (hl v v' t u)).2]) ν ts Λ)
    (refLaw_lik_le (fun v t => (htr v t).symm) hη (fun v v' t u => by linarith [(abs_le.1 (hl v v' t u)).1]) ν ts Λ) hpl1 hΛ

/-! ### The hypotheses are met -/

section Examples

open Gibbs

theorem fresh_near {h : ℝ → ℝ} (hh : Measurable h) {η : ℝ} (hη : 0 ≤ η) (hb : ∀ u, |h u| ≤ η) (n : ℕ) (y0 : ℝ) :
    ∃ Λ : Measure (ℝ × (Fin (1 + 1) → ℝ)), Near (n := n) (ef := false) 1 (freshFuns (fun _ u => h u) (rows n false)) false (gaussianReal 0 1) y0 (0, [1])
      (pinnedLaw (freshS (fun _ u => h u) fun _ => hh) (0, [1]) Λ) (ENNReal.ofReal (1 - Real.exp (-(((1 : ℕ) : ℝ) * η))))
      (ENNReal.ofReal (Real.exp (((1 : ℕ) : ℝ) * η) - 1)) := by
  obtain ⟨Λ, hΛ⟩ := (freshFuns_exact (g := fun _ => 0) measurable_const (rows n false) y0 0 1).factor
  simp only [Real.exp_zero, ENNReal.ofReal_one, one_smul] at hΛ
  refine ⟨Λ, C91_near_likelihood (S := freshS (fun _ _ => 0) fun _ => measurable_const)
    (S' := freshS (fun _ u => h u) fun _ => hh) (fun _ _ => rfl) hη
    (fun v v' t u => ?_) (fun key x => ?_) fun key φ hφ => ?_⟩
  · show |h u - 0| ≤ η
    simpa using hb u
  · simp [gibbsPaths, freshFuns, Rand.E_bind, Rand.E_sample, Rand.pure_eq, Rand.E_ret]
  · have h2 := hΛ (split key 3 0) φ hφ
    simp only [gibbsPaths, Rand.E_bind, Rand.pure_eq, Rand.E_ret, Bool.false_eq_true, if_false]
    exact h2

theorem fresh_starts (g : ℝ → ℝ → ℝ) (N : ℕ) (y0 : ℝ) : ∀ key x (F : ℝ → ℝ≥0∞), Measurable F →
    ((freshFuns g N).fwd key x y0).E (fun p => F ((freshFuns g N).unpack p).1.1) = F x := fun key x F _ => by
  simp [freshFuns, Rand.E_map, Rand.E_sample, Arr1.map]

/-- Five particles, a likelihood that is off by at most `1/10`: the law of the state after `k` iterations. -/
example (key : Key) (x : ℝ) (b c : Fin (rows 5 false)) (k : ℕ) {F : ℝ → ℝ≥0∞} (hF : Measurable F) (h1 : ∀ x, F x ≤ 1) :
    ∃ ε : ℝ≥0∞, 0 < ε ∧
    (gibbsLoop false (freshFuns (fun _ u => Real.sin u / 10) (rows 5 false)) false true 2 (0, [1]) k key x (b, [c])).E
      (fun out => F out.1) ≤ ∫⁻ u, F u ∂(gaussianReal 0 1) + ((1 - ε) ^ k +
        (ENNReal.ofReal (1 - Real.exp (-(((1 : ℕ) : ℝ) * (1 / 10)))) + ENNReal.ofReal (Real.exp (((1 : ℕ) : ℝ) * (1 / 10)) - 1)) *
          ∑ j ∈ Finset.range k, (1 - ε) ^ j) := by
  have hh : Measurable fun u : ℝ => Real.sin u / 10 := by fun_prop
  have hb : ∀ u : ℝ, |Real.sin u / 10| ≤ 1 / 10 := fun u => by
    rw [abs_div, abs_of_pos (by norm_num : (0 : ℝ) < 10)]
    linarith [Real.abs_sin_le_one u]
  obtain ⟨Λ, hn⟩ := fresh_near hh (by norm_num : (0 : ℝ) ≤ 1 / 10) hb 5 2
  have hg : Measurable fun p : ℝ × ℝ => Real.sin p.2 / 10 := by fun_prop
  refine ⟨_, ?_, (C91_gibbs_error (freshS_jointMeas (g := fun _ u => Real.sin u / 10) hg)
    (fun xs v t k F hF => by simp only [freshFuns, freshS, Rand.E_sample, Kernel.const_apply]) (fun _ _ _ _ _ => rfl)
    (fresh_starts _ _ _) (freshFuns_shape _ _) true rfl (fun h => by simp at h)
    (pathsLaw_of_fwd (fresh_starts _ _ _) (freshFuns_fwdMeas _ _ _) _)
    (fun _ v v' t x => regular_of_bounded fun i => (hb _).trans (by norm_num)) (β := 1 / 10)
    (fun _ _ _ u => (abs_le.1 (hb u)).2) (freshFuns_minor _ _ _ _) hn hF h1 x rfl k key).1⟩
  exact C82_pinned_rate_pos (freshS_jointMeas (g := fun _ u => Real.sin u / 10) hg) rfl true (by norm_num) _ (freshEnd_ne 2)

/-- One hundred iterations from the correct law. -/
example (key : Key) (b c : Fin (rows 3 false)) {F : ℝ → ℝ≥0∞} (hF : Measurable F) (h1 : ∀ x, F x ≤ 1) :
    ∫⁻ x, (gibbsLoop false (freshFuns (fun _ u => Real.sin u / 10) (rows 3 false)) false false 2 (0, [1]) 100 key x (b, [c])).E
      (fun out => F out.1) ∂(gaussianReal 0 1) ≤ ∫⁻ u, F u ∂(gaussianReal 0 1) + (100 : ℕ) *
        (ENNReal.ofReal (1 - Real.exp (-(((1 : ℕ) : ℝ) * (1 / 10)))) + ENNReal.ofReal (Real.exp (((1 : ℕ) : ℝ) * (1 / 10)) - 1)) := by
  have hh : Measurable fun u : ℝ => Real.sin u / 10 := by fun_prop
  have hb : ∀ u : ℝ, |Real.sin u / 10| ≤ 1 / 10 := fun u => by
    rw [abs_div, abs_of_pos (by norm_num : (0 : ℝ) < 10)]
    linarith [Real.abs_sin_le_one u]
  obtain ⟨Λ, hn⟩ := fresh_near hh (by norm_num : (0 : ℝ) ≤ 1 / 10) hb 3 2
  have hg : Measurable fun p : ℝ × ℝ => Real.sin p.2 / 10 := by fun_prop
  exact (C91_gibbs_drift (freshS_jointMeas (g := fun _ u => Real.sin u / 10) hg)
    (fun xs v t k F hF => by simp only [freshFuns, freshS, Rand.E_sample, Kernel.const_apply]) (fun _ _ _ _ _ => rfl)
    (fresh_starts _ _ _) (freshFuns_shape _ _) false rfl (fun h => by simp at h)
    (pathsLaw_of_fwd (fresh_starts _ _ _) (freshFuns_fwdMeas _ _ _) _)
    (fun h => by simp at h) hn hF h1 (bs := (b, [c])) rfl 100 key).1

theorem fresh_near_final {h : ℝ → ℝ} (hh : Measurable h) {η : ℝ} (hη : 0 ≤ η) (hb : ∀ u, |h u| ≤ η) (n : ℕ) (y0 : ℝ) :
    ∃ Λ : Measure (Fin (1 + 1) → ℝ), Near (n := n) (ef := true) 1 (freshFuns (fun _ u => h u) (rows n true)) false
      (gaussianReal 0 1) y0 (0, [1]) (refLaw (freshS (fun _ u => h u) fun _ => hh) (gaussianReal 0 1) (0, [1]) Λ)
      (ENNReal.ofReal (1 - Real.exp (-((((1 : ℕ) : ℝ) + 1) * η)))) (ENNReal.ofReal (Real.exp ((((1 : ℕ) : ℝ) + 1) * η) - 1)) := by
  have hm1 : Measurable fun v : ℝ => ![v, y0] := measurable_exObs y0
  refine ⟨(gaussianReal 0 1).map fun v : ℝ => ![v, y0],
    C91_near_likelihood_final (S := freshS (fun _ _ => 0) fun _ => measurable_const)
    (S' := freshS (fun _ u => h u) fun _ => hh) (fun _ _ => rfl) hη (fun v v' t u => ?_) (fun key x => ?_) fun key φ hφ => ?_⟩
  · show |h u - 0| ≤ η
    simpa using hb u
  · simp [gibbsPaths, freshFuns, Rand.E_bind, Rand.E_sample, Rand.pure_eq, Rand.E_ret]
  · unfold MeasPaths at hφ
    have h4 : Measurable fun p : (Fin 2 → ℝ) × ℝ × ℝ => ((![p.2.1, p.2.2], p.1) : (Fin 2 → ℝ) × (Fin 2 → ℝ)) := by
      refine (measurable_pi_iff.2 fun i => ?_).prodMk (by fun_prop)
      fin_cases i <;> simp <;> fun_prop
    have h5 : Measurable fun p : (Fin 2 → ℝ) × ℝ × ℝ => φ (p.2.1, [p.2.2]) (arr p.1) := hφ.comp h4
    have h7 : Measurable fun p : ((Fin 2 → ℝ) × ℝ) × ℝ => φ (p.1.2, [p.2]) (arr p.1.1) :=
      h5.comp ((measurable_fst.comp measurable_fst).prodMk ((measurable_snd.comp measurable_fst).prodMk measurable_snd))
    have h8 : Measurable fun p : (Fin 2 → ℝ) × ℝ => ∫⁻ x, φ (p.2, [x]) (arr p.1) ∂(gaussianReal 0 1) :=
      h7.lintegral_prod_right'
    have hstep : ∀ (v : Fin 2 → ℝ) u, ENNReal.ofReal (Real.exp ((freshS (fun _ _ => 0) fun _ => measurable_const).logG
        (arr v).1 ((arr v).2.headD (arr v).1) (0 : ℝ) u)) * pathInt ((freshS (fun _ _ => 0) fun _ => measurable_const).steps
        (arr v).1 (arr v).2 (Arr1.toList ((0, [1]) : Arr1 ℝ))) u (fun l => φ (u, l) (arr v))
          = ∫⁻ x, φ (u, [x]) (arr v) ∂(gaussianReal 0 1) := fun v u => by
      show ENNReal.ofReal (Real.exp 0) * (ENNReal.ofReal (Real.exp 0) * ∫⁻ x, φ (u, [x]) (arr v) ∂(gaussianReal 0 1)) = _
      simp
    simp only [refLaw, hstep]
    rw [lintegral_map (f := fun v => ∫⁻ u, ∫⁻ x, φ (u, [x]) (arr v) ∂(gaussianReal 0 1) ∂(gaussianReal 0 1))
      h8.lintegral_prod_right' hm1]
    simp only [gibbsPaths, freshFuns, Rand.E_bind, Rand.E_map, Rand.E_sample, Rand.pure_eq, Rand.E_ret, Bool.false_eq_true,
      if_false]
    have h9 : Measurable fun p : ℝ × ℝ × ℝ => φ (p.2.1, [p.1]) (p.2.2, [y0]) := by
      have := h5.comp ((hm1.comp (measurable_snd.comp measurable_snd)).prodMk
        ((measurable_fst.comp measurable_snd).prodMk (measurable_fst (α := ℝ) (β := ℝ × ℝ))))
      exact this
    show ∫⁻ x, ∫⁻ p : ℝ × ℝ, φ (p.1, [x]) (p.2, [y0]) ∂((gaussianReal 0 1).prod (gaussianReal 0 1)) ∂(gaussianReal 0 1) =
      ∫⁻ v, ∫⁻ u, ∫⁻ x, φ (u, [x]) (v, [y0]) ∂(gaussianReal 0 1) ∂(gaussianReal 0 1) ∂(gaussianReal 0 1)
    rw [lintegral_lintegral_swap (f := fun x (p : ℝ × ℝ) => φ (p.1, [x]) (p.2, [y0])) h9.aemeasurable]
    have h10 : Measurable fun y : ℝ × ℝ => ∫⁻ x, φ (y.1, [x]) (y.2, [y0]) ∂(gaussianReal 0 1) :=
      (h9.comp measurable_swap).lintegral_prod_right'
    exact lintegral_prod_symm' _ h10

/-- Three particles, `explicit_final=True`: every invariant law. -/
example (key : Key) (b c : Fin (rows 3 true)) {F : ℝ → ℝ≥0∞} (hF : Measurable F) (h1 : ∀ x, F x ≤ 1) (μ : Measure ℝ)
    [IsProbabilityMeasure μ] (hμ : ∀ k, ∫⁻ x, (gibbsLoop true (freshFuns (fun _ u => Real.sin u / 10) (rows 3 true)) false false 2
      (0, [1]) k key x (b, [c])).E (fun out => F out.1) ∂μ = ∫⁻ x, F x ∂μ) :
    ∃ ε : ℝ≥0∞, 0 < ε ∧ ∫⁻ x, F x ∂μ ≤ ∫⁻ u, F u ∂(gaussianReal 0 1) +
      (ENNReal.ofReal (1 - Real.exp (-((((1 : ℕ) : ℝ) + 1) * (1 / 10)))) +
        ENNReal.ofReal (Real.exp ((((1 : ℕ) : ℝ) + 1) * (1 / 10)) - 1)) / ε := by
  have hh : Measurable fun u : ℝ => Real.sin u / 10 := by fun_prop
  have hb : ∀ u : ℝ, |Real.sin u / 10| ≤ 1 / 10 := fun u => by
    rw [abs_div, abs_of_pos (by norm_num : (0 : ℝ) < 10)]
    linarith [Real.abs_sin_le_one u]
  obtain ⟨Λ, hn⟩ := fresh_near_final hh (by norm_num : (0 : ℝ) ≤ 1 / 10) hb 3 2
  have hg : Measurable fun p : ℝ × ℝ => Real.sin p.2 / 10 := by fun_prop
  have hm1 : Measurable fun v : ℝ => (![v, 2] : Fin (1 + 1) → ℝ) := measurable_exObs 2
  have hmin : MinorObs (n := 3) (K := 1) (freshFuns (fun _ u => Real.sin u / 10) (rows 3 true)) false 2 (0, [1])
      ((gaussianReal 0 1).map fun v : ℝ => ![v, 2]) := by
    intro key x H hH
    rw [lintegral_map hH hm1]
    refine le_of_eq ?_
    simp only [gibbsPaths, freshFuns, Rand.E_bind, Rand.E_map, Rand.E_sample, Rand.pure_eq, Rand.E_ret, Bool.false_eq_true,
      if_false]
    have h2 : Measurable fun v : ℝ => H (v, [2]) := hH.comp hm1
    have h3 := (measurePreserving_snd (μ := gaussianReal 0 1) (ν := gaussianReal 0 1)).lintegral_comp h2
    exact h3.symm
  have hne : ((gaussianReal 0 1).map fun v : ℝ => (![v, 2] : Fin (1 + 1) → ℝ)) ≠ 0 := by
    intro h
    have : ((gaussianReal 0 1).map fun v : ℝ => (![v, 2] : Fin (1 + 1) → ℝ)) Set.univ = 1 := by
      rw [Measure.map_apply hm1 MeasurableSet.univ]
      simp
    rw [h] at this
    simp at this
  have hpos := C82_ref_rate_pos (n := 3) (ν := gaussianReal 0 1) (freshS_jointMeas (g := fun _ u => Real.sin u / 10) hg)
    (ts := ((0, [1]) : Arr1 ℝ)) rfl false (1 / 10) hne
  exact ⟨_, hpos, (C91_gibbs_final_stationary (freshS_jointMeas (g := fun _ u => Real.sin u / 10) hg)
    (fun xs v t k F hF => by simp only [freshFuns, freshS, Rand.E_sample, Kernel.const_apply]) (fun _ _ _ _ _ => rfl)
    (fun k r F hF => by simp only [freshFuns, Rand.E_sample])
    (fresh_starts _ _ _) (freshFuns_shape _ _) false rfl (fun h => by simp at h)
    (pathsLaw_of_fwd (fresh_starts _ _ _) (freshFuns_fwdMeas _ _ _) _)
    (fun h => by simp at h) (β := 1 / 10) (fun _ _ _ u => (abs_le.1 (hb u)).2) hmin hpos hn hF h1 (bs := (b, [c])) rfl key hμ).1⟩

end Examples

end Props
end Fbs
