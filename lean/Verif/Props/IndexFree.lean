import Verif.Model.GibbsLoop
import Verif.Props.Gibbs
import Verif.Props.GibbsFinal
import Verif.Lemmas.Relabel

/-!
# C58: the reference indices do not influence the law of the returned states
-/

open MeasureTheory ProbabilityTheory
open scoped ENNReal

namespace Fbs
namespace Spec

/-- Every path the user samplers compute has `K + 1` rows (array shapes are static). -/
structure PathShape {N : ℕ} {U V Z : Type} (m : Gibbs.Funs N U V Z) (K : ℕ) : Prop where
  fwd : ∀ k x y, (m.fwd k x y).Leaves fun p => (m.unpack p).1.2.length = K ∧ (m.unpack p).2.2.length = K
  bridge : ∀ k y y' ts, (m.bridge k y y' ts).Leaves fun p => p.2.length = K

end Spec

namespace Props

open Jax Spec Csmc Gibbs

variable {n N : ℕ} {U V Z : Type} [MeasurableSpace U]

/-! ### The final moves do not look at the numbering -/

omit [MeasurableSpace U] in
theorem keep_sim [NeZero N] {φ : List U → ℝ≥0∞} {a : Fin N} {st st' : St N U} (h : Sim a st st') (b : Fin N) :
    keepΨ (fun us _ => φ us) st' (b + a) = keepΨ (fun us _ => φ us) st b := by
  unfold keepΨ
  rw [h.P]

omit [MeasurableSpace U] in
theorem labelFree_select [NeZero N] (φ : List U → ℝ≥0∞) :
    LabelFree (N := N) (selectΨ fun us _ => φ us) := by
  intro a st st' h b
  unfold selectΨ
  refine (Fintype.sum_equiv (Equiv.addRight a) _ _ fun B => ?_).symm
  have hs : ∑ i, st'.W i = ∑ i, st.W i :=
    (Fintype.sum_equiv (Equiv.addRight a) _ _ fun i => (h.W i).symm).symm
  simp only [Equiv.coe_addRight, h.W, h.P, hs]

theorem moveP_shift [NeZero N] {w w' : Fin N → ℝ} {a : Fin N} (h : ∀ i, w' (i + a) = w i) (k i : Fin N) :
    moveP w' (k + a) (i + a) = moveP w k i := by
  unfold moveP restWeights atSet
  simp only [h]
  congr 1
  split_ifs
  · simp only [Function.update_apply, add_left_inj, h]
  · rfl

omit [MeasurableSpace U] in
theorem labelFree_force [NeZero N] (φ : List U → ℝ≥0∞) :
    LabelFree (N := N) (forceΨ fun us _ => φ us) := by
  intro a st st' h b
  unfold forceΨ
  have h1 : ∑ i, moveP st'.W (b + a) i = ∑ i, moveP st.W b i :=
    (Fintype.sum_equiv (Equiv.addRight a) _ _ fun i => (moveP_shift h.W b i).symm).symm
  rw [h1, keep_sim h]
  congr 1
  refine (Fintype.sum_equiv (Equiv.addRight a) _ _ fun i => ?_).symm
  simp only [Equiv.coe_addRight, moveP_shift h.W, keep_sim h]

/-! ### Conditional SMC -/

/-- The integral over the initial particles is invariant as well. -/
theorem init_relabel [NeZero N] {res : CondResampling N} {C : ExactScheme res} (hC : ShiftInvariant C)
    {Ψ : St N U → Fin N → ℝ≥0∞} (hΨ : LabelFree Ψ) (ss : List (FKStep U)) {l l' : List (U × Fin N)}
    (hl : l'.map Prod.fst = l.map Prod.fst) (ν : Measure U) [IsProbabilityMeasure ν] (g0 : U → ℝ) (u : U)
    (b b' : Fin N) :
    ∫⁻ y, Cf C.cond Ψ ss l' (initSt g0 (Function.update y b' u)) b' ∂(Measure.pi fun _ => ν)
      = ∫⁻ y, Cf C.cond Ψ ss l (initSt g0 (Function.update y b u)) b ∂(Measure.pi fun _ => ν) := by
  rw [lintegral_pi_shift (fun _ => ν) (b' - b)]
  refine lintegral_congr fun y => ?_
  have hb : b' = b + (b' - b) := by abel
  conv_lhs => rw [show ∀ st, Cf C.cond Ψ ss l' st b' = Cf C.cond Ψ ss l' st (b + (b' - b)) by rw [← hb]; simp]
  have hy : ∀ i, Function.update (fun i => y (i - (b' - b))) b' u (i + (b' - b)) = Function.update y b u i := by
    intro i
    by_cases hi : i = b
    · subst hi; rw [← hb]; simp
    · rw [Function.update_of_ne hi, Function.update_of_ne, add_sub_cancel_right]
      intro h
      apply hi
      exact add_right_cancel (h.trans hb)
  refine Cf_relabel hC hΨ ss l l' hl (b' - b) _ _ ⟨hy, fun i => ?_, fun i => ?_⟩ (normalise_weights _)
    (fun i => normalise_pos _ i) b
  · show normalise _ _ = normalise _ _
    rw [normalise_eq, normalise_eq, hy]
    congr 1
    refine (Fintype.sum_equiv (Equiv.addRight (b' - b)) _ _ fun k => ?_).symm
    rw [Equiv.coe_addRight, hy]
  · simp [initSt, hy]

/-- **C58, conditional SMC.** With killing or multinomial resampling and particles drawn independently, the law of
the trajectory returned by `csmc_kernel(backward=False)` is the same for all numberings of the reference trajectory. -/
theorem C58_csmc_index_free [NeZero N] {m : Csmc.Funs N U V} {S : StateSpace U V} (hm : Implements m S)
    {res : CondResampling N} (hres : res = CsmcResampling.killing ∨ res = CsmcResampling.multinomial)
    (k : ℕ) (key : Key) (us : Arr1 U) (bs bs' : Arr1 (Fin N)) (vs : Arr1 V) (ts : Arr1 ℝ)
    (hl : us.2.length = vs.2.length) (hb : bs.2.length = vs.2.length) (hb' : bs'.2.length = vs.2.length)
    (ht : ts.2.length = vs.2.length) {φ : List U → ℝ≥0∞} (hφ : MeasList (1 + vs.2.length) φ) :
    (Csmc.kernel m res k false key us bs' vs ts).E (fun out => φ out.1)
      = (Csmc.kernel m res k false key us bs vs ts).E (fun out => φ out.1) := by
  obtain ⟨C, hC⟩ : ∃ C : ExactScheme res, ShiftInvariant C := by
    rcases hres with rfl | rfl
    · exact ⟨killingScheme, killing_shiftInvariant⟩
    · exact ⟨multinomialScheme, multinomial_shiftInvariant⟩
  have hout : MeasOut (N := N) (1 + vs.2.length) (fun us _ => φ us) := by
    unfold MeasOut
    unfold MeasList at hφ
    exact hφ.comp (measurable_pi_iff.2 fun j => measurable_fst.comp (measurable_pi_apply j))
  have key' : ∀ cs : Arr1 (Fin N), cs.2.length = vs.2.length →
      (Csmc.kernel m res k false key us cs vs ts).E (fun out => φ out.1)
        = ∫⁻ y, Cf C.cond (selectΨ fun us _ => φ us) (S.steps vs.1 vs.2 ts.toList) (us.2.zip cs.2)
          (initSt (S.logG0 vs.1 (vs.2.headD vs.1)) (Function.update y cs.1 us.1)) cs.1
          ∂(Measure.pi fun _ => S.init) := by
    intro cs hcs
    obtain ⟨u, l⟩ := us
    obtain ⟨c, cl⟩ := cs
    simp only at hl hcs
    have hz : (l.zip cl).length = vs.2.length := by simp [hl, hcs]
    have h := E_forwardPass hm C (Ψ := selectΨ fun us _ => φ us) k (split key 2 0) ((u, c), l.zip cl) vs ts
      hz.symm (ht.trans hz.symm) (by rw [hz]; exact measFun_select hout)
    have h1 : Arr1.map Prod.fst (((u, c), l.zip cl) : Arr1 (U × Fin N)) = (u, l) := by
      simp [Arr1.map, List.map_fst_zip, hl, hcs]
    have h2 : Arr1.map Prod.snd (((u, c), l.zip cl) : Arr1 (U × Fin N)) = (c, cl) := by
      simp [Arr1.map, List.map_snd_zip, hl, hcs]
    rw [h1, h2] at h
    rw [E_kernel_scanning m res k key (u, l) (c, cl) vs ts _ (fun us _ => φ us), h]
  rw [key' bs hb, key' bs' hb']
  refine init_relabel hC (labelFree_select φ) _ ?_ _ _ _ _ _
  rw [List.map_fst_zip (by omega), List.map_fst_zip (by omega)]

/-! ### The Gibbs kernel -/

/-- What the kernel does after the forward pass, as a functional of the particle system. -/
noncomputable def moveΨ (eb : Bool) (F : U → ℝ≥0∞) : St N U → Fin N → ℝ≥0∞ :=
  if eb then forceΨ (lastF fun x _ => F x) else selectΨ (lastF fun x _ => F x)

omit [MeasurableSpace U] in
theorem labelFree_move [NeZero N] (eb : Bool) (F : U → ℝ≥0∞) : LabelFree (N := N) (moveΨ eb F) := by
  unfold moveΨ
  cases eb
  · exact labelFree_select fun us => us.getLast?.elim 0 F
  · exact labelFree_force fun us => us.getLast?.elim 0 F

theorem measFun_move {k : ℕ} (eb : Bool) {F : U → ℝ≥0∞} (hF : Measurable F) :
    MeasFun (N := N) k (moveΨ eb F) := by
  unfold moveΨ
  cases eb
  · exact measFun_select (measOut_lastF (fun _ => hF) _)
  · exact measFun_force (measOut_lastF (fun _ => hF) _)

omit [MeasurableSpace U] in
theorem leaves_gibbsPaths {ef : Bool} {m : Gibbs.Funs (rows n ef) U V Z} (margY : Bool) (key : Key) (x0 : U)
    (y0 : V) (ts : Arr1 ℝ) {K : ℕ} (hm : PathShape m K) :
    (gibbsPaths m margY key x0 y0 ts).Leaves fun p => p.1.2.length = K ∧ p.2.2.length = K := by
  unfold gibbsPaths
  refine (hm.fwd _ _ _).bind fun p hp => ?_
  cases margY
  · simp only [Bool.false_eq_true, if_false, Rand.pure_eq, Rand.Leaves, arr1_reverse_len]
    exact hp
  · simp only [if_true]
    refine (hm.bridge _ _ _ _).bind fun b hb => ?_
    simp only [Rand.pure_eq, Rand.Leaves, arr1_reverse_len]
    exact ⟨hp.1, hb⟩

/-- The key of the forward pass. -/
def passKey (eb : Bool) (key : Key) : Key :=
  if eb then split (split key 3 1) 4 0 else split (split key 3 1) 2 0

/-- The law of the returned `x0` in terms of the forward pass. -/
theorem E_gibbs_x0 [NeZero n] {ef : Bool} {m : Gibbs.Funs (rows n ef) U V Z} {y0 : V}
    (hst : ∀ key x (F : U → ℝ≥0∞), Measurable F → (m.fwd key x y0).E (fun p => F (m.unpack p).1.1) = F x)
    (margY eb : Bool) (key : Key) (x0 : U) (bs : Arr1 (Fin (rows n ef))) (ts : Arr1 ℝ)
    {F : U → ℝ≥0∞} (hF : Measurable F) :
    (gibbsKernel ef m margY eb key x0 y0 bs ts).E (fun out => F out.1)
      = (gibbsPaths m margY key x0 y0 ts).E fun q =>
          (forwardPass (csmcFuns ef m q.1.1 ts.1) CsmcResampling.killing n (passKey eb key) q.1 bs q.2
            ts).E
            fun out => moveΨ eb F (finalSt out) bs.last := by
  cases eb
  · simp only [gibbsKernel, passKey, Rand.E_bind, Rand.pure_eq, Rand.E_ret, Bool.false_eq_true, if_false]
    refine Rand.E_congr _ fun q => ?_
    have h := E_kernel_scanning (csmcFuns ef m q.1.1 ts.1) CsmcResampling.killing n (split key 3 1) q.1 bs q.2 ts
      bs.last (lastF fun x _ => F x)
    refine Eq.trans ?_ h
    exact Rand.E_congr_leaves (leaves_kernel _ _ _ _ _ _ _ _) fun out ho =>
      lastF_getLastD (F := fun x _ => F x) ho x0 out.2
  · simp only [gibbsKernel, passKey, Rand.E_bind, Rand.pure_eq, Rand.E_ret, if_true]
    refine Rand.E_congr _ fun q => Rand.E_congr_leaves (leaves_forwardPass _ _ _ _ _ _ _ _) ?_
    rintro out ⟨hW, hlen⟩
    generalize q.1.2.length = L
    have hin : ∀ (x' : U) (k1 k2 : Key), (m.fwd k1 x' y0).E (fun path => (randints k2 (L + 1) n).E
        (fun _ => F (((m.unpack path).1.toList.reverse).getLastD x0))) = F x' := by
      intro x' k1 k2
      rw [← hst k1 x' _ hF]
      refine Rand.E_congr _ fun path => ?_
      have e1 : ((m.unpack path).1.toList.reverse).getLastD x0 = (m.unpack path).1.1 := by
        simp [Arr1.toList]
      rw [e1]
      have := E_randints (N := n) k2 (L + 1) (fun _ => F (m.unpack path).1.1)
      rw [this, avgIdx_const]
    simp only [hin]
    have hlast : ∀ i, F (out.2.2.last i) = keepΨ (lastF fun x _ => F x) (finalSt out) i := by
      intro i
      have h1 := trace_getLast out.2.2.1 (out.1.zip out.2.2.2) i
      rw [List.map_snd_zip hlen.ge] at h1
      show _ = lastF (fun x _ => F x) ((trace out.2.2.1 (out.1.zip out.2.2.2) i).map Prod.fst) _
      unfold lastF
      rw [List.getLast?_map, h1]
      rfl
    rw [E_forceMove hW _ _ (fun i => F (out.2.2.last i))]
    simp only [hlast]
    rfl

/-- **C58, the Gibbs kernel with `explicit_final=False`.** The law of the returned `x0` does not depend on the
reference indices handed in. -/
theorem C58_gibbs_index_free [NeZero n] {m : Gibbs.Funs (rows n false) U V Z} {S : StateSpace U V} {y0 : V} {K : ℕ}
    (htr : ∀ xs v t k (F : (Fin (rows n false) → U) → ℝ≥0∞), Measurable F →
      (m.transSampler xs v t k).E F = ∫⁻ x, F x ∂(Measure.pi fun i => S.trans v t (xs i)))
    (hlik : ∀ v xs v' t i, m.lik v xs v' t i = S.logG v v' t (xs i))
    (hst : ∀ key x (F : U → ℝ≥0∞), Measurable F → (m.fwd key x y0).E (fun p => F (m.unpack p).1.1) = F x)
    (hsh : PathShape m K) (margY eb : Bool) (key : Key) (x0 : U) {bs bs' : Arr1 (Fin (rows n false))}
    (hb : bs.2.length = K) (hb' : bs'.2.length = K) {ts : Arr1 ℝ} (hts : ts.2.length = K)
    {F : U → ℝ≥0∞} (hF : Measurable F) :
    (gibbsKernel false m margY eb key x0 y0 bs' ts).E (fun out => F out.1)
      = (gibbsKernel false m margY eb key x0 y0 bs ts).E (fun out => F out.1) := by
  rw [E_gibbs_x0 hst margY eb key x0 bs ts hF, E_gibbs_x0 hst margY eb key x0 bs' ts hF]
  refine Rand.E_congr_leaves (leaves_gibbsPaths margY key x0 y0 ts hsh) fun q hq => ?_
  obtain ⟨hu, hv⟩ := hq
  rw [E_forwardPass_pinned htr hlik _ ts.1 q.1 bs q.2 ts (hu.trans hv.symm) (hb.trans hv.symm) (hts.trans hv.symm)
      (measFun_move eb hF),
    E_forwardPass_pinned htr hlik _ ts.1 q.1 bs' q.2 ts (hu.trans hv.symm) (hb'.trans hv.symm)
      (hts.trans hv.symm) (measFun_move eb hF)]
  have e : bs'.1 = bs.1 + (bs'.1 - bs.1) := by abel
  rw [e]
  refine Cf_relabel killing_shiftInvariant (labelFree_move eb F) _ _ _ ?_ _ _ _ ⟨fun _ => rfl, fun i => ?_, fun _ => rfl⟩
    (normalise_weights _) (fun i => normalise_pos _ i) _
  · rw [List.map_fst_zip (by omega), List.map_fst_zip (by omega)]
  · rw [startSt_W, startSt_W]

/-- **C58, the Gibbs kernel with `explicit_final=True`.** -/
theorem C58_gibbs_final_index_free [NeZero n] {m : Gibbs.Funs (rows n true) U V Z} {S : StateSpace U V}
    {ν : Measure U} [IsProbabilityMeasure ν] {y0 : V} {K : ℕ}
    (htr : ∀ xs v t k (F : (Fin (rows n true) → U) → ℝ≥0∞), Measurable F →
      (m.transSampler xs v t k).E F = ∫⁻ x, F x ∂(Measure.pi fun i => S.trans v t (xs i)))
    (hlik : ∀ v xs v' t i, m.lik v xs v' t i = S.logG v v' t (xs i))
    (hn : ∀ k r (F : (Fin (rows n true) → U) → ℝ≥0∞), Measurable F →
      (m.normal k r).E F = ∫⁻ x, F x ∂(Measure.pi fun _ => ν))
    (hst : ∀ key x (F : U → ℝ≥0∞), Measurable F → (m.fwd key x y0).E (fun p => F (m.unpack p).1.1) = F x)
    (hsh : PathShape m K) (margY eb : Bool) (key : Key) (x0 : U) {bs bs' : Arr1 (Fin (rows n true))}
    (hb : bs.2.length = K) (hb' : bs'.2.length = K) {ts : Arr1 ℝ} (hts : ts.2.length = K)
    {F : U → ℝ≥0∞} (hF : Measurable F) :
    (gibbsKernel true m margY eb key x0 y0 bs' ts).E (fun out => F out.1)
      = (gibbsKernel true m margY eb key x0 y0 bs ts).E (fun out => F out.1) := by
  rw [E_gibbs_x0 hst margY eb key x0 bs ts hF, E_gibbs_x0 hst margY eb key x0 bs' ts hF]
  refine Rand.E_congr_leaves (leaves_gibbsPaths margY key x0 y0 ts hsh) fun q hq => ?_
  obtain ⟨hu, hv⟩ := hq
  rw [E_forwardPass_ref htr hlik hn _ ts.1 q.1 bs q.2 ts (hu.trans hv.symm) (hb.trans hv.symm) (hts.trans hv.symm)
      (measFun_move eb hF),
    E_forwardPass_ref htr hlik hn _ ts.1 q.1 bs' q.2 ts (hu.trans hv.symm) (hb'.trans hv.symm)
      (hts.trans hv.symm) (measFun_move eb hF)]
  refine init_relabel killing_shiftInvariant (labelFree_move eb F) _ ?_ _ _ _ _ _
  rw [List.map_fst_zip (by omega), List.map_fst_zip (by omega)]

/-! ### Invariance for every fixed choice of the indices -/

variable [MeasurableSpace V]

omit [MeasurableSpace U] [MeasurableSpace V] in
theorem move_eq_keep [NeZero N] {Q : (Fin N → ℝ) → Prop} {eb : Bool} (hQ : eb = true → ∀ w, Q w → Regular w)
    (F : U → ℝ≥0∞) (st : St N U) (hW : Weights st.W) (hr : Q st.W) :
    ∑ b, ENNReal.ofReal (st.W b) * moveΨ eb F st b
      = ∑ b, ENNReal.ofReal (st.W b) * keepΨ (lastF fun x _ => F x) st b := by
  unfold moveΨ
  cases eb
  · exact select_eq_keep _ st hW
  · exact force_eq_keep _ st hW (hQ rfl _ hr)

/-- **C58 with C14.** If the functions handed to the Gibbs sampler are exact for `π0`, every call of the kernel with
`explicit_final=False` leaves `π0` invariant, whatever the reference indices are. -/
theorem C58_invariant_any_indices {K : ℕ} [NeZero n] {m : Gibbs.Funs (rows n false) U V Z} {S : StateSpace U V}
    (hS : S.JointMeas) {π0 : Measure U} {y0 : V} {ts : Arr1 ℝ} (hm : BackwardExact m S π0 y0 ts K)
    (hsh : PathShape m K) (hts : ts.2.length = K) (eb : Bool)
    (hreg : eb = true → ∀ v v' t (x : Fin (rows n false) → U), Regular (normalise fun i => S.logG v v' t (x i)))
    (key : Key) {bs : Arr1 (Fin (rows n false))} (hb : bs.2.length = K) {F : U → ℝ≥0∞} (hF : Measurable F) :
    ∫⁻ x, (gibbsKernel false m false eb key x y0 bs ts).E (fun out => F out.1) ∂π0 = ∫⁻ x, F x ∂π0 := by
  have h : avgBs (rows n false) K (fun bs => ∫⁻ x, (gibbsKernel false m false eb key x y0 bs ts).E
      (fun out => F out.1) ∂π0) = avgBs (rows n false) K (fun _ => ∫⁻ x, F x ∂π0) := by
    cases eb
    · exact C14_gibbs_invariant hS hm hts key (F := fun x _ => F x) fun _ => hF
    · exact C14_gibbs_explicit_backward hS hm hts (hreg rfl) key (F := fun x _ => F x) fun _ => hF
  rw [avgBs_const] at h
  rw [← h, ← avgBs_const (N := rows n false) K (∫⁻ x, _ ∂π0)]
  refine avgBs_congr fun bs' hb' => lintegral_congr fun x => ?_
  exact C58_gibbs_index_free hm.trans hm.lik hm.starts hsh false eb key x hb' hb hts hF

/-- **C15, `explicit_backward=True`.** The analogue of `C15_explicit_final_partial` for the forced move, again with
the terminal law tilted by the initial weight of the code. -/
theorem C15_explicit_backward_partial {K : ℕ} [NeZero n] {m : Gibbs.Funs (rows n true) U V Z} {S : StateSpace U V}
    (hS : S.JointMeas) {ν : Measure U} [IsProbabilityMeasure ν] {π0 : Measure U} {y0 : V} {ts : Arr1 ℝ}
    (hm : ReferenceExact m S ν π0 y0 ts K fun v u => S.logG (arr v).1 ((arr v).2.headD (arr v).1) ts.1 u)
    (hts : ts.2.length = K) (eb : Bool)
    (hreg : eb = true → ∀ v v' t (x : Fin (rows n true) → U), Regular (normalise fun i => S.logG v v' t (x i)))
    (key : Key) {F : U → ℝ≥0∞} (hF : Measurable F) :
    avgBs (rows n true) K (fun bs => ∫⁻ x, (gibbsKernel true m false eb key x y0 bs ts).E
        (fun out => F out.1) ∂π0) = ∫⁻ x, F x ∂π0 := by
  have h := ref_core hS hm hts (split key 3 0) (Ψ := moveΨ eb F) (measFun_move eb hF)
    (Q := fun w => eb = true → Regular w) (fun v v' t x he => hreg he v v' t x)
    (F := fun x _ => F x) (fun _ => hF) (fun st hW hQ => move_eq_keep
      (Q := fun w => eb = true → Regular w) (fun he w hw => hw he) F st hW hQ)
    (R := fun us vs bs => (forwardPass (csmcFuns true m us.1 ts.1) CsmcResampling.killing n
      (passKey eb key) us bs vs ts).E fun out => moveΨ eb F (finalSt out) bs.last) ?_
  · rw [avgBs_const] at h
    rw [← h]
    refine avgBs_congr fun bs hbs => lintegral_congr fun x => ?_
    rw [E_gibbs_x0 hm.starts false eb key x bs ts hF]
    simp only [gibbsPaths, Rand.E_bind, Rand.pure_eq, Rand.E_ret, Bool.false_eq_true, if_false]
  · intro us vs bs h1 h2 h3
    exact E_forwardPass_ref hm.trans hm.lik hm.normal _ _ us bs vs ts (h1.trans h2.symm) (h3.trans h2.symm)
      (hts.trans h2.symm) (measFun_move eb hF)

/-- **C58 with C15.** The same with `explicit_final=True`, for the terminal law of `C15_explicit_final_partial`. -/
theorem C58_final_invariant_any_indices {K : ℕ} [NeZero n] {m : Gibbs.Funs (rows n true) U V Z} {S : StateSpace U V}
    (hS : S.JointMeas) {ν : Measure U} [IsProbabilityMeasure ν] {π0 : Measure U} {y0 : V} {ts : Arr1 ℝ}
    (hm : ReferenceExact m S ν π0 y0 ts K fun v u => S.logG (arr v).1 ((arr v).2.headD (arr v).1) ts.1 u)
    (hsh : PathShape m K) (hts : ts.2.length = K) (eb : Bool)
    (hreg : eb = true → ∀ v v' t (x : Fin (rows n true) → U), Regular (normalise fun i => S.logG v v' t (x i)))
    (key : Key) {bs : Arr1 (Fin (rows n true))} (hb : bs.2.length = K) {F : U → ℝ≥0∞} (hF : Measurable F) :
    ∫⁻ x, (gibbsKernel true m false eb key x y0 bs ts).E (fun out => F out.1) ∂π0 = ∫⁻ x, F x ∂π0 := by
  rw [← C15_explicit_backward_partial hS hm hts eb hreg key hF,
    ← avgBs_const (N := rows n true) K (∫⁻ x, Rand.E _ _ ∂π0)]
  refine avgBs_congr fun bs' hb' => lintegral_congr fun x => ?_
  exact C58_gibbs_final_index_free hm.trans hm.lik hm.normal hm.starts hsh false eb key x hb' hb hts hF

/-! ### The Gibbs loop -/

theorem measPaths_pinned [NeZero N] {K : ℕ} {S : StateSpace U V} (hS : S.JointMeas)
    {Ψ : St N U → Fin N → ℝ≥0∞} (hΨ : MeasFun (1 + K) Ψ) (c : ℝ) {ts : Arr1 ℝ} (hts : ts.2.length = K)
    {bs : Arr1 (Fin N)} (hb : bs.2.length = K) :
    MeasPaths K fun us vs => Cf killingScheme.cond Ψ (S.steps vs.1 vs.2 ts.toList) (us.2.zip bs.2)
      (startSt N c us.1) bs.1 := by
  have htl : K ≤ ts.toList.length := by simp [Arr1.toList, hts]
  unfold MeasPaths
  have e : ∀ q : (Fin (K + 1) → U) × (Fin (K + 1) → V),
      Cf killingScheme.cond Ψ (S.steps (arr q.2).1 (arr q.2).2 ts.toList) ((arr q.1).2.zip bs.2)
        (startSt N c (arr q.1).1) bs.1
      = Cf killingScheme.cond Ψ (seqSteps S (ext q.2) K ts.toList)
        ((List.range K).map fun j => (ext q.1 (j + 1), bs.2.getD j bs.1)) (startSt N c (ext q.1 0)) bs.1 := by
    intro q
    simp only [arr_eq q.1, arr_eq q.2, zip_range _ bs.2 hb bs.1]
    rfl
  simp only [e]
  refine measurable_Cf_obs killingScheme.meas S hS K ts.toList htl 1 hΨ _ _
    (measSt_start _ ((measurable_pi_apply 0).comp (measurable_ext.comp measurable_fst))) _ ?_
    (fun q => ext q.2) (measurable_ext.comp measurable_snd) bs.1
  exact measurable_pi_iff.2 fun j => ((measurable_pi_apply (j + 1)).comp
    (measurable_ext.comp measurable_fst)).prodMk measurable_const

theorem measPaths_ref [NeZero N] {K : ℕ} {S : StateSpace U V} (hS : S.JointMeas)
    {Ψ : St N U → Fin N → ℝ≥0∞} (hΨ : MeasFun (1 + K) Ψ) (ν : Measure U) [IsProbabilityMeasure ν] {ts : Arr1 ℝ}
    (hts : ts.2.length = K) {bs : Arr1 (Fin N)} (hb : bs.2.length = K) :
    MeasPaths K fun us vs => ∫⁻ y, Cf killingScheme.cond Ψ (S.steps vs.1 vs.2 ts.toList) (us.2.zip bs.2)
        (initSt (S.logG vs.1 (vs.2.headD vs.1) ts.1) (Function.update y bs.1 us.1)) bs.1
          ∂(Measure.pi fun _ => ν) := by
  have htl : K ≤ ts.toList.length := by simp [Arr1.toList, hts]
  unfold MeasPaths
  have e : ∀ (q : (Fin (K + 1) → U) × (Fin (K + 1) → V)) y,
      Cf killingScheme.cond Ψ (S.steps (arr q.2).1 (arr q.2).2 ts.toList) ((arr q.1).2.zip bs.2)
        (initSt (S.logG (arr q.2).1 ((arr q.2).2.headD (arr q.2).1) ts.1)
          (Function.update y bs.1 (arr q.1).1)) bs.1
      = Cf killingScheme.cond Ψ (seqSteps S (ext q.2) K ts.toList)
        ((List.range K).map fun j => (ext q.1 (j + 1), bs.2.getD j bs.1))
        (initSt (S.logG (arr q.2).1 ((arr q.2).2.headD (arr q.2).1) ts.1)
          (Function.update y bs.1 (ext q.1 0))) bs.1 := by
    intro q y
    simp only [arr_eq q.1, arr_eq q.2, zip_range _ bs.2 hb bs.1]
    rfl
  simp only [e]
  have hg0 : ∀ (Y : Type) [MeasurableSpace Y] (v : Y → Fin (K + 1) → V) (_ : Measurable v) (x : Y → U)
      (_ : Measurable x), Measurable fun y => S.logG (arr (v y)).1 ((arr (v y)).2.headD (arr (v y)).1) ts.1 (x y) := by
    intro Y _ v hv x hx
    have h1 : Measurable fun y => (arr (v y)).1 := (measurable_pi_apply 0).comp hv
    have h2 : Measurable fun y => (arr (v y)).2.headD (arr (v y)).1 := by
      cases K with
      | zero => simpa [arr] using h1
      | succ K =>
        have h3 : Measurable fun y => v y 1 := (measurable_pi_apply 1).comp hv
        simpa [arr] using h3
    exact (hS.2 ts.1).comp (h1.prodMk (h2.prodMk hx))
  refine Measurable.lintegral_prod_right' (f := fun z : ((Fin (K + 1) → U) × (Fin (K + 1) → V)) × (Fin N → U) =>
    Cf killingScheme.cond Ψ (seqSteps S (ext z.1.2) K ts.toList)
      ((List.range K).map fun j => (ext z.1.1 (j + 1), bs.2.getD j bs.1))
      (initSt (S.logG (arr z.1.2).1 ((arr z.1.2).2.headD (arr z.1.2).1) ts.1)
        (Function.update z.2 bs.1 (ext z.1.1 0))) bs.1) ?_
  have hu : Measurable fun z : ((Fin (K + 1) → U) × (Fin (K + 1) → V)) × (Fin N → U) => ext z.1.1 :=
    measurable_ext.comp (measurable_fst.comp measurable_fst)
  have hu0 : Measurable fun z : ((Fin (K + 1) → U) × (Fin (K + 1) → V)) × (Fin N → U) => ext z.1.1 0 :=
    measurable_pi_iff.1 hu 0
  refine measurable_Cf_obs killingScheme.meas S hS K ts.toList htl 1 hΨ
    (((Fin (K + 1) → U) × (Fin (K + 1) → V)) × (Fin N → U)) _ ?_
    (fun z j => (ext z.1.1 (j + 1), bs.2.getD j bs.1))
    (measurable_pi_iff.2 fun j => ((measurable_pi_apply (j + 1)).comp hu).prodMk measurable_const)
    (fun z => ext z.1.2) (measurable_ext.comp (measurable_snd.comp measurable_fst)) bs.1
  exact measSt_init_param (fun x hx => hg0 _ _ (measurable_snd.comp measurable_fst) x hx)
    (measurable_update_pi measurable_snd hu0)

omit [MeasurableSpace U] [MeasurableSpace V] in
theorem leaves_scan_length {σ ι ο : Type} {body : σ → ι → Rand (σ × ο)} :
    ∀ (is : List ι) (s : σ), (Rand.scan body s is).Leaves fun r => r.2.length = is.length
  | [], s => by simp [Rand.scan, Rand.Leaves]
  | i :: is, s => by
    refine (Rand.leaves_true _).bind fun r _ => (leaves_scan_length is r.1).bind fun rs hrs => ?_
    simp [Rand.Leaves, hrs]

omit [MeasurableSpace U] [MeasurableSpace V] in
theorem det_scan_length {σ ι ο : Type} (f : σ → ι → σ × ο) : ∀ (is : List ι) (s : σ), (scan f s is).2.length = is.length
  | [], _ => rfl
  | i :: is, s => by simp [scan, det_scan_length f is]

omit [MeasurableSpace U] [MeasurableSpace V] in
theorem leaves_gibbs_length [NeZero n] {ef : Bool} {m : Gibbs.Funs (rows n ef) U V Z} {K : ℕ} (hm : PathShape m K)
    (margY eb : Bool) (key : Key) (x0 : U) (y0 : V) {bs : Arr1 (Fin (rows n ef))} (hb : bs.2.length = K)
    {ts : Arr1 ℝ} (ht : ts.2.length = K) :
    (gibbsKernel ef m margY eb key x0 y0 bs ts).Leaves fun out => out.2.2.1.length = K + 1 := by
  unfold gibbsKernel
  refine (leaves_gibbsPaths margY key x0 y0 ts hm).bind fun q hq => ?_
  obtain ⟨hu, hv⟩ := hq
  cases eb
  · simp only [Bool.false_eq_true, if_false]
    have hk : (Csmc.kernel (csmcFuns ef m q.1.1 ts.1) CsmcResampling.killing n false (split key 3 1) q.1 bs q.2
        ts).Leaves fun out => out.2.length = K + 1 := by
      unfold Csmc.kernel
      have hf : (forwardPass (csmcFuns ef m q.1.1 ts.1) CsmcResampling.killing n (split (split key 3 1) 2 0) q.1 bs
          q.2 ts).Leaves fun out => out.1.length = K ∧ out.2.2.2.length = K := by
        unfold forwardPass
        refine (Rand.leaves_true _).bind fun u0 _ => (leaves_scan_length _ _).bind fun r hr => ?_
        have hl : (scanInputs q.1 bs q.2 ts (splitAll (split (split (split key 3 1) 2 0) 2 1) q.1.2.length)).length
            = K := by
          simp [scanInputs, hu, hv, hb, ht, splitAll, Arr1.init]
        simp [Rand.Leaves, hr, hl]
      refine hf.bind fun out ho => ?_
      obtain ⟨h1, h2⟩ := ho
      simp only [Bool.false_eq_true, if_false]
      unfold backwardScanning
      refine (Rand.leaves_true _).bind fun B _ => ?_
      simp [Rand.Leaves, Arr1.insertReverse, det_scan_length, h1, h2, revInit_length]
    refine hk.bind fun out ho => ?_
    simpa [Rand.Leaves] using ho
  · simp only [if_true]
    refine (Rand.leaves_true _).bind fun out _ => (Rand.leaves_true _).bind fun idx _ =>
      (Rand.leaves_true _).bind fun path _ => (Rand.leaves_true _).bind fun b _ => ?_
    simp [Rand.Leaves, hu]

/-- The forward sampler depends measurably on the state it starts from. -/
def FwdMeas (m : Gibbs.Funs N U V Z) (y0 : V) (K : ℕ) : Prop :=
  ∀ key φ, MeasPaths K φ →
    Measurable fun x => (m.fwd key x y0).E fun p => φ (m.unpack p).1.reverse (m.unpack p).2.reverse

omit [MeasurableSpace V] in
/-- One step of the induction over the loop. -/
theorem loop_step {K : ℕ} [NeZero n] {ef : Bool} {m : Gibbs.Funs (rows n ef) U V Z} {π0 : Measure U} {y0 : V}
    {ts : Arr1 ℝ} {eb : Bool} (hsh : PathShape m K) (hts : ts.2.length = K)
    (hfree : ∀ key x (bs bs' : Arr1 (Fin (rows n ef))), bs.2.length = K → bs'.2.length = K → ∀ F : U → ℝ≥0∞,
      Measurable F → (gibbsKernel ef m false eb key x y0 bs' ts).E (fun out => F out.1)
        = (gibbsKernel ef m false eb key x y0 bs ts).E (fun out => F out.1))
    (hmeas : ∀ key (bs : Arr1 (Fin (rows n ef))), bs.2.length = K → ∀ F : U → ℝ≥0∞, Measurable F →
      Measurable fun x => (gibbsKernel ef m false eb key x y0 bs ts).E (fun out => F out.1))
    (hinv : ∀ key (bs : Arr1 (Fin (rows n ef))), bs.2.length = K → ∀ F : U → ℝ≥0∞, Measurable F →
      ∫⁻ x, (gibbsKernel ef m false eb key x y0 bs ts).E (fun out => F out.1) ∂π0 = ∫⁻ x, F x ∂π0)
    {F : U → ℝ≥0∞} (hF : Measurable F) :
    ∀ (i : ℕ) (key : Key), ∃ G : U → ℝ≥0∞, Measurable G ∧ ∫⁻ x, G x ∂π0 = ∫⁻ x, F x ∂π0 ∧
      ∀ (bs : Arr1 (Fin (rows n ef))) (x : U), bs.2.length = K →
        (gibbsLoop ef m false eb y0 ts i key x bs).E (fun out => F out.1) = G x
  | 0, _ => ⟨F, hF, rfl, fun _ _ _ => rfl⟩
  | i + 1, key => by
    obtain ⟨G, hG, hint, hE⟩ := loop_step hsh hts hfree hmeas hinv hF i (split key 2 0)
    let b0 : Arr1 (Fin (rows n ef)) := (0, List.replicate K 0)
    have hb0 : b0.2.length = K := by simp [b0]
    refine ⟨fun x => (gibbsKernel ef m false eb (split key 2 1) x y0 b0 ts).E fun out => G out.1,
      hmeas _ _ hb0 G hG, (hinv _ _ hb0 G hG).trans hint, fun bs x hb => ?_⟩
    simp only [gibbsLoop, Rand.E_bind]
    rw [hfree _ x bs b0 hb hb0 G hG]
    refine Rand.E_congr_leaves (leaves_gibbs_length hsh false eb _ x y0 hb hts) fun out ho => ?_
    refine hE _ _ ?_
    match h : out.2.2.1 with
    | [] => simp [h] at ho
    | b :: l => simpa [h, asIdx] using ho

/-- **C58, the Gibbs loop.** Started from `x0 ~ π0` and from any reference indices (the experiments start from zeros),
the state after any number of iterations has the law `π0`; `explicit_final=False`. -/
theorem C58_gibbs_loop {K : ℕ} [NeZero n] {m : Gibbs.Funs (rows n false) U V Z} {S : StateSpace U V}
    (hS : S.JointMeas) {π0 : Measure U} {y0 : V} {ts : Arr1 ℝ} (hm : BackwardExact m S π0 y0 ts K)
    (hsh : PathShape m K) (hfm : FwdMeas m y0 K) (hts : ts.2.length = K) (eb : Bool)
    (hreg : eb = true → ∀ v v' t (x : Fin (rows n false) → U), Regular (normalise fun i => S.logG v v' t (x i)))
    (nsamples : ℕ) (key : Key) {bs : Arr1 (Fin (rows n false))} (hb : bs.2.length = K) {F : U → ℝ≥0∞}
    (hF : Measurable F) :
    ∫⁻ x, (gibbsLoop false m false eb y0 ts nsamples key x bs).E (fun out => F out.1) ∂π0 = ∫⁻ x, F x ∂π0 := by
  have hmeas : ∀ key (bs : Arr1 (Fin (rows n false))), bs.2.length = K → ∀ F : U → ℝ≥0∞, Measurable F →
      Measurable fun x => (gibbsKernel false m false eb key x y0 bs ts).E (fun out => F out.1) := by
    intro key bs h F hF
    have h1 := hfm (split key 3 0) _ (measPaths_pinned hS (measFun_move (N := rows n false) eb hF) (-Real.log n) hts h)
    convert h1 using 1
    funext x
    rw [E_gibbs_x0 hm.starts false eb key x bs ts hF]
    simp only [gibbsPaths, Rand.E_bind, Rand.pure_eq, Rand.E_ret, Bool.false_eq_true, if_false]
    refine Rand.E_congr_leaves (hsh.fwd _ _ _) fun p hp => ?_
    exact E_forwardPass_pinned hm.trans hm.lik _ _ _ bs _ ts (by simp [arr1_reverse_len, hp])
      (by simp [arr1_reverse_len, hp, h]) (by simp [arr1_reverse_len, hp, hts])
      (measFun_move eb hF)
  obtain ⟨G, -, hint, hE⟩ := loop_step (eb := eb) (π0 := π0) hsh hts
    (fun key x bs bs' h h' F hF => C58_gibbs_index_free hm.trans hm.lik hm.starts hsh false eb key x h h' hts hF)
    hmeas
    (fun key bs h F hF => C58_invariant_any_indices hS hm hsh hts eb hreg key h hF) hF nsamples key
  rw [← hint]
  exact lintegral_congr fun x => hE bs x hb

/-- **C58, the Gibbs loop** with `explicit_final=True`, for the terminal law of `C15_explicit_final_partial`. -/
theorem C58_gibbs_loop_final {K : ℕ} [NeZero n] {m : Gibbs.Funs (rows n true) U V Z} {S : StateSpace U V}
    (hS : S.JointMeas) {ν : Measure U} [IsProbabilityMeasure ν] {π0 : Measure U} {y0 : V} {ts : Arr1 ℝ}
    (hm : ReferenceExact m S ν π0 y0 ts K fun v u => S.logG (arr v).1 ((arr v).2.headD (arr v).1) ts.1 u)
    (hsh : PathShape m K) (hfm : FwdMeas m y0 K) (hts : ts.2.length = K) (eb : Bool)
    (hreg : eb = true → ∀ v v' t (x : Fin (rows n true) → U), Regular (normalise fun i => S.logG v v' t (x i)))
    (nsamples : ℕ) (key : Key) {bs : Arr1 (Fin (rows n true))} (hb : bs.2.length = K) {F : U → ℝ≥0∞}
    (hF : Measurable F) :
    ∫⁻ x, (gibbsLoop true m false eb y0 ts nsamples key x bs).E (fun out => F out.1) ∂π0 = ∫⁻ x, F x ∂π0 := by
  have hmeas : ∀ key (bs : Arr1 (Fin (rows n true))), bs.2.length = K → ∀ F : U → ℝ≥0∞, Measurable F →
      Measurable fun x => (gibbsKernel true m false eb key x y0 bs ts).E (fun out => F out.1) := by
    intro key bs h F hF
    have h1 := hfm (split key 3 0) _ (measPaths_ref hS (measFun_move (N := rows n true) eb hF) ν hts h)
    convert h1 using 1
    funext x
    rw [E_gibbs_x0 hm.starts false eb key x bs ts hF]
    simp only [gibbsPaths, Rand.E_bind, Rand.pure_eq, Rand.E_ret, Bool.false_eq_true, if_false]
    refine Rand.E_congr_leaves (hsh.fwd _ _ _) fun p hp => ?_
    exact E_forwardPass_ref hm.trans hm.lik hm.normal _ _ _ bs _ ts (by simp [arr1_reverse_len, hp])
      (by simp [arr1_reverse_len, hp, h]) (by simp [arr1_reverse_len, hp, hts])
      (measFun_move eb hF)
  obtain ⟨G, -, hint, hE⟩ := loop_step (eb := eb) (π0 := π0) hsh hts
    (fun key x bs bs' h h' F hF =>
      C58_gibbs_final_index_free hm.trans hm.lik hm.normal hm.starts hsh false eb key x h h' hts hF)
    hmeas
    (fun key bs h F hF => C58_final_invariant_any_indices hS hm hsh hts eb hreg key h hF) hF nsamples key
  rw [← hint]
  exact lintegral_congr fun x => hE bs x hb

/-! ### The hypotheses can be met -/

theorem exFuns_shape (g : ℝ → ℝ → ℝ) (N : ℕ) : PathShape (exFuns g N) 1 where
  fwd k _ _ := (Rand.leaves_true (Rand.sample k Set.univ (gaussianReal 0 1))).bind fun _ _ => ⟨rfl, rfl⟩
  bridge _ _ _ _ := rfl

theorem exFuns_fwdMeas (g : ℝ → ℝ → ℝ) (N : ℕ) (y0 : ℝ) : FwdMeas (exFuns g N) y0 1 := by
  intro key φ hφ
  have hL : ∀ x, ((exFuns g N).fwd key x y0).E
      (fun p => φ ((exFuns g N).unpack p).1.reverse ((exFuns g N).unpack p).2.reverse)
        = ∫⁻ y1, φ (x, [x]) (y1, [y0]) ∂(gaussianReal 0 1) := by
    intro x
    simp only [exFuns, Rand.E_map, Rand.E_sample]
    rfl
  simp only [hL]
  unfold MeasPaths at hφ
  have h2 : Measurable fun p : ℝ × ℝ => ((![p.1, p.1], ![p.2, y0]) : (Fin 2 → ℝ) × (Fin 2 → ℝ)) := by
    refine (measurable_pi_iff.2 fun i => ?_).prodMk (measurable_pi_iff.2 fun i => ?_)
    · fin_cases i <;> simp <;> fun_prop
    · fin_cases i <;> simp; fun_prop
  exact (hφ.comp h2).lintegral_prod_right'

section

variable {F : ℝ → ℝ≥0∞} (hF : Measurable F) (key : Key)

include hF

/-- The loop of `gp_gibbs.py` with the forced move, started from zero indices. -/
example (nsamples : ℕ) :
    ∫⁻ x, (gibbsLoop false (exFuns (fun v u => Real.cos (v - u)) (rows 5 false)) false true 2 (0, [1]) nsamples key x
        (0, [0])).E (fun out => F out.1)
          ∂((gaussianReal 0 1).withDensity fun u => ENNReal.ofReal (Real.exp (Real.cos (2 - u))))
      = ∫⁻ x, F x ∂((gaussianReal 0 1).withDensity fun u => ENNReal.ofReal (Real.exp (Real.cos (2 - u)))) :=
  C58_gibbs_loop (K := 1) (exS_jointMeas (g := fun v u => Real.cos (v - u)) (by fun_prop))
    (exFuns_exact (g := fun v u => Real.cos (v - u)) (by fun_prop) _ 2 0 1) (exFuns_shape _ _)
    (exFuns_fwdMeas _ _ _) rfl true (fun _ v v' t x => regular_of_bounded fun i => Real.abs_cos_le_one _) nsamples key
    rfl hF

/-- One call without the forced move: two choices of the indices. -/
example (x : ℝ) :
    (gibbsKernel false (exFuns (fun v u => -(v - u) ^ 2 / 2) (rows 5 false)) false false key x 2 (3, [1]) (0, [1])).E
        (fun out => F out.1)
      = (gibbsKernel false (exFuns (fun v u => -(v - u) ^ 2 / 2) (rows 5 false)) false false key x 2 (0, [0])
        (0, [1])).E (fun out => F out.1) :=
  have h := exFuns_exact (g := fun v u => -(v - u) ^ 2 / 2) (by fun_prop) (rows 5 false) 2 0 1
  C58_gibbs_index_free (K := 1) h.trans h.lik h.starts (exFuns_shape _ _) false false key x rfl rfl rfl hF

/-- `explicit_final=True`: the loop, and one call with two choices of the indices. -/
example (nsamples : ℕ) :
    ∫⁻ x, (gibbsLoop true (exFuns (fun _ u => Real.cos u) (rows 5 true)) false true 2 (0, [1]) nsamples key x
        (0, [0])).E (fun out => F out.1)
          ∂((gaussianReal 0 1).withDensity fun u => ENNReal.ofReal (Real.exp (Real.cos u)) *
            ENNReal.ofReal (Real.exp (Real.cos u)))
      = ∫⁻ x, F x ∂((gaussianReal 0 1).withDensity fun u => ENNReal.ofReal (Real.exp (Real.cos u)) *
            ENNReal.ofReal (Real.exp (Real.cos u))) :=
  C58_gibbs_loop_final (K := 1) (ts := (0, [1])) (exS_jointMeas (g := fun _ u => Real.cos u) (by fun_prop))
    (exFuns_reference (g := fun _ u => Real.cos u) (by fun_prop) (a := fun u => Real.cos u) (by fun_prop) _ 2 0 1)
    (exFuns_shape _ _) (exFuns_fwdMeas _ _ _) rfl true
    (fun _ v v' t x => regular_of_bounded fun i => Real.abs_cos_le_one _) nsamples key rfl hF

example (x : ℝ) :
    (gibbsKernel true (exFuns (fun _ u => Real.cos u) (rows 5 true)) true true key x 2 (5, [1]) (0, [1])).E
        (fun out => F out.1)
      = (gibbsKernel true (exFuns (fun _ u => Real.cos u) (rows 5 true)) true true key x 2 (0, [0]) (0, [1])).E
        (fun out => F out.1) :=
  have h := exFuns_reference (g := fun _ u => Real.cos u) (by fun_prop) (a := fun u => Real.cos u) (by fun_prop)
    (rows 5 true) 2 0 1
  C58_gibbs_final_index_free (K := 1) h.trans h.lik h.normal h.starts (exFuns_shape _ _) true true key x rfl rfl rfl hF

/-- Conditional SMC with multinomial resampling; test function of the whole trajectory. -/
example :
    (Csmc.kernel (csmcFuns false (exFuns (fun v u => -(v - u) ^ 2 / 2) (rows 5 false)) 1 0) CsmcResampling.multinomial
        5 false key (1, [2]) (4, [3]) (0, [1]) (0, [1])).E (fun out => F out.1.sum)
      = (Csmc.kernel (csmcFuns false (exFuns (fun v u => -(v - u) ^ 2 / 2) (rows 5 false)) 1 0)
        CsmcResampling.multinomial 5 false key (1, [2]) (0, [0]) (0, [1]) (0, [1])).E (fun out => F out.1.sum) := by
  have h := exFuns_exact (g := fun v u => -(v - u) ^ 2 / 2) (by fun_prop) (rows 5 false) 2 0 1
  refine C58_csmc_index_free (implements_csmcFuns h.trans h.lik 1 0) (Or.inr rfl) 5 key (1, [2]) (0, [0]) (4, [3]) (0, [1])
    (0, [1]) rfl rfl rfl rfl (φ := fun l => F l.sum) ?_
  unfold MeasList
  refine hF.comp ?_
  simp only [List.sum_ofFn]
  fun_prop

end

end Props
end Fbs
