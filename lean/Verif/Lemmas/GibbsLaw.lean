import Verif.Props.CsmcLaw
import Verif.Props.ForceMove
import Verif.Spec.Gibbs

/-!
# Lemmas for the law of the Gibbs kernel

Joint measurability of the conditional particle system in the observations, averages over uniform
indices, and the forced move as a functional of the particle system.
-/

open MeasureTheory ProbabilityTheory
open scoped ENNReal

namespace Fbs

namespace Rand

variable {α β : Type}

/-- Every leaf of the program satisfies `P`. -/
def Leaves (P : α → Prop) : Rand α → Prop
  | ret a => P a
  | draw _ _ _ _ c => ∀ b, Leaves P (c b)

theorem Leaves.bind {P : β → Prop} {Q : α → Prop} {p : Rand α} {g : α → Rand β} (hp : p.Leaves Q)
    (hg : ∀ a, Q a → (g a).Leaves P) : (p >>= g).Leaves P := by
  induction p with
  | ret a => exact hg a hp
  | draw k β' S μ c ih => exact fun b => ih b (hp b)

theorem leaves_true (p : Rand α) : p.Leaves fun _ => True := by
  induction p with
  | ret a => trivial
  | draw k β' S μ c ih => exact fun b => ih b

theorem E_congr_leaves {P : α → Prop} {p : Rand α} (hp : p.Leaves P) {f g : α → ℝ≥0∞}
    (h : ∀ a, P a → f a = g a) : p.E f = p.E g := by
  induction p with
  | ret a => exact h a hp
  | draw k β' S μ c ih =>
    simp only [E]
    exact lintegral_congr fun b => ih b (hp b)

end Rand

namespace Csmc

open Jax Spec

variable {N : ℕ} {U V Z : Type} [MeasurableSpace U] [MeasurableSpace V] [MeasurableSpace Z]

theorem pi_dirac (u : Fin N → U) : (Measure.pi fun i => Measure.dirac (u i)) = Measure.dirac u := by
  refine Measure.pi_eq fun s hs => ?_
  rw [Measure.dirac_apply' _ (MeasurableSet.univ_pi hs)]
  simp only [Measure.dirac_apply' _ (hs _)]
  by_cases h : ∀ i, u i ∈ s i
  · have h1 : u ∈ Set.univ.pi s := fun i _ => h i
    simp [Set.indicator_of_mem h1, Set.indicator_of_mem (h _)]
  · push Not at h
    obtain ⟨i, hi⟩ := h
    have h1 : u ∉ Set.univ.pi s := fun h => hi (h i (Set.mem_univ i))
    rw [Set.indicator_of_notMem h1]
    exact (Finset.prod_eq_zero (Finset.mem_univ i) (Set.indicator_of_notMem hi _)).symm

/-! ### Joint measurability in the observations -/

/-- Observations given by a sequence. -/
def seqSteps (S : StateSpace U V) (v : ℕ → V) (n : ℕ) (ts : List ℝ) : List (FKStep U) :=
  S.steps (v 0) ((List.range n).map fun j => v (j + 1)) ts

omit [MeasurableSpace V] in
theorem seqSteps_cons (S : StateSpace U V) (v : ℕ → V) (n : ℕ) (t : ℝ) (ts : List ℝ) :
    seqSteps S v (n + 1) (t :: ts)
      = ⟨S.trans (v 0) t, S.markov (v 0) t, S.logG (v 1) (v 0) t, S.measG (v 1) (v 0) t⟩ ::
        seqSteps S (fun j => v (j + 1)) n ts := by
  unfold seqSteps
  rw [range_map_succ]
  rfl

omit [MeasurableSpace V] in
theorem seqSteps_zero (S : StateSpace U V) (v : ℕ → V) (ts : List ℝ) : seqSteps S v 0 ts = [] := by
  unfold seqSteps
  cases ts <;> rfl

/-- The transition kernel with the observation as an argument. -/
noncomputable def jointTrans (S : StateSpace U V) (hS : S.JointMeas) (t : ℝ) : Kernel (V × U) U :=
  ⟨fun p => S.trans p.1 t p.2, hS.1 t⟩

instance (S : StateSpace U V) (hS : S.JointMeas) (t : ℝ) : IsMarkovKernel (jointTrans S hS t) :=
  ⟨fun p => by show IsProbabilityMeasure (S.trans p.1 t p.2); infer_instance⟩

theorem measurable_tail {α : Type} [MeasurableSpace α] {v : Z → ℕ → α} (hv : Measurable v) :
    Measurable fun z => fun j => v z (j + 1) :=
  measurable_pi_iff.2 fun j => (measurable_pi_apply (j + 1)).comp hv

theorem MeasSt.next_param [NeZero N] {k : ℕ} {st : Z → St N U} (h : MeasSt k st) (s : Z → FKStep U)
    (hs : ∀ x : Z → U, Measurable x → Measurable fun z => (s z).g (x z))
    (A : Fin N → Fin N) {y : Z → Fin N → U} (hy : Measurable y) :
    MeasSt (k + 1) (fun z => Csmc.next (s z) (st z) A (y z)) := by
  obtain ⟨p, hp, hP⟩ := h.P
  obtain ⟨q, hq, hH⟩ := h.H
  have hW : Measurable fun z => normalise fun i => (s z).g ((st z).x (A i)) := by
    apply measurable_normalise
    refine measurable_pi_iff.2 fun i => ?_
    exact hs _ ((measurable_pi_apply (A i)).comp h.x)
  refine ⟨hy, hW, ⟨fun z i j => if j = k then (y z i, i) else p z (A i) j, ?_, ?_⟩,
    ⟨fun z j => Nat.casesOn j (y z, normalise fun i => (s z).g ((st z).x (A i))) (q z),
      measurable_seqCons (hy.prodMk hW) hq, fun z => ?_⟩⟩
  · refine measurable_pi_iff.2 fun i => measurable_pi_iff.2 fun j => ?_
    by_cases hj : j = k
    · simp only [hj, if_true]
      exact ((measurable_pi_apply i).comp hy).prodMk measurable_const
    · simp only [hj, if_false]
      exact (measurable_pi_apply j).comp ((measurable_pi_apply (A i)).comp hp)
  · intro z i
    simp only [Csmc.next, hP, List.range_succ, List.map_append, List.map_cons, List.map_nil, if_true]
    congr 1
    refine List.map_congr_left fun j hj => ?_
    rw [if_neg (List.mem_range.1 hj).ne]
  · show _ :: (st z).H = _
    rw [hH, range_map_succ]
    rfl

theorem measurable_logG (S : StateSpace U V) (hS : S.JointMeas) (t : ℝ) {v : Z → ℕ → V} (hv : Measurable v)
    {x : Z → U} (hx : Measurable x) : Measurable fun z => S.logG (v z 1) (v z 0) t (x z) :=
  (hS.2 t).comp (((measurable_pi_apply 1).comp hv).prodMk (((measurable_pi_apply 0).comp hv).prodMk hx))

theorem measurable_Cf_obs [NeZero N] {c : (Fin N → ℝ) → Fin N → Fin N → (Fin N → Fin N) → ℝ≥0∞}
    (hc : ∀ i j A, Measurable fun w => c w i j A) {Ψ : St N U → Fin N → ℝ≥0∞} (S : StateSpace U V)
    (hS : S.JointMeas) : ∀ (n : ℕ) (ts : List ℝ), n ≤ ts.length → ∀ k : ℕ, MeasFun (k + n) Ψ →
    ∀ (Z : Type) [MeasurableSpace Z] (st : Z → St N U), MeasSt k st →
    ∀ q : Z → ℕ → U × Fin N, Measurable q → ∀ v : Z → ℕ → V, Measurable v → ∀ b,
      Measurable fun z => Cf c Ψ (seqSteps S (v z) n ts) ((List.range n).map (q z)) (st z) b := by
  intro n
  induction n with
  | zero =>
    intro ts _ k h Z _ st hst q hq v hv b
    simp only [seqSteps_zero, List.range_zero, List.map_nil, Cf]
    exact h Z st hst b
  | succ n ih =>
    intro ts hts k hΨ Z _ st hst q hq v hv b
    obtain ⟨t, ts, rfl⟩ : ∃ t ts', ts = t :: ts' := by
      cases ts with
      | nil => simp at hts
      | cons t ts => exact ⟨t, ts, rfl⟩
    have ih' := ih ts (by simpa using hts) (k + 1) (by rw [show k + 1 + n = k + (n + 1) by omega]; exact hΨ)
    simp only [seqSteps_cons, range_map_succ]
    have h0 : Measurable fun z => q z 0 := (measurable_pi_apply 0).comp hq
    have hv0 : Measurable fun z => v z 0 := (measurable_pi_apply 0).comp hv
    have hq' := measurable_tail hq
    have hv' := measurable_tail hv
    let s : Z → FKStep U := fun z =>
      ⟨S.trans (v z 0) t, S.markov (v z 0) t, S.logG (v z 1) (v z 0) t, S.measG (v z 1) (v z 0) t⟩
    have key : ∀ b', Measurable fun z => ∑ A, c (st z).W b b' A *
        ∫⁻ y, Cf c Ψ (seqSteps S (fun j => v z (j + 1)) n ts) ((List.range n).map fun j => q z (j + 1))
          (next (s z) (st z) A (Function.update y b' (q z 0).1)) b'
          ∂(Measure.pi fun i => S.trans (v z 0) t ((st z).x (A i))) := by
      intro b'
      refine Finset.measurable_sum _ fun A _ => Measurable.mul ((hc b b' A).comp hst.W) ?_
      refine measurable_lintegral_pi (Z := Z) (X := V × U) (x := fun z i => (v z 0, (st z).x (A i)))
        (jointTrans S hS t) ?_ ?_
      · exact measurable_pi_iff.2 fun i => hv0.prodMk ((measurable_pi_apply (A i)).comp hst.x)
      · refine ih' (Z × (Fin N → U)) (fun r => next (s r.1) (st r.1) A (Function.update r.2 b' (q r.1 0).1))
          ?_ (fun r j => q r.1 (j + 1)) (hq'.comp measurable_fst) (fun r j => v r.1 (j + 1))
          (hv'.comp measurable_fst) b'
        refine (hst.comp measurable_fst).next_param _ (fun x hx => ?_) A
          (measurable_update_pi measurable_snd (measurable_fst.comp (h0.comp measurable_fst)))
        exact measurable_logG S hS t (v := fun r : Z × (Fin N → U) => v r.1) (hv.comp measurable_fst) hx
    have := measurable_idx (F := fun b' z => ∑ A, c (st z).W b b' A *
        ∫⁻ y, Cf c Ψ (seqSteps S (fun j => v z (j + 1)) n ts) ((List.range n).map fun j => q z (j + 1))
          (next (s z) (st z) A (Function.update y b' (q z 0).1)) b'
          ∂(Measure.pi fun i => S.trans (v z 0) t ((st z).x (A i)))) key (b := fun z => (q z 0).2)
          (measurable_snd.comp h0)
    exact this

theorem measurable_pathInt_obs (S : StateSpace U V) (hS : S.JointMeas) :
    ∀ (n : ℕ) (ts : List ℝ), n ≤ ts.length → ∀ (Z : Type) [MeasurableSpace Z] (f : Z → List U → ℝ≥0∞),
    (Measurable fun q : Z × (ℕ → U) => f q.1 ((List.range n).map q.2)) →
    ∀ a : Z → U, Measurable a → ∀ v : Z → ℕ → V, Measurable v →
      Measurable fun z => pathInt (seqSteps S (v z) n ts) (a z) (f z) := by
  intro n
  induction n with
  | zero =>
    intro ts _ Z _ f hf a ha v hv
    simp only [seqSteps_zero, pathInt]
    rcases isEmpty_or_nonempty Z with h | ⟨⟨z₀⟩⟩
    · exact measurable_of_empty _
    · exact hf.comp (measurable_id.prodMk (measurable_const (a := fun _ => a z₀)))
  | succ n ih =>
    intro ts hts Z _ f hf a ha v hv
    obtain ⟨t, ts, rfl⟩ : ∃ t ts', ts = t :: ts' := by
      cases ts with
      | nil => simp at hts
      | cons t ts => exact ⟨t, ts, rfl⟩
    simp only [seqSteps_cons, pathInt]
    have hv0 : Measurable fun z => v z 0 := (measurable_pi_apply 0).comp hv
    refine (ENNReal.measurable_ofReal.comp (Real.measurable_exp.comp (measurable_logG S hS t hv ha))).mul ?_
    refine measurable_lintegral_kernel (X := V × U) (jointTrans S hS t) (x := fun z => (v z 0, a z))
      (hv0.prodMk ha) ?_
    refine ih ts (by simpa using hts) (Z × U) (fun q l => f q.1 (q.2 :: l)) ?_ Prod.snd measurable_snd
      (fun q j => v q.1 (j + 1)) ((measurable_tail hv).comp measurable_fst)
    have hm : Measurable fun q : (Z × U) × (ℕ → U) =>
        ((q.1.1, fun j => Nat.casesOn j q.1.2 q.2) : Z × (ℕ → U)) :=
      (measurable_fst.comp measurable_fst).prodMk
        (measurable_seqCons (measurable_snd.comp measurable_fst) measurable_snd)
    have := hf.comp hm
    convert this using 1
    funext q
    simp only [Function.comp_apply, range_map_succ]
    rfl

/-! ### Averages over uniform indices -/

theorem avgIdx_congr {N : ℕ} : ∀ (k : ℕ) {f g : List (Fin N) → ℝ≥0∞}, (∀ l, l.length = k → f l = g l) →
    avgIdx N k f = avgIdx N k g
  | 0, _, _, h => h [] rfl
  | k + 1, f, g, h => by
    simp only [avgIdx]
    congr 1
    refine Finset.sum_congr rfl fun b _ => ?_
    exact avgIdx_congr k fun l hl => h _ (by simp [hl])

theorem measurable_avgIdx {N : ℕ} : ∀ (k : ℕ) {f : Z → List (Fin N) → ℝ≥0∞},
    (∀ l, l.length = k → Measurable fun z => f z l) → Measurable fun z => avgIdx N k (f z)
  | 0, _, h => h [] rfl
  | k + 1, f, h => by
    simp only [avgIdx]
    refine Measurable.const_mul (Finset.measurable_sum _ fun b _ => ?_) _
    exact measurable_avgIdx k fun l hl => h _ (by simp [hl])

theorem lintegral_avgIdx {N : ℕ} (μ : Measure Z) : ∀ (k : ℕ) {f : Z → List (Fin N) → ℝ≥0∞},
    (∀ l, l.length = k → Measurable fun z => f z l) →
    ∫⁻ z, avgIdx N k (f z) ∂μ = avgIdx N k fun l => ∫⁻ z, f z l ∂μ
  | 0, _, _ => rfl
  | k + 1, f, h => by
    simp only [avgIdx]
    have hm : ∀ b : Fin N, Measurable fun z => avgIdx N k fun l => f z (b :: l) := fun b =>
      measurable_avgIdx k fun l hl => h _ (by simp [hl])
    rw [lintegral_const_mul _ (Finset.measurable_sum _ fun b _ => hm b), lintegral_finsetSum _ fun b _ => hm b]
    congr 1
    refine Finset.sum_congr rfl fun b _ => ?_
    exact lintegral_avgIdx μ k fun l hl => h _ (by simp [hl])

theorem avgIdx_const_mul {N : ℕ} (c : ℝ≥0∞) : ∀ (k : ℕ) (f : List (Fin N) → ℝ≥0∞),
    avgIdx N k (fun l => c * f l) = c * avgIdx N k f
  | 0, _ => rfl
  | k + 1, f => by
    simp only [avgIdx, avgIdx_const_mul c k, ← Finset.mul_sum]
    ring

theorem avgIdx_const {N : ℕ} [NeZero N] (c : ℝ≥0∞) : ∀ k : ℕ, avgIdx N k (fun _ => c) = c
  | 0 => rfl
  | k + 1 => by
    have hN : (N : ℝ≥0∞) ≠ 0 := by exact_mod_cast NeZero.ne N
    simp only [avgIdx, avgIdx_const c k, Finset.sum_const, Finset.card_univ, Fintype.card_fin, nsmul_eq_mul]
    rw [← mul_assoc, ENNReal.inv_mul_cancel hN (ENNReal.natCast_ne_top N), one_mul]

theorem sum_avgIdx_comm {N : ℕ} {ι : Type} (T : Finset ι) : ∀ (k : ℕ) (f : ι → List (Fin N) → ℝ≥0∞),
    avgIdx N k (fun l => ∑ i ∈ T, f i l) = ∑ i ∈ T, avgIdx N k (f i)
  | 0, _ => rfl
  | k + 1, f => by
    simp only [avgIdx, sum_avgIdx_comm T k]
    rw [Finset.sum_comm, Finset.mul_sum]

theorem measurable_pathInt_param : ∀ (ss : List (FKStep U)) {Z : Type} [MeasurableSpace Z]
    (f : Z → List U → ℝ≥0∞),
    (Measurable fun q : Z × (ℕ → U) => f q.1 ((List.range ss.length).map q.2)) →
    ∀ a : Z → U, Measurable a → Measurable fun z => pathInt ss (a z) (f z) := by
  intro ss
  induction ss with
  | nil =>
    intro Z _ f hf a ha
    simp only [pathInt]
    rcases isEmpty_or_nonempty Z with h | ⟨⟨z₀⟩⟩
    · exact measurable_of_empty _
    · exact hf.comp (measurable_id.prodMk (measurable_const (a := fun _ => a z₀)))
  | cons s ss ih =>
    intro Z _ f hf a ha
    simp only [pathInt]
    refine (ENNReal.measurable_ofReal.comp (Real.measurable_exp.comp (s.meas.comp ha))).mul ?_
    refine measurable_lintegral_kernel s.M ha ?_
    refine ih (Z := Z × U) (fun q l => f q.1 (q.2 :: l)) ?_ Prod.snd measurable_snd
    have hm : Measurable fun q : (Z × U) × (ℕ → U) =>
        ((q.1.1, fun j => Nat.casesOn j q.1.2 q.2) : Z × (ℕ → U)) :=
      (measurable_fst.comp measurable_fst).prodMk
        (measurable_seqCons (measurable_snd.comp measurable_fst) measurable_snd)
    have := hf.comp hm
    convert this using 1
    funext q
    simp only [Function.comp_apply, List.length_cons, range_map_succ]
    rfl

omit [MeasurableSpace U] in
theorem zip_range {n : ℕ} (p : ℕ → U) (bl : List (Fin N)) (hbl : bl.length = n) (d : Fin N) :
    ((List.range n).map p).zip bl = (List.range n).map fun j => (p j, bl.getD j d) := by
  subst hbl
  apply List.ext_getElem
  · simp
  · intro i h1 h2
    have : i < bl.length := by simpa using h2
    simp [List.getElem?_eq_getElem this]

theorem measurable_zip_param {n : ℕ} {f : List (U × Fin N) → ℝ≥0∞}
    (hf : MeasParam (Z := Unit) n (fun _ => f)) {bl : List (Fin N)} (hbl : bl.length = n) (d : Fin N)
    {p : Z → ℕ → U} (hp : Measurable p) : Measurable fun z => f (((List.range n).map (p z)).zip bl) := by
  simp only [zip_range _ bl hbl d]
  have hm : Measurable fun z => (((), fun j => (p z j, bl.getD j d)) : Unit × (ℕ → U × Fin N)) :=
    measurable_const.prodMk (measurable_pi_iff.2 fun j =>
      ((measurable_pi_apply j).comp hp).prodMk measurable_const)
  have h : Measurable fun q : Unit × (ℕ → U × Fin N) => f ((List.range n).map q.2) := hf
  exact h.comp hm

/-- Attaching uniform indices is the same as averaging over them. -/
theorem extInt_eq_avgIdx [NeZero N] : ∀ (ss : List (FKStep U)) (u : U) (f : List (U × Fin N) → ℝ≥0∞),
    MeasParam (Z := Unit) ss.length (fun _ => f) →
    extInt N ss u f = avgIdx N ss.length fun bl => pathInt ss u fun l => f (l.zip bl) := by
  intro ss
  induction ss with
  | nil => intro u f _; rfl
  | cons s ss ih =>
    intro u f hf
    have hcons : ∀ u' b', MeasParam (Z := Unit) ss.length (fun _ l => f ((u', b') :: l)) := fun u' b' =>
      (hf.cons b').comp ((measurable_const (a := ())).prodMk (measurable_const (a := u')))
    have hm : ∀ b', Measurable fun u' => extInt N ss u' (fun l => f ((u', b') :: l)) := by
      intro b'
      have := measurable_extInt ss (Unit × U) _ (hf.cons b') Prod.snd measurable_snd
      exact this.comp ((measurable_const (a := ())).prodMk measurable_id)
    have hp : ∀ b' (bl : List (Fin N)), bl.length = ss.length → Measurable fun u' =>
        pathInt ss u' (fun l => f ((u' :: l).zip (b' :: bl))) := by
      intro b' bl hbl
      refine measurable_pathInt_param ss (fun u' l => f ((u' :: l).zip (b' :: bl))) ?_ _ measurable_id
      have := measurable_zip_param hf (bl := b' :: bl) (by simp [hbl]) b'
        (measurable_seqCons (Z := U × (ℕ → U)) measurable_fst measurable_snd)
      simp only [List.length_cons, range_map_succ] at this
      exact this
    simp only [extInt, List.length_cons, avgIdx]
    rw [lintegral_const_mul _ (Finset.measurable_sum _ fun b' _ => hm b'),
      lintegral_finsetSum _ fun b' _ => hm b', mul_left_comm, Finset.mul_sum]
    congr 1
    refine Finset.sum_congr rfl fun b' _ => ?_
    have h1 : ∀ bl : List (Fin N), pathInt (s :: ss) u (fun l => f (l.zip (b' :: bl)))
        = ENNReal.ofReal (Real.exp (s.g u)) *
          ∫⁻ u', pathInt ss u' (fun l => f ((u' :: l).zip (b' :: bl))) ∂(s.M u) := fun _ => rfl
    simp only [h1, avgIdx_const_mul]
    congr 1
    rw [← lintegral_avgIdx _ _ (hp b')]
    refine lintegral_congr fun u' => ?_
    rw [ih u' _ (hcons u' b')]
    simp

end Csmc
end Fbs
