import Verif.Lemmas.Csmc
import Verif.Lemmas.PiKernel
import Verif.Lemmas.Law
import Verif.Spec.Paths
import Mathlib.MeasureTheory.Function.SpecialFunctions.Basic

/-!
# The law of conditional SMC

The main identity: with reference path and indices drawn from the target, the whole particle system
together with the reference index is distributed as an ordinary particle system weighted by the
product of its average potentials, with the reference index drawn from the final weights.
-/

open MeasureTheory ProbabilityTheory
open scoped ENNReal

namespace Fbs
namespace Csmc

open Jax Spec

variable {N : ℕ} {U V Z Y : Type} [MeasurableSpace U] [MeasurableSpace Z] [MeasurableSpace Y]

/-- State of the particle system: particles, their traced paths, weights, and all particles and weights
so far, the latest first. -/
structure St (N : ℕ) (U : Type) where
  x : Fin N → U
  P : Fin N → List (U × Fin N)
  W : Fin N → ℝ
  H : List ((Fin N → U) × (Fin N → ℝ))

/-- One step: ancestors `A`, new particles `y`. -/
noncomputable def next (s : FKStep U) (st : St N U) (A : Fin N → Fin N) (y : Fin N → U) : St N U where
  x := y
  P := fun i => st.P (A i) ++ [(y i, i)]
  W := normalise fun i => s.g (st.x (A i))
  H := (y, normalise fun i => s.g (st.x (A i))) :: st.H

/-! ### Measurability bookkeeping -/

/-- A measurable family of states whose paths have length `k`. -/
structure MeasSt (k : ℕ) (st : Z → St N U) : Prop where
  x : Measurable fun z => (st z).x
  W : Measurable fun z => (st z).W
  P : ∃ p : Z → Fin N → ℕ → U × Fin N, Measurable p ∧
    ∀ z i, (st z).P i = (List.range k).map (p z i)
  H : ∃ h : Z → ℕ → (Fin N → U) × (Fin N → ℝ), Measurable h ∧ ∀ z, (st z).H = (List.range k).map (h z)

/-- A functional of states is measurable along measurable families with paths of length `k`. -/
def MeasFun (k : ℕ) (Ψ : St N U → Fin N → ℝ≥0∞) : Prop :=
  ∀ (Z : Type) [MeasurableSpace Z] (st : Z → St N U), MeasSt k st → ∀ b,
    Measurable fun z => Ψ (st z) b

theorem measurable_normalise [NeZero N] {l : Z → Fin N → ℝ} (hl : Measurable l) :
    Measurable fun z => normalise (l z) := by
  refine measurable_pi_iff.2 fun i => ?_
  simp only [normalise_eq]
  have h : ∀ i, Measurable fun z => Real.exp (l z i) := fun i =>
    Real.measurable_exp.comp ((measurable_pi_apply i).comp hl)
  exact (h i).div (Finset.measurable_sum _ fun j _ => h j)

theorem range_map_succ {α : Type} (n : ℕ) (p : ℕ → α) :
    (List.range (n + 1)).map p = p 0 :: (List.range n).map (fun j => p (j + 1)) := by
  rw [List.range_succ_eq_map]
  simp [Function.comp_def]

theorem measurable_seqCons {α : Type} [MeasurableSpace α] {a : Z → α} (ha : Measurable a)
    {p : Z → ℕ → α} (hp : Measurable p) :
    Measurable fun z => (fun j => Nat.casesOn j (a z) (p z) : ℕ → α) := by
  refine measurable_pi_iff.2 fun j => ?_
  cases j with
  | zero => exact ha
  | succ j => exact (measurable_pi_apply j).comp hp

theorem MeasSt.next [NeZero N] {k : ℕ} {st : Z → St N U} (h : MeasSt k st) (s : FKStep U)
    (A : Fin N → Fin N) {y : Z → Fin N → U} (hy : Measurable y) :
    MeasSt (k + 1) (fun z => next s (st z) A (y z)) := by
  obtain ⟨p, hp, hP⟩ := h.P
  obtain ⟨q, hq, hH⟩ := h.H
  have hW : Measurable fun z => normalise fun i => s.g ((st z).x (A i)) := by
    apply measurable_normalise
    refine measurable_pi_iff.2 fun i => ?_
    exact s.meas.comp ((measurable_pi_apply (A i)).comp h.x)
  refine ⟨hy, hW, ⟨fun z i j => if j = k then (y z i, i) else p z (A i) j, ?_, ?_⟩,
    ⟨fun z j => Nat.casesOn j (y z, normalise fun i => s.g ((st z).x (A i))) (q z),
      measurable_seqCons (hy.prodMk hW) hq, fun z => ?_⟩⟩
  · refine measurable_pi_iff.2 fun i => measurable_pi_iff.2 fun j => ?_
    by_cases hj : j = k
    · simp only [hj, if_true]
      exact ((measurable_pi_apply i).comp hy).prodMk measurable_const
    · simp only [hj, if_false]
      exact (measurable_pi_apply j).comp ((measurable_pi_apply (A i)).comp hp)
  · intro z i
    simp only [Csmc.next, hP, List.range_succ, List.map_append, List.map_cons, List.map_nil, if_true]
    congr 1
    refine List.map_congr_left fun j hj => ?_
    rw [if_neg (List.mem_range.1 hj).ne]
  · show _ :: (st z).H = _
    rw [hH, range_map_succ]
    rfl

theorem MeasSt.comp {k : ℕ} {st : Z → St N U} (h : MeasSt k st) {f : Y → Z} (hf : Measurable f) :
    MeasSt k (fun y => st (f y)) := by
  obtain ⟨p, hp, hP⟩ := h.P
  obtain ⟨q, hq, hH⟩ := h.H
  exact ⟨h.x.comp hf, h.W.comp hf, ⟨fun y => p (f y), hp.comp hf, fun y i => hP (f y) i⟩,
    ⟨fun y => q (f y), hq.comp hf, fun y => hH (f y)⟩⟩

theorem measurable_idx {F : Fin N → Z → ℝ≥0∞} (hF : ∀ b, Measurable (F b)) {b : Z → Fin N}
    (hb : Measurable b) : Measurable fun z => F (b z) z := by
  have : (fun z => F (b z) z) = fun z => ∑ j, if b z = j then F j z else 0 := by
    funext z
    simp
  rw [this]
  refine Finset.measurable_sum _ fun j _ => ?_
  refine Measurable.ite ?_ (hF j) measurable_const
  exact hb (measurableSet_singleton j)

theorem measurable_update_pi {b : Fin N} {y : Z → Fin N → U} (hy : Measurable y) {u : Z → U}
    (hu : Measurable u) : Measurable fun z => Function.update (y z) b (u z) := by
  refine measurable_pi_iff.2 fun i => ?_
  by_cases h : i = b
  · subst h; simpa using hu
  · simp only [Function.update_of_ne h]
    exact (measurable_pi_apply i).comp hy

/-! ### The functionals -/

/-- Expected value of `Ψ` at the end of the conditional pass, given the remaining reference. -/
noncomputable def Cf (c : (Fin N → ℝ) → Fin N → Fin N → (Fin N → Fin N) → ℝ≥0∞)
    (Ψ : St N U → Fin N → ℝ≥0∞) :
    List (FKStep U) → List (U × Fin N) → St N U → Fin N → ℝ≥0∞
  | s :: ss, (u', b') :: l, st, b =>
    ∑ A, c st.W b b' A * ∫⁻ y, Cf c Ψ ss l (next s st A (Function.update y b' u')) b'
      ∂(Measure.pi fun i => s.M (st.x (A i)))
  | _, _, st, b => Ψ st b

/-- Reference averaged version. -/
noncomputable def Lf (c : (Fin N → ℝ) → Fin N → Fin N → (Fin N → Fin N) → ℝ≥0∞)
    (Ψ : St N U → Fin N → ℝ≥0∞) : List (FKStep U) → St N U → Fin N → ℝ≥0∞
  | [], st, b => Ψ st b
  | s :: ss, st, b =>
    ENNReal.ofReal (Real.exp (s.g (st.x b))) *
      ∫⁻ u', (N : ℝ≥0∞)⁻¹ * ∑ b' : Fin N,
        ∑ A, c st.W b b' A * ∫⁻ y, Lf c Ψ ss (next s st A (Function.update y b' u')) b'
          ∂(Measure.pi fun i => s.M (st.x (A i))) ∂(s.M (st.x b))

/-- Ordinary particle system weighted by its average potentials, final index from the weights. -/
noncomputable def Rf (r : (Fin N → ℝ) → (Fin N → Fin N) → ℝ≥0∞)
    (Ψ : St N U → Fin N → ℝ≥0∞) : List (FKStep U) → St N U → ℝ≥0∞
  | [], st => ∑ b, ENNReal.ofReal (st.W b) * Ψ st b
  | s :: ss, st =>
    ∑ A, r st.W A * ((N : ℝ≥0∞)⁻¹ * ENNReal.ofReal (∑ i, Real.exp (s.g (st.x (A i)))) *
      ∫⁻ y, Rf r Ψ ss (next s st A y) ∂(Measure.pi fun i => s.M (st.x (A i))))

theorem measurable_Lf [NeZero N] {c : (Fin N → ℝ) → Fin N → Fin N → (Fin N → Fin N) → ℝ≥0∞}
    (hc : ∀ i j A, Measurable fun w => c w i j A) {Ψ : St N U → Fin N → ℝ≥0∞} :
    ∀ (ss : List (FKStep U)) (k : ℕ), MeasFun (k + ss.length) Ψ → MeasFun k (Lf c Ψ ss) := by
  intro ss
  induction ss with
  | nil => intro k h; exact h
  | cons s ss ih =>
    intro k hΨ Z _ st hst b
    simp only [Lf]
    have ih' := ih (k + 1) (by rw [show k + 1 + ss.length = k + (s :: ss).length by simp; omega]; exact hΨ)
    have hxb : Measurable fun z => (st z).x b := (measurable_pi_apply b).comp hst.x
    refine (ENNReal.measurable_ofReal.comp (Real.measurable_exp.comp (s.meas.comp hxb))).mul ?_
    refine measurable_lintegral_kernel s.M hxb ?_
    refine Measurable.const_mul (Finset.measurable_sum _ fun b' _ => Finset.measurable_sum _ fun A _ => ?_) _
    refine Measurable.mul ?_ ?_
    · exact (hc b b' A).comp (hst.W.comp measurable_fst)
    · refine measurable_lintegral_pi (Z := Z × U) (x := fun q i => (st q.1).x (A i)) s.M ?_ ?_
      · exact measurable_pi_iff.2 fun i => (measurable_pi_apply (A i)).comp (hst.x.comp measurable_fst)
      · refine ih' ((Z × U) × (Fin N → U)) (fun q => next s (st q.1.1) A (Function.update q.2 b' q.1.2)) ?_ b'
        exact (hst.comp (measurable_fst.comp measurable_fst)).next s A
          (measurable_update_pi measurable_snd (measurable_snd.comp measurable_fst))

/-- Joint measurability of the conditional functional in the state and the remaining reference. -/
theorem measurable_Cf [NeZero N] {c : (Fin N → ℝ) → Fin N → Fin N → (Fin N → Fin N) → ℝ≥0∞}
    (hc : ∀ i j A, Measurable fun w => c w i j A) {Ψ : St N U → Fin N → ℝ≥0∞} :
    ∀ (ss : List (FKStep U)) (k : ℕ), MeasFun (k + ss.length) Ψ →
    ∀ (Z : Type) [MeasurableSpace Z] (st : Z → St N U), MeasSt k st →
    ∀ q : Z → ℕ → U × Fin N, Measurable q → ∀ b,
      Measurable fun z => Cf c Ψ ss ((List.range ss.length).map (q z)) (st z) b := by
  intro ss
  induction ss with
  | nil => intro k h Z _ st hst q hq b; exact h Z st hst b
  | cons s ss ih =>
    intro k hΨ Z _ st hst q hq b
    have ih' := ih (k + 1) (by rw [show k + 1 + ss.length = k + (s :: ss).length by simp; omega]; exact hΨ)
    simp only [List.length_cons, range_map_succ]
    have h0 : Measurable fun z => q z 0 := (measurable_pi_apply 0).comp hq
    have hq' : Measurable fun z => fun j => q z (j + 1) :=
      measurable_pi_iff.2 fun j => (measurable_pi_apply (j + 1)).comp hq
    have key : ∀ b', Measurable fun z => ∑ A, c (st z).W b b' A *
        ∫⁻ y, Cf c Ψ ss ((List.range ss.length).map fun j => q z (j + 1))
          (next s (st z) A (Function.update y b' (q z 0).1)) b'
          ∂(Measure.pi fun i => s.M ((st z).x (A i))) := by
      intro b'
      refine Finset.measurable_sum _ fun A _ => Measurable.mul ((hc b b' A).comp hst.W) ?_
      refine measurable_lintegral_pi (Z := Z) (x := fun z i => (st z).x (A i)) s.M ?_ ?_
      · exact measurable_pi_iff.2 fun i => (measurable_pi_apply (A i)).comp hst.x
      · refine ih' (Z × (Fin N → U)) (fun r => next s (st r.1) A (Function.update r.2 b' (q r.1 0).1))
          ?_ (fun r j => q r.1 (j + 1)) (hq'.comp measurable_fst) b'
        exact (hst.comp measurable_fst).next s A
          (measurable_update_pi measurable_snd (measurable_fst.comp (h0.comp measurable_fst)))
    have := measurable_idx (F := fun b' z => ∑ A, c (st z).W b b' A *
        ∫⁻ y, Cf c Ψ ss ((List.range ss.length).map fun j => q z (j + 1))
          (next s (st z) A (Function.update y b' (q z 0).1)) b'
          ∂(Measure.pi fun i => s.M ((st z).x (A i)))) key (b := fun z => (q z 0).2) (measurable_snd.comp h0)
    exact this

/-! ### Tonelli for the reference integral -/

/-- Joint measurability of a parametrised test function on lists of length `n`. -/
def MeasParam (n : ℕ) (f : Z → List (U × Fin N) → ℝ≥0∞) : Prop :=
  Measurable fun q : Z × (ℕ → U × Fin N) => f q.1 ((List.range n).map q.2)

theorem MeasParam.cons {n : ℕ} {f : Z → List (U × Fin N) → ℝ≥0∞} (hf : MeasParam (n + 1) f)
    (b' : Fin N) : MeasParam n (fun (q : Z × U) l => f q.1 ((q.2, b') :: l)) := by
  unfold MeasParam at *
  have hm : Measurable fun q : (Z × U) × (ℕ → U × Fin N) =>
      ((q.1.1, fun j => Nat.casesOn j (q.1.2, b') q.2) : Z × (ℕ → U × Fin N)) :=
    (measurable_fst.comp measurable_fst).prodMk
      (measurable_seqCons ((measurable_snd.comp measurable_fst).prodMk measurable_const) measurable_snd)
  have := hf.comp hm
  convert this using 1
  funext q
  simp only [Function.comp_apply, range_map_succ]
  rfl

theorem measurable_extInt [NeZero N] : ∀ (ss : List (FKStep U)) (Z : Type) [MeasurableSpace Z]
    (f : Z → List (U × Fin N) → ℝ≥0∞), MeasParam ss.length f → ∀ a : Z → U, Measurable a →
    Measurable fun z => extInt N ss (a z) (f z) := by
  intro ss
  induction ss with
  | nil =>
    intro Z _ f hf a ha
    simp only [extInt]
    rcases isEmpty_or_nonempty Z with h | ⟨⟨z₀⟩⟩
    · exact measurable_of_empty _
    · exact hf.comp (measurable_id.prodMk (measurable_const (a := fun _ => (a z₀, 0))))
  | cons s ss ih =>
    intro Z _ f hf a ha
    simp only [extInt]
    refine (ENNReal.measurable_ofReal.comp (Real.measurable_exp.comp (s.meas.comp ha))).mul ?_
    refine measurable_lintegral_kernel s.M ha ?_
    refine Measurable.const_mul (Finset.measurable_sum _ fun b' _ => ?_) _
    exact ih (Z × U) (fun q l => f q.1 ((q.2, b') :: l)) (hf.cons b') Prod.snd measurable_snd

theorem MeasParam.fix {n : ℕ} {f : Z → List (U × Fin N) → ℝ≥0∞} (hf : MeasParam n f) (z : Z) :
    MeasParam (Z := Unit) n (fun _ => f z) := by
  unfold MeasParam at *
  exact hf.comp ((measurable_const (a := z)).prodMk measurable_snd)

theorem MeasParam.comp {n : ℕ} {f : Z → List (U × Fin N) → ℝ≥0∞} (hf : MeasParam n f) {g : Y → Z}
    (hg : Measurable g) : MeasParam n (fun y => f (g y)) := by
  unfold MeasParam at *
  exact hf.comp ((hg.comp measurable_fst).prodMk measurable_snd)

theorem extInt_sum [NeZero N] {ι : Type} (T : Finset ι) (c : ι → ℝ≥0∞) : ∀ (ss : List (FKStep U)) (u : U)
    (f : ι → List (U × Fin N) → ℝ≥0∞), (∀ i, MeasParam (Z := Unit) ss.length (fun _ => f i)) →
    extInt N ss u (fun l => ∑ i ∈ T, c i * f i l) = ∑ i ∈ T, c i * extInt N ss u (f i) := by
  intro ss
  induction ss with
  | nil => intro u f _; rfl
  | cons s ss ih =>
    intro u f hf
    simp only [extInt]
    have hm : ∀ i b', Measurable fun u' => extInt N ss u' (fun l => f i ((u', b') :: l)) := by
      intro i b'
      have := measurable_extInt ss (Unit × U) _ ((hf i).cons b') Prod.snd measurable_snd
      exact this.comp ((measurable_const (a := ())).prodMk measurable_id)
    have h1 : ∀ u', (N : ℝ≥0∞)⁻¹ * ∑ b' : Fin N, extInt N ss u' (fun l => ∑ i ∈ T, c i * f i ((u', b') :: l))
        = ∑ i ∈ T, c i * ((N : ℝ≥0∞)⁻¹ * ∑ b' : Fin N, extInt N ss u' (fun l => f i ((u', b') :: l))) := by
      intro u'
      have h2 : ∀ b', extInt N ss u' (fun l => ∑ i ∈ T, c i * f i ((u', b') :: l))
          = ∑ i ∈ T, c i * extInt N ss u' (fun l => f i ((u', b') :: l)) := fun b' =>
        ih u' (fun i l => f i ((u', b') :: l)) fun i =>
          ((hf i).cons b').comp ((measurable_const (a := ())).prodMk (measurable_const (a := u')))
      simp only [h2]
      rw [Finset.sum_comm, Finset.mul_sum]
      refine Finset.sum_congr rfl fun i _ => ?_
      rw [← Finset.mul_sum]
      ring
    simp only [h1]
    rw [lintegral_finsetSum, Finset.mul_sum]
    · refine Finset.sum_congr rfl fun i _ => ?_
      rw [lintegral_const_mul]
      · ring
      · exact Measurable.const_mul (Finset.measurable_sum _ fun b' _ => hm i b') _
    · intro i _
      exact Measurable.const_mul (Measurable.const_mul (Finset.measurable_sum _ fun b' _ => hm i b') _) _

theorem extInt_lintegral [NeZero N] (ν : Measure Y) [IsProbabilityMeasure ν] : ∀ (ss : List (FKStep U))
    (u : U) (f : Y → List (U × Fin N) → ℝ≥0∞), MeasParam ss.length f →
    extInt N ss u (fun l => ∫⁻ y, f y l ∂ν) = ∫⁻ y, extInt N ss u (f y) ∂ν := by
  intro ss
  induction ss with
  | nil => intro u f _; rfl
  | cons s ss ih =>
    intro u f hf
    simp only [extInt]
    have hm : ∀ b', Measurable fun q : Y × U => extInt N ss q.2 (fun l => f q.1 ((q.2, b') :: l)) :=
      fun b' => measurable_extInt ss (Y × U) _ (hf.cons b') Prod.snd measurable_snd
    have h1 : ∀ u', (N : ℝ≥0∞)⁻¹ * ∑ b' : Fin N, extInt N ss u' (fun l => ∫⁻ y, f y ((u', b') :: l) ∂ν)
        = ∫⁻ y, (N : ℝ≥0∞)⁻¹ * ∑ b' : Fin N, extInt N ss u' (fun l => f y ((u', b') :: l)) ∂ν := by
      intro u'
      have h2 : ∀ b', extInt N ss u' (fun l => ∫⁻ y, f y ((u', b') :: l) ∂ν)
          = ∫⁻ y, extInt N ss u' (fun l => f y ((u', b') :: l)) ∂ν := fun b' =>
        ih u' (fun y l => f y ((u', b') :: l))
          ((hf.cons b').comp (measurable_id.prodMk (measurable_const (a := u'))))
      simp only [h2]
      have hm' : ∀ b', Measurable fun y => extInt N ss u' (fun l => f y ((u', b') :: l)) := fun b' =>
        (hm b').comp (measurable_id.prodMk (measurable_const (a := u')))
      rw [lintegral_const_mul, lintegral_finsetSum]
      · exact fun b' _ => hm' b'
      · exact Finset.measurable_sum _ fun b' _ => hm' b'
    simp only [h1]
    have hj : Measurable fun q : U × Y =>
        (N : ℝ≥0∞)⁻¹ * ∑ b' : Fin N, extInt N ss q.1 (fun l => f q.2 ((q.1, b') :: l)) :=
      Measurable.const_mul (Finset.measurable_sum _ fun b' _ => (hm b').comp measurable_swap) _
    rw [lintegral_lintegral_swap hj.aemeasurable, lintegral_const_mul]
    exact (hj.comp measurable_swap).lintegral_prod_right'

theorem measParam_Cf [NeZero N] {c : (Fin N → ℝ) → Fin N → Fin N → (Fin N → Fin N) → ℝ≥0∞}
    (hc : ∀ i j A, Measurable fun w => c w i j A) {Ψ : St N U → Fin N → ℝ≥0∞}
    (ss : List (FKStep U)) (k : ℕ) (hΨ : MeasFun (k + ss.length) Ψ)
    {st : Z → St N U} (hst : MeasSt k st) (b : Fin N) :
    MeasParam ss.length (fun z l => Cf c Ψ ss l (st z) b) :=
  measurable_Cf hc ss k hΨ (Z × (ℕ → U × Fin N)) (fun q => st q.1) (hst.comp measurable_fst)
    (fun q => q.2) measurable_snd b

/-- Integrating the reference out of the conditional functional. -/
theorem extInt_Cf [NeZero N] {c : (Fin N → ℝ) → Fin N → Fin N → (Fin N → Fin N) → ℝ≥0∞}
    (hc : ∀ i j A, Measurable fun w => c w i j A) {Ψ : St N U → Fin N → ℝ≥0∞} :
    ∀ (ss : List (FKStep U)) (k : ℕ), MeasFun (k + ss.length) Ψ →
    ∀ st : St N U, MeasSt (Z := Unit) k (fun _ => st) → ∀ b,
      extInt N ss (st.x b) (fun l => Cf c Ψ ss l st b) = Lf c Ψ ss st b := by
  intro ss
  induction ss with
  | nil => intro k _ st _ b; rfl
  | cons s ss ih =>
    intro k hΨ st hst b
    have hΨ' : MeasFun (k + 1 + ss.length) Ψ := by
      rw [show k + 1 + ss.length = k + (s :: ss).length by simp; omega]; exact hΨ
    simp only [extInt, Cf, Lf]
    congr 1
    refine lintegral_congr fun u' => ?_
    congr 1
    refine Finset.sum_congr rfl fun b' _ => ?_
    have hst' : ∀ A, MeasSt (Z := Fin N → U) (k + 1) (fun y => next s st A (Function.update y b' u')) :=
      fun A => (hst.comp (f := fun _ : Fin N → U => ()) measurable_const).next s A
        (measurable_update_pi measurable_id measurable_const)
    have hpar : ∀ A, MeasParam (Z := Fin N → U) ss.length
        (fun y l => Cf c Ψ ss l (next s st A (Function.update y b' u')) b') :=
      fun A => measParam_Cf hc ss (k + 1) hΨ' (hst' A) b'
    have hint : ∀ A, MeasParam (Z := Unit) (U := U) ss.length (fun _ l => ∫⁻ y, Cf c Ψ ss l
        (next s st A (Function.update y b' u')) b' ∂(Measure.pi fun i => s.M (st.x (A i)))) := by
      intro A
      have h := hpar A
      unfold MeasParam at h ⊢
      have h' : Measurable fun q : (Unit × (ℕ → U × Fin N)) × (Fin N → U) =>
          Cf c Ψ ss ((List.range ss.length).map q.1.2) (next s st A (Function.update q.2 b' u')) b' :=
        h.comp (measurable_snd.prodMk (measurable_snd.comp measurable_fst))
      exact h'.lintegral_prod_right'
    rw [extInt_sum Finset.univ _ ss u' _ hint]
    refine Finset.sum_congr rfl fun A _ => ?_
    rw [extInt_lintegral _ ss u' _ (hpar A)]
    congr 1
    refine lintegral_congr fun y => ?_
    have e : (next s st A (Function.update y b' u')).x b' = u' := by simp [next]
    have := ih (k + 1) hΨ' (next s st A (Function.update y b' u'))
      ((hst' A).comp (f := fun _ : Unit => y) measurable_const) b'
    rw [e] at this
    exact this

/-! ### The main identity -/

theorem ofReal_normalise_mul [NeZero N] (l : Fin N → ℝ) (b : Fin N) :
    ENNReal.ofReal (∑ i, Real.exp (l i)) * ENNReal.ofReal (normalise l b) = ENNReal.ofReal (Real.exp (l b)) := by
  rw [← ENNReal.ofReal_mul (sum_exp_pos l).le, normalise_eq, mul_div_cancel₀ _ (sum_exp_pos l).ne']

theorem sum_Lf_eq_Rf [NeZero N] {res : CondResampling N} (sch : ExactScheme res)
    {Ψ : St N U → Fin N → ℝ≥0∞} :
    ∀ (ss : List (FKStep U)) (k : ℕ), MeasFun (k + ss.length) Ψ →
    ∀ st : St N U, MeasSt (Z := Unit) k (fun _ => st) → Weights st.W →
      ∑ b, ENNReal.ofReal (st.W b) * Lf sch.cond Ψ ss st b = Rf sch.joint Ψ ss st := by
  intro ss
  induction ss with
  | nil => intro k _ st _ _; rfl
  | cons s ss ih =>
    intro k hΨ st hst hW
    have hΨ' : MeasFun (k + 1 + ss.length) Ψ := by
      rw [show k + 1 + ss.length = k + (s :: ss).length by simp; omega]; exact hΨ
    have hL := measurable_Lf sch.meas ss (k + 1) hΨ'
    simp only [Lf, Rf]
    -- abbreviations
    let μ : (Fin N → Fin N) → Measure (Fin N → U) := fun A => Measure.pi fun i => s.M (st.x (A i))
    let G : Fin N → ℝ≥0∞ := fun b => ENNReal.ofReal (Real.exp (s.g (st.x b)))
    let I : (Fin N → Fin N) → Fin N → ℝ≥0∞ := fun A b' =>
      ∫⁻ y, Lf sch.cond Ψ ss (next s st A y) b' ∂(μ A)
    have hjoint : ∀ A b', Measurable fun q : U × (Fin N → U) =>
        Lf sch.cond Ψ ss (next s st A (Function.update q.2 b' q.1)) b' := fun A b' =>
      hL (U × (Fin N → U)) _ ((hst.comp (f := fun _ => ()) measurable_const).next s A
        (measurable_update_pi measurable_snd measurable_fst)) b'
    have hy : ∀ A b', Measurable fun y => Lf sch.cond Ψ ss (next s st A y) b' := fun A b' =>
      hL (Fin N → U) _ ((hst.comp (f := fun _ => ()) measurable_const).next s A measurable_id) b'
    have hinner : ∀ A b', Measurable fun u' =>
        ∫⁻ y, Lf sch.cond Ψ ss (next s st A (Function.update y b' u')) b' ∂(μ A) := fun A b' =>
      (hjoint A b').lintegral_prod_right'
    -- the reference integral for fixed `b`
    have h1 : ∀ b, ∫⁻ u', (N : ℝ≥0∞)⁻¹ * ∑ b' : Fin N, ∑ A, sch.cond st.W b b' A *
        ∫⁻ y, Lf sch.cond Ψ ss (next s st A (Function.update y b' u')) b' ∂(μ A) ∂(s.M (st.x b))
        = (N : ℝ≥0∞)⁻¹ * ∑ b' : Fin N, ∑ A, sch.cond st.W b b' A *
          ∫⁻ u', ∫⁻ y, Lf sch.cond Ψ ss (next s st A (Function.update y b' u')) b' ∂(μ A) ∂(s.M (st.x b)) := by
      intro b
      rw [lintegral_const_mul, lintegral_finsetSum]
      · congr 1
        refine Finset.sum_congr rfl fun b' _ => ?_
        rw [lintegral_finsetSum]
        · refine Finset.sum_congr rfl fun A _ => ?_
          rw [lintegral_const_mul _ (hinner A b')]
        · exact fun A _ => (hinner A b').const_mul _
      · exact fun b' _ => Finset.measurable_sum _ fun A _ => (hinner A b').const_mul _
      · exact Finset.measurable_sum _ fun b' _ => Finset.measurable_sum _ fun A _ => (hinner A b').const_mul _
    have h2 : ∀ b b' A, ENNReal.ofReal (st.W b) * (G b * (sch.cond st.W b b' A *
          ∫⁻ u', ∫⁻ y, Lf sch.cond Ψ ss (next s st A (Function.update y b' u')) b' ∂(μ A) ∂(s.M (st.x b))))
        = if A b' = b then sch.joint st.W A * (G (A b') * I A b') else 0 := by
      intro b b' A
      rw [show ∀ a g c x : ℝ≥0∞, a * (g * (c * x)) = (a * c) * (g * x) by intros; ring,
        sch.bayes st.W hW]
      by_cases h : A b' = b
      · subst h
        rw [if_pos rfl, if_pos rfl]
        congr 2
        exact lintegral_redraw (fun i => s.M (st.x (A i))) b' (hy A b')
      · rw [if_neg h, if_neg h, zero_mul]
    calc ∑ b, ENNReal.ofReal (st.W b) * (G b * ∫⁻ u', (N : ℝ≥0∞)⁻¹ * ∑ b' : Fin N, ∑ A, sch.cond st.W b b' A *
        ∫⁻ y, Lf sch.cond Ψ ss (next s st A (Function.update y b' u')) b' ∂(μ A) ∂(s.M (st.x b)))
        = ∑ b, ∑ b', ∑ A, (N : ℝ≥0∞)⁻¹ * (ENNReal.ofReal (st.W b) * (G b * (sch.cond st.W b b' A *
          ∫⁻ u', ∫⁻ y, Lf sch.cond Ψ ss (next s st A (Function.update y b' u')) b' ∂(μ A) ∂(s.M (st.x b))))) := by
          refine Finset.sum_congr rfl fun b _ => ?_
          rw [h1]
          simp only [Finset.mul_sum]
          refine Finset.sum_congr rfl fun b' _ => Finset.sum_congr rfl fun A _ => ?_
          ring
      _ = ∑ A, ∑ b', ∑ b, (N : ℝ≥0∞)⁻¹ * (if A b' = b then sch.joint st.W A * (G (A b') * I A b') else 0) := by
          simp only [h2]
          rw [Finset.sum_comm]
          have : ∀ b' : Fin N, (∑ b, ∑ A : Fin N → Fin N, (N : ℝ≥0∞)⁻¹ *
              (if A b' = b then sch.joint st.W A * (G (A b') * I A b') else 0))
              = ∑ A : Fin N → Fin N, ∑ b, (N : ℝ≥0∞)⁻¹ *
              (if A b' = b then sch.joint st.W A * (G (A b') * I A b') else 0) :=
            fun b' => Finset.sum_comm
          simp only [this]
          rw [Finset.sum_comm]
      _ = ∑ A, ∑ b', (N : ℝ≥0∞)⁻¹ * (sch.joint st.W A * (G (A b') * I A b')) := by
          refine Finset.sum_congr rfl fun A _ => Finset.sum_congr rfl fun b' _ => ?_
          rw [← Finset.mul_sum]
          simp
      _ = _ := by
          refine Finset.sum_congr rfl fun A _ => ?_
          have hR : ∀ y, Rf sch.joint Ψ ss (next s st A y)
              = ∑ b', ENNReal.ofReal ((next s st A y).W b') * Lf sch.cond Ψ ss (next s st A y) b' := by
            intro y
            refine (ih (k + 1) hΨ' _ ?_ (normalise_weights _)).symm
            exact hst.next s A (measurable_const (a := y))
          have hI : ∫⁻ y, Rf sch.joint Ψ ss (next s st A y) ∂(μ A)
              = ∑ b', ENNReal.ofReal (normalise (fun i => s.g (st.x (A i))) b') * I A b' := by
            simp only [hR]
            have : ∀ y b', (next s st A y).W b' = normalise (fun i => s.g (st.x (A i))) b' := fun _ _ => rfl
            simp only [this]
            rw [lintegral_finsetSum]
            · exact Finset.sum_congr rfl fun b' _ => lintegral_const_mul _ (hy A b')
            · exact fun b' _ => (hy A b').const_mul _
          show _ = sch.joint st.W A * ((N : ℝ≥0∞)⁻¹ * ENNReal.ofReal (∑ i, Real.exp (s.g (st.x (A i)))) *
            ∫⁻ y, Rf sch.joint Ψ ss (next s st A y) ∂(μ A))
          rw [hI, Finset.mul_sum, Finset.mul_sum]
          refine Finset.sum_congr rfl fun b' _ => ?_
          have hG : G (A b') = ENNReal.ofReal (∑ i, Real.exp (s.g (st.x (A i)))) *
              ENNReal.ofReal (normalise (fun i => s.g (st.x (A i))) b') :=
            (ofReal_normalise_mul (fun i => s.g (st.x (A i))) b').symm
          rw [hG]
          ring

/-! ### Initial time -/

/-- Initial state of the particle system. -/
noncomputable def initSt (g0 : U → ℝ) (y : Fin N → U) : St N U where
  x := y
  P := fun i => [(y i, i)]
  W := normalise fun i => g0 (y i)
  H := [(y, normalise fun i => g0 (y i))]

theorem measSt_init [NeZero N] {g0 : U → ℝ} (hg : Measurable g0) {y : Z → Fin N → U} (hy : Measurable y) :
    MeasSt 1 (fun z => initSt g0 (y z)) := by
  have hW : Measurable fun z => normalise fun i => g0 (y z i) := by
    apply measurable_normalise
    exact measurable_pi_iff.2 fun i => hg.comp ((measurable_pi_apply i).comp hy)
  refine ⟨hy, hW, ⟨fun z i _ => (y z i, i), ?_, fun z i => rfl⟩,
    ⟨fun z _ => (y z, normalise fun i => g0 (y z i)), measurable_pi_iff.2 fun _ => hy.prodMk hW, fun z => rfl⟩⟩
  · exact measurable_pi_iff.2 fun i => measurable_pi_iff.2 fun j =>
      ((measurable_pi_apply i).comp hy).prodMk measurable_const

theorem init_identity [NeZero N] {res : CondResampling N} (sch : ExactScheme res)
    {Ψ : St N U → Fin N → ℝ≥0∞} (ss : List (FKStep U)) (hΨ : MeasFun (1 + ss.length) Ψ)
    (μ : Measure U) [IsProbabilityMeasure μ] {g0 : U → ℝ} (hg : Measurable g0) :
    ∫⁻ u, ENNReal.ofReal (Real.exp (g0 u)) * ((N : ℝ≥0∞)⁻¹ * ∑ b : Fin N,
      extInt N ss u (fun l => ∫⁻ y, Cf sch.cond Ψ ss l (initSt g0 (Function.update y b u)) b
        ∂(Measure.pi fun _ => μ))) ∂μ
      = ∫⁻ y, (N : ℝ≥0∞)⁻¹ * ENNReal.ofReal (∑ i, Real.exp (g0 (y i))) * Rf sch.joint Ψ ss (initSt g0 y)
        ∂(Measure.pi fun _ : Fin N => μ) := by
  have hL := measurable_Lf sch.meas ss 1 hΨ
  have hstu : ∀ b, MeasSt (Z := U × (Fin N → U)) 1 (fun q => initSt g0 (Function.update q.2 b q.1)) :=
    fun b => measSt_init hg (measurable_update_pi measurable_snd measurable_fst)
  have hsty : MeasSt (Z := Fin N → U) 1 (fun y => initSt g0 y) := measSt_init hg measurable_id
  have h1 : ∀ u b, extInt N ss u (fun l => ∫⁻ y, Cf sch.cond Ψ ss l (initSt g0 (Function.update y b u)) b
        ∂(Measure.pi fun _ => μ))
      = ∫⁻ y, Lf sch.cond Ψ ss (initSt g0 (Function.update y b u)) b ∂(Measure.pi fun _ : Fin N => μ) := by
    intro u b
    have hst' : MeasSt (Z := Fin N → U) 1 (fun y => initSt g0 (Function.update y b u)) :=
      (hstu b).comp (f := fun y => (u, y)) (measurable_const.prodMk measurable_id)
    rw [extInt_lintegral _ ss u _ (measParam_Cf sch.meas ss 1 hΨ hst' b)]
    refine lintegral_congr fun y => ?_
    have e : (initSt g0 (Function.update y b u)).x b = u := by simp [initSt]
    have := extInt_Cf sch.meas ss 1 hΨ (initSt g0 (Function.update y b u))
      (hst'.comp (f := fun _ : Unit => y) measurable_const) b
    rw [e] at this
    exact this
  simp only [h1]
  let G : U → ℝ≥0∞ := fun u => ENNReal.ofReal (Real.exp (g0 u))
  have hG : Measurable G := ENNReal.measurable_ofReal.comp (Real.measurable_exp.comp hg)
  let H : Fin N → (Fin N → U) → ℝ≥0∞ := fun b y => G (y b) * Lf sch.cond Ψ ss (initSt g0 y) b
  have hH : ∀ b, Measurable (H b) := fun b =>
    (hG.comp (measurable_pi_apply b)).mul (hL _ _ hsty b)
  have hin : ∀ b, Measurable fun u =>
      ∫⁻ y, Lf sch.cond Ψ ss (initSt g0 (Function.update y b u)) b ∂(Measure.pi fun _ : Fin N => μ) :=
    fun b => (hL _ _ (hstu b) b).lintegral_prod_right'
  calc ∫⁻ u, G u * ((N : ℝ≥0∞)⁻¹ * ∑ b : Fin N,
      ∫⁻ y, Lf sch.cond Ψ ss (initSt g0 (Function.update y b u)) b ∂(Measure.pi fun _ => μ)) ∂μ
      = ∫⁻ u, (N : ℝ≥0∞)⁻¹ * ∑ b : Fin N, (G u *
        ∫⁻ y, Lf sch.cond Ψ ss (initSt g0 (Function.update y b u)) b ∂(Measure.pi fun _ => μ)) ∂μ := by
        refine lintegral_congr fun u => ?_
        rw [← Finset.mul_sum]; ring
    _ = (N : ℝ≥0∞)⁻¹ * ∑ b : Fin N, ∫⁻ u, (G u *
        ∫⁻ y, Lf sch.cond Ψ ss (initSt g0 (Function.update y b u)) b ∂(Measure.pi fun _ => μ)) ∂μ := by
        rw [lintegral_const_mul, lintegral_finsetSum]
        · exact fun b _ => hG.mul (hin b)
        · exact Finset.measurable_sum _ fun b _ => hG.mul (hin b)
    _ = (N : ℝ≥0∞)⁻¹ * ∑ b : Fin N, ∫⁻ y, H b y ∂(Measure.pi fun _ : Fin N => μ) := by
        congr 1
        refine Finset.sum_congr rfl fun b _ => ?_
        rw [← lintegral_redraw (fun _ : Fin N => μ) b (hH b)]
        refine lintegral_congr fun u => ?_
        simp only [H, Function.update_self]
        rw [lintegral_const_mul]
        exact (hL _ _ (hstu b) b).comp (measurable_const.prodMk measurable_id)
    _ = ∫⁻ y, (N : ℝ≥0∞)⁻¹ * ∑ b : Fin N, H b y ∂(Measure.pi fun _ : Fin N => μ) := by
        rw [lintegral_const_mul, lintegral_finsetSum]
        · exact fun b _ => hH b
        · exact Finset.measurable_sum _ fun b _ => hH b
    _ = _ := by
        refine lintegral_congr fun y => ?_
        have := sum_Lf_eq_Rf sch ss 1 hΨ (initSt g0 y) (hsty.comp (f := fun _ : Unit => y) measurable_const)
          (normalise_weights _)
        rw [← this, Finset.mul_sum, Finset.mul_sum]
        refine Finset.sum_congr rfl fun b _ => ?_
        show (N : ℝ≥0∞)⁻¹ * (ENNReal.ofReal (Real.exp (g0 (y b))) * _) = _
        rw [← ofReal_normalise_mul (fun i => g0 (y i)) b]
        show _ = (N : ℝ≥0∞)⁻¹ * ENNReal.ofReal (∑ i, Real.exp (g0 (y i))) *
          (ENNReal.ofReal (normalise (fun i => g0 (y i)) b) * _)
        ring

/-! ### The program -/

theorem map_range_getD {α : Type} (l : List α) (d : α) :
    (List.range l.length).map (fun j => l.getD j d) = l := by
  apply List.ext_getElem
  · simp
  · intro i h1 h2
    simp [List.getElem?_eq_getElem h2]

theorem measSt_const {k : ℕ} {st : St N U} (h : ∀ i, (st.P i).length = k) (hH : st.H.length = k) :
    MeasSt (Z := Z) k (fun _ => st) := by
  refine ⟨measurable_const, measurable_const,
    ⟨fun _ i j => (st.P i).getD j (st.x i, i), measurable_const, fun _ i => ?_⟩,
    ⟨fun _ j => st.H.getD j (st.x, st.W), measurable_const, fun _ => ?_⟩⟩
  · rw [← h i, map_range_getD]
  · rw [← hH, map_range_getD]

omit [MeasurableSpace U] in
theorem trace_length (x0 : Fin N → U) (os : List ((Fin N → Fin N) × (Fin N → U))) :
    ∀ i, (trace x0 os i).length = os.length + 1 := by
  induction os using List.reverseRecOn with
  | nil => intro i; rfl
  | append_singleton os o ih =>
    obtain ⟨A, x⟩ := o
    intro i
    rw [trace_snoc]
    simp [ih]

theorem measurable_Cf_fixed [NeZero N] {c : (Fin N → ℝ) → Fin N → Fin N → (Fin N → Fin N) → ℝ≥0∞}
    (hc : ∀ i j A, Measurable fun w => c w i j A) {Ψ : St N U → Fin N → ℝ≥0∞}
    (ss : List (FKStep U)) (k : ℕ) (hΨ : MeasFun (k + ss.length) Ψ) {st : Z → St N U}
    (hst : MeasSt k st) (l : List (U × Fin N)) (hl : l.length = ss.length) (b : Fin N) :
    Measurable fun z => Cf c Ψ ss l (st z) b := by
  rcases isEmpty_or_nonempty Z with h | ⟨⟨z₀⟩⟩
  · exact measurable_of_empty _
  · have := measurable_Cf hc ss k hΨ Z st hst (fun _ j => l.getD j ((st z₀).x 0, 0)) measurable_const b
    rw [← hl, map_range_getD] at this
    exact this

theorem steps_length (S : StateSpace U V) : ∀ (v : V) (vs : List V) (ts : List ℝ),
    vs.length ≤ ts.length → (S.steps v vs ts).length = vs.length
  | _, [], ts, _ => by cases ts <;> rfl
  | _, v' :: vs, t :: ts, h => by
    simp only [StateSpace.steps, List.length_cons]
    rw [steps_length S v' vs ts (by simpa using h)]
  | _, _ :: _, [], h => by simp at h

theorem E_scan_cons {σ ι ο : Type} (body : σ → ι → Rand (σ × ο)) (s : σ) (i : ι) (is : List ι)
    (F : σ × List ο → ℝ≥0∞) :
    (Rand.scan body s (i :: is)).E F
      = (body s i).E (fun r => (Rand.scan body r.1 is).E (fun rs => F (rs.1, r.2 :: rs.2))) := by
  simp only [Rand.scan, Rand.E_bind, Rand.pure_eq, Rand.E_ret]

omit [MeasurableSpace U] in
theorem E_scanBody {m : Funs N U V} {res : CondResampling N} {lw : Fin N → ℝ} {x : Fin N → U}
    {v vp : V} {t : ℝ} {b b' : Fin N} {k : Key} {u : U} (F) :
    (scanBody m res (lw, x) (v, vp, t, b, b', k, u)).E F
      = (res (split k 2 0) (fun i => Real.exp (lw i)) b b' true).E (fun A =>
        (m.transSampler (take x A) vp t (split k 2 1)).E (fun raw =>
          F ((normaliseLog (m.lik v (take x A) vp t), atSet raw b' u),
            (normaliseLog (m.lik v (take x A) vp t), A, atSet raw b' u)))) := by
  simp only [scanBody, Rand.E_bind, Rand.pure_eq, Rand.E_ret]

theorem last_cons {α : Type} (a b : α) (l : List α) : Arr1.last (a, b :: l) = Arr1.last (b, l) := by
  simp [Arr1.last]

theorem E_scan_eq_Cf [NeZero N] {m : Funs N U V} {S : StateSpace U V} (hm : Implements m S)
    {res : CondResampling N} (sch : ExactScheme res) {Ψ : St N U → Fin N → ℝ≥0∞} (x0 : Fin N → U) :
    ∀ (l : List (U × Fin N)) (vs : List V) (ts : List ℝ) (ks : List Key),
    vs.length = l.length → ts.length = l.length → ks.length = l.length →
    ∀ (hs : List ((Fin N → Fin N) × (Fin N → U))) (HS : List ((Fin N → U) × (Fin N → ℝ))),
    HS.length = hs.length + 1 → MeasFun (hs.length + 1 + l.length) Ψ →
    ∀ u b v t (lw : Fin N → ℝ) (x : Fin N → U), Weights (fun i => Real.exp (lw i)) →
    (Rand.scan (scanBody m res) (lw, x)
      (scanInputs (u, l.map Prod.fst) (b, l.map Prod.snd) (v, vs) (t, ts) ks)).E
      (fun r => Ψ ⟨Arr1.last (x, r.2.map fun o => o.2.2), trace x0 (hs ++ r.2.map Prod.snd),
        fun i => Real.exp (Arr1.last (lw, r.2.map Prod.fst) i),
        (r.2.map fun o => (o.2.2, fun i => Real.exp (o.1 i))).reverse ++ HS⟩ (Arr1.last (b, l.map Prod.snd)))
    = Cf sch.cond Ψ (S.steps v vs (t :: ts)) l ⟨x, trace x0 hs, fun i => Real.exp (lw i), HS⟩ b := by
  intro l
  induction l with
  | nil =>
    intro vs ts ks hv ht hk hs HS hHS hΨ u b v t lw x hW
    simp only [List.length_nil, List.length_eq_zero_iff] at hv ht hk
    subst hv ht hk
    simp only [List.map_nil, scanInputs_nil, Rand.scan, Rand.pure_eq, Rand.E_ret, List.append_nil,
      StateSpace.steps, Cf]
    rfl
  | cons p l ih =>
    intro vs ts ks hv ht hk hs HS hHS hΨ u b v t lw x hW
    obtain ⟨u', b'⟩ := p
    obtain ⟨v', vs, rfl⟩ := List.exists_cons_of_length_eq_add_one hv
    obtain ⟨t', ts, rfl⟩ := List.exists_cons_of_length_eq_add_one ht
    obtain ⟨k', ks, rfl⟩ := List.exists_cons_of_length_eq_add_one hk
    simp only [List.map_cons, scanInputs_cons, E_scan_cons, E_scanBody, StateSpace.steps, Cf, last_cons]
    rw [sch.E_res _ _ hW]
    refine Finset.sum_congr rfl fun A _ => ?_
    congr 1
    -- the weights agree
    have hlik : m.lik v' (take x A) v t = fun i => S.logG v' v t (x (A i)) := by
      funext i; rw [hm.lik]; rfl
    have hΨ' : ∀ raw : Fin N → U, MeasFun ((hs ++ [(A, atSet raw b' u')]).length + 1 + l.length) Ψ := by
      intro raw
      have : (hs ++ [(A, atSet raw b' u')]).length + 1 + l.length = hs.length + 1 + (l.length + 1) := by
        simp; omega
      rw [this]; exact hΨ
    let s : FKStep U := ⟨S.trans v t, S.markov v t, S.logG v' v t, S.measG v' v t⟩
    have hrec : ∀ raw : Fin N → U,
        (Rand.scan (scanBody m res) (normaliseLog (m.lik v' (take x A) v t), atSet raw b' u')
          (scanInputs (u', l.map Prod.fst) (b', l.map Prod.snd) (v', vs) (t', ts) ks)).E
          (fun rs => Ψ ⟨Arr1.last (atSet raw b' u', rs.2.map fun o => o.2.2),
            trace x0 (hs ++ (A, atSet raw b' u') :: rs.2.map Prod.snd),
            fun i => Real.exp (Arr1.last (normaliseLog (m.lik v' (take x A) v t), rs.2.map Prod.fst) i),
            ((atSet raw b' u', fun i => Real.exp (normaliseLog (m.lik v' (take x A) v t) i)) ::
              rs.2.map fun o => (o.2.2, fun i => Real.exp (o.1 i))).reverse ++ HS⟩
            (Arr1.last (b', l.map Prod.snd)))
        = Cf sch.cond Ψ (S.steps v' vs (t' :: ts)) l
            (next s ⟨x, trace x0 hs, fun i => Real.exp (lw i), HS⟩ A (Function.update raw b' u')) b' := by
      intro raw
      have h := ih vs ts ks (by simpa using hv) (by simpa using ht) (by simpa using hk)
        (hs ++ [(A, atSet raw b' u')])
        ((atSet raw b' u', fun i => Real.exp (normaliseLog (m.lik v' (take x A) v t) i)) :: HS)
        (by simp [hHS]) (hΨ' raw) u' b' v' t'
        (normaliseLog (m.lik v' (take x A) v t)) (atSet raw b' u') (normalise_weights _)
      simp only [List.append_assoc, List.singleton_append] at h
      simp only [List.reverse_cons, List.append_assoc, List.singleton_append]
      rw [h]
      congr 1
      unfold next
      congr 1
      · funext i
        rw [trace_snoc]
        rfl
      · funext i
        show Real.exp (normaliseLog _ i) = Real.exp (normaliseLog _ i)
        rw [hlik]
      · rw [hlik]
        rfl
    simp only [hrec]
    rw [hm.trans]
    · rfl
    · have hk1 : MeasSt (Z := Fin N → U) (hs.length + 1)
          (fun _ => (⟨x, trace x0 hs, fun i => Real.exp (lw i), HS⟩ : St N U)) :=
        measSt_const (fun i => trace_length x0 hs i) hHS
      have hlen : (S.steps v' vs (t' :: ts)).length = l.length := by
        rw [steps_length]
        · simpa using hv
        · simp only [List.length_cons] at hv ht ⊢; omega
      refine measurable_Cf_fixed sch.meas _ (hs.length + 1 + 1) ?_
        (hk1.next s A (measurable_update_pi measurable_id measurable_const)) l hlen.symm b'
      rw [hlen]
      have : hs.length + 1 + 1 + l.length = hs.length + 1 + (l.length + 1) := by omega
      rw [this]; exact hΨ

/-- The final state of the particle system as recorded in the output of `forward_pass`. -/
noncomputable def finalSt (out : List (Fin N → Fin N) × Arr1 (Fin N → ℝ) × Arr1 (Fin N → U)) : St N U where
  x := out.2.2.last
  P := trace out.2.2.1 (out.1.zip out.2.2.2)
  W := fun i => Real.exp (out.2.1.last i)
  H := (out.2.2.toList.zip (out.2.1.toList.map fun lw i => Real.exp (lw i))).reverse

theorem E_forwardPass [NeZero N] {m : Funs N U V} {S : StateSpace U V} (hm : Implements m S)
    {res : CondResampling N} (sch : ExactScheme res) {Ψ : St N U → Fin N → ℝ≥0∞} (n : ℕ) (key : Key)
    (p : Arr1 (U × Fin N)) (vs : Arr1 V) (ts : Arr1 ℝ) (hv : vs.2.length = p.2.length)
    (ht : ts.2.length = p.2.length) (hΨ : MeasFun (1 + p.2.length) Ψ) :
    (forwardPass m res n key (p.map Prod.fst) (p.map Prod.snd) vs ts).E
      (fun out => Ψ (finalSt out) (p.map Prod.snd).last)
    = ∫⁻ y, Cf sch.cond Ψ (S.steps vs.1 vs.2 ts.toList) p.2
        (initSt (S.logG0 vs.1 (vs.2.headD vs.1)) (Function.update y p.1.2 p.1.1)) p.1.2
        ∂(Measure.pi fun _ => S.init) := by
  obtain ⟨⟨u, b⟩, l⟩ := p
  obtain ⟨v, vs⟩ := vs
  obtain ⟨t, ts⟩ := ts
  simp only at hv ht hΨ
  simp only [forwardPass, Rand.E_bind, Rand.pure_eq, Rand.E_ret, Arr1.map, Arr1.toList]
  have hzip : ∀ os : List ((Fin N → ℝ) × (Fin N → Fin N) × (Fin N → U)),
      (os.map fun o => o.2.1).zip (os.map fun o => o.2.2) = os.map Prod.snd := by
    intro os
    induction os with
    | nil => rfl
    | cons o os ih => simp [ih]
  have hzipH : ∀ os : List ((Fin N → ℝ) × (Fin N → Fin N) × (Fin N → U)),
      (os.map fun o => o.2.2).zip ((os.map fun o => o.1).map fun lw i => Real.exp (lw i))
        = os.map fun o => (o.2.2, fun i => Real.exp (o.1 i)) := by
    intro os
    induction os with
    | nil => rfl
    | cons o os ih => simpa using ih
  have hinit : ∀ x : Fin N → U, m.initLik v x (vs.headD v) = fun i => S.logG0 v (vs.headD v) (x i) := by
    intro x; funext i; exact hm.initLik _ _ _ _
  have key1 : ∀ raw : Fin N → U,
      (Rand.scan (scanBody m res) (normaliseLog (m.initLik v (atSet raw b u) (vs.headD v)), atSet raw b u)
        (scanInputs (u, l.map Prod.fst) (b, l.map Prod.snd) (v, vs) (t, ts)
          (splitAll (split key 2 1) (l.map Prod.fst).length))).E
        (fun r => Ψ (finalSt (r.2.map fun o => o.2.1,
          (normaliseLog (m.initLik v (atSet raw b u) (vs.headD v)), r.2.map fun o => o.1),
          (atSet raw b u, r.2.map fun o => o.2.2))) (Arr1.last (b, l.map Prod.snd)))
      = Cf sch.cond Ψ (S.steps v vs (t :: ts)) l
        (initSt (S.logG0 v (vs.headD v)) (Function.update raw b u)) b := by
    intro raw
    have h := E_scan_eq_Cf hm sch (Ψ := Ψ) (atSet raw b u) l vs ts
      (splitAll (split key 2 1) (l.map Prod.fst).length) hv ht (by simp [splitAll]) []
      [(atSet raw b u, fun i => Real.exp (normaliseLog (m.initLik v (atSet raw b u) (vs.headD v)) i))]
      (by simp) (by simpa using hΨ) u b v t (normaliseLog (m.initLik v (atSet raw b u) (vs.headD v)))
      (atSet raw b u) (normalise_weights _)
    simp only [List.nil_append] at h
    simp only [finalSt, hzip, Arr1.toList, List.map_cons, List.zip_cons_cons, List.reverse_cons, hzipH]
    refine h.trans ?_
    congr 1
    unfold initSt
    congr 1
    · funext i
      rw [hinit]
      rfl
    · rw [hinit]
      rfl
  simp only [key1]
  rw [hm.init]
  have hlen : (S.steps v vs (t :: ts)).length = l.length := by
    rw [steps_length]
    · simpa using hv
    · simp only [List.length_cons] at hv ht ⊢; omega
  refine measurable_Cf_fixed sch.meas _ 1 (by rw [hlen]; exact hΨ)
    (measSt_init (S.measG0 _ _) (measurable_update_pi measurable_id measurable_const)) l hlen.symm b

end Csmc
end Fbs
