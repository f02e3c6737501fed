import Verif.Lemmas.CondStability
import Verif.Props.ScoreStability
import Verif.Props.SmootherTarget
import Verif.Props.Toy
import Verif.Props.Ergodic
import Verif.Props.Consistency

/-!
# C88: what an error of the drift or of the score costs in the conditional laws
-/

open MeasureTheory ProbabilityTheory InformationTheory
open scoped ENNReal NNReal

namespace Fbs
namespace Spec

/-- The mean of `φ` under the smoothing law: the smoothing integral divided by the marginal likelihood. -/
noncomputable def StateSpace.smoothMean {U V : Type} [MeasurableSpace U] (S : StateSpace U V) (vs : Arr1 V)
    (ts : Arr1 ℝ) (φ : List U → ℝ≥0∞) : ℝ :=
  (S.smoothInt vs ts φ).toReal / (S.smoothInt vs ts fun _ => 1).toReal

end Spec

namespace Props

open Jax Simulators Spec Girsanov Toy Csmc

/-! ### Measurability -/

section Meas

variable {ζ : Type} [Fintype ζ] {drift : (ζ → ℝ) → ℝ → (ζ → ℝ)} (disp : ℝ → ℝ)

omit [Fintype ζ] in
theorem measurable_emStep_pair (hd : ∀ t, Measurable fun x => drift x t) (t t' : ℝ) {Z : Type} [MeasurableSpace Z]
    {a : Z → ζ → ℝ} (ha : Measurable a) :
    Measurable fun q : Z × (Fin 1 → ζ → ℝ) => emStep drift disp 1 (a q.1) t t' (List.ofFn q.2) := by
  simp only [emStep_unit]
  refine measurable_pi_iff.2 fun k => ?_
  have h1 : Measurable fun q : Z × (Fin 1 → ζ → ℝ) => a q.1 k :=
    (measurable_pi_apply k).comp (ha.comp measurable_fst)
  have h2 : Measurable fun q : Z × (Fin 1 → ζ → ℝ) => drift (a q.1) t k :=
    (measurable_pi_apply k).comp ((hd t).comp (ha.comp measurable_fst))
  have h3 : Measurable fun q : Z × (Fin 1 → ζ → ℝ) => q.2 0 k :=
    (measurable_pi_apply k).comp ((measurable_pi_apply 0).comp measurable_snd)
  exact (h1.add (h2.mul_const _)).add (h3.const_mul _)

theorem measurable_pathE (hd : ∀ t, Measurable fun x => drift x t) : ∀ (is : List (ℝ × ℝ)) {Z : Type} [MeasurableSpace Z]
    (f : Z → List (ζ → ℝ) → ℝ≥0∞), (Measurable fun q : Z × (ℕ → ζ → ℝ) => f q.1 ((List.range is.length).map q.2)) →
    ∀ a : Z → ζ → ℝ, Measurable a → Measurable fun z => pathE drift disp 1 is (a z) (f z) := by
  intro is
  induction is with
  | nil =>
    intro Z _ f hf a ha
    simp only [pathE]
    exact hf.comp (measurable_id.prodMk (measurable_const (a := fun _ => 0)))
  | cons i is ih =>
    intro Z _ f hf a ha
    obtain ⟨t, t'⟩ := i
    simp only [pathE]
    have hstep := measurable_emStep_pair disp hd t t' ha
    refine Measurable.lintegral_prod_right' (f := fun q : Z × (Fin 1 → ζ → ℝ) =>
      pathE drift disp 1 is (emStep drift disp 1 (a q.1) t t' (List.ofFn q.2))
        (fun l => f q.1 (emStep drift disp 1 (a q.1) t t' (List.ofFn q.2) :: l))) ?_
    refine ih (Z := Z × (Fin 1 → ζ → ℝ)) (fun q l => f q.1 (emStep drift disp 1 (a q.1) t t' (List.ofFn q.2) :: l)) ?_ _ hstep
    have hm : Measurable fun q : (Z × (Fin 1 → ζ → ℝ)) × (ℕ → ζ → ℝ) =>
        ((q.1.1, fun j => Nat.casesOn j (emStep drift disp 1 (a q.1.1) t t' (List.ofFn q.1.2)) q.2) : Z × (ℕ → ζ → ℝ)) :=
      (measurable_fst.comp measurable_fst).prodMk
        (measurable_seqCons (hstep.comp measurable_fst) measurable_snd)
    have := hf.comp hm
    convert this using 1
    funext q
    simp only [Function.comp_apply, List.length_cons, List.range_succ_eq_map, List.map_cons, List.map_map]
    rfl

theorem measurable_eulerPath_start (hd : ∀ t, Measurable fun x => drift x t) (key : Key) (ts : Arr1 ℝ)
    {φ : List (ζ → ℝ) → ℝ≥0∞} (hφ : MeasList (ts.2.length + 1) φ) :
    Measurable fun x => (eulerPath key x ts drift disp 1).E (fun p => φ p.toList) := by
  simp only [E_eulerPath]
  refine measurable_pathE disp hd _ (fun x l => φ (x :: l)) ?_ _ measurable_id
  have hl : (ts.init.zip ts.2).length = ts.2.length := by simp [Arr1.init]
  rw [hl]
  have hm : Measurable fun q : (ζ → ℝ) × (ℕ → ζ → ℝ) =>
      (Fin.cons q.1 fun j : Fin ts.2.length => q.2 j : Fin (ts.2.length + 1) → ζ → ℝ) := by
    refine measurable_pi_iff.2 fun j => ?_
    refine Fin.cases ?_ (fun j => ?_) j
    · exact measurable_fst
    · exact (measurable_pi_apply (j : ℕ)).comp measurable_snd
  have := Measurable.comp hφ hm
  convert this using 1
  funext q
  have hr : (List.range ts.2.length).map q.2 = List.ofFn fun j : Fin ts.2.length => q.2 j := by
    apply List.ext_getElem <;> simp
  simp only [Function.comp_apply, List.ofFn_cons, hr]

theorem measList_driftCost {b b' : (ζ → ℝ) → ℝ → (ζ → ℝ)} (hb : ∀ t, Measurable fun x => b x t)
    (hb' : ∀ t, Measurable fun x => b' x t) (t : ℝ) (l : List ℝ) :
    MeasList (l.length + 1) fun p => ENNReal.ofReal (driftCost b b' disp t l p) := by
  show Measurable fun q : Fin (l.length + 1) → ζ → ℝ => ENNReal.ofReal (driftCost b b' disp t l (List.ofFn q))
  simp only [driftCost_ofFn]
  refine Measurable.ennreal_ofReal (Finset.measurable_sum _ fun k _ => Measurable.const_mul
    (Finset.measurable_sum _ fun i _ => Measurable.pow_const ?_ _) _)
  have e1 : ∀ (d : (ζ → ℝ) → ℝ → (ζ → ℝ)), (∀ t, Measurable fun x => d x t) →
      Measurable fun q : Fin (l.length + 1) → ζ → ℝ => d (q k.castSucc) ((t :: l).getD k 0) i := fun d hd =>
    (measurable_pi_apply i).comp ((hd _).comp (measurable_pi_apply _))
  exact (e1 b hb).sub (e1 b' hb')

theorem uniformGrid_disp {dt : ℝ} {disp : ℝ → ℝ} : ∀ {ts : List ℝ} {t : ℝ}, UniformGrid dt disp t ts →
    ∀ s ∈ Arr1.init (t, ts), disp s ≠ 0
  | [], t, _, s, hs => by simp [Arr1.init] at hs
  | t' :: ts, t, h, s, hs => by
    have hi : Arr1.init (t, t' :: ts) = t :: Arr1.init (t', ts) := by simp [Arr1.init]
    rw [hi] at hs
    rcases List.mem_cons.1 hs with rfl | hs
    · exact h.2.1
    · exact uniformGrid_disp h.2.2 s hs

theorem uniformGrid_ne {dt : ℝ} (hdt : 0 < dt) {disp : ℝ → ℝ} : ∀ {ts : List ℝ} {t : ℝ}, UniformGrid dt disp t ts →
    ∀ i ∈ (Arr1.init (t, ts)).zip ts, i.1 ≠ i.2
  | [], t, _, i, hi => by simp at hi
  | t' :: ts, t, h, i, hi => by
    have e : Arr1.init (t, t' :: ts) = t :: Arr1.init (t', ts) := by simp [Arr1.init]
    rw [e, List.zip_cons_cons] at hi
    rcases List.mem_cons.1 hi with rfl | hi
    · have := h.1
      exact fun h2 => by simp only at h2; linarith
    · exact uniformGrid_ne hdt h.2.2 i hi

end Meas

/-! ### The joint law of the hidden path and the observations -/

section Main

variable {ι κ ζ : Type} [Fintype ι] [Fintype κ] [Fintype ζ] (e : ι ⊕ κ ≃ ζ) {b b' : (ζ → ℝ) → ℝ → (ζ → ℝ)}
  (hb : ∀ t, Measurable fun z => b z t) (hb' : ∀ t, Measurable fun z => b' z t) {disp : ℝ → ℝ} {dt : ℝ} (c c' : ℝ)
  (ref ref' : Measure (ι → ℝ)) [IsProbabilityMeasure ref] [IsProbabilityMeasure ref']

/-- A function of the hidden path and of the observations, jointly measurable on paths of `K` steps. -/
def MeasPair (ι κ : Type) (K : ℕ) (φ : List (ι → ℝ) → List (κ → ℝ) → ℝ≥0∞) : Prop :=
  Measurable fun q : (Fin (K + 1) → ι → ℝ) × (Fin K → κ → ℝ) => φ (List.ofFn q.1) (List.ofFn q.2)

/-- The smoothing integral, integrated over the observations. -/
noncomputable def jointInt (S : StateSpace (ι → ℝ) (κ → ℝ)) (v0 : κ → ℝ) (ts : Arr1 ℝ)
    (φ : List (ι → ℝ) → List (κ → ℝ) → ℝ≥0∞) : ℝ≥0∞ :=
  ∫⁻ w, S.smoothInt (v0, List.ofFn w) ts (fun l => φ l (List.ofFn w))
    ∂(Measure.pi fun _ : Fin ts.2.length => (volume : Measure (κ → ℝ)))

omit [Fintype ζ] [Fintype ι] [Fintype κ] in
theorem measList_pair {K : ℕ} {φ : List (ι → ℝ) → List (κ → ℝ) → ℝ≥0∞} (hφ : MeasPair ι κ K φ) :
    MeasList (K + 1) fun l : List (ζ → ℝ) => φ (l.map (unpackU e)) (l.tail.map (unpackV e)) := by
  have hm : Measurable fun q : Fin (K + 1) → ζ → ℝ =>
      ((fun j => unpackU e (q j), fun j : Fin K => unpackV e (q j.succ)) : (Fin (K + 1) → ι → ℝ) × (Fin K → κ → ℝ)) :=
    (measurable_pi_iff.2 fun j => (measurable_unpackU e).comp (measurable_pi_apply j)).prodMk
      (measurable_pi_iff.2 fun j => (measurable_unpackV e).comp (measurable_pi_apply _))
  have h := Measurable.comp hφ hm
  show Measurable fun q : Fin (K + 1) → ζ → ℝ => φ ((List.ofFn q).map (unpackU e)) ((List.ofFn q).tail.map (unpackV e))
  convert h using 1
  funext q
  have ht : (List.ofFn q).tail = List.ofFn fun i => q i.succ := by rw [List.ofFn_succ, List.tail_cons]
  simp only [Function.comp_apply, ht, List.map_ofFn]
  rfl

theorem jointInt_eq (hdt : 0 < dt) (ts : Arr1 ℝ) (hts : UniformGrid dt disp ts.1 ts.2) (v0 : κ → ℝ) (key : Key)
    {φ : List (ι → ℝ) → List (κ → ℝ) → ℝ≥0∞} (hφ : MeasPair ι κ ts.2.length φ) :
    jointInt (toyModel e hb disp dt c ref) v0 ts φ = ∫⁻ x, (eulerPath key x ts b disp 1).E
      (fun p => φ (p.toList.map (unpackU e)) (p.toList.tail.map (unpackV e))) ∂(ref.map fun u => concat e u v0) := by
  have hc : Measurable fun u : ι → ℝ => concat e u v0 :=
    (measurable_concat e).comp (measurable_id.prodMk measurable_const)
  rw [lintegral_map (measurable_eulerPath_start disp hb key ts (measList_pair e hφ)) hc]
  exact C59_path_law e hb c ref hdt ts hts v0 key hφ

theorem joint_gap (hdt : 0 < dt) (ts : Arr1 ℝ) (hts : UniformGrid dt disp ts.1 ts.2) (v0 : κ → ℝ) (key : Key) {B : ℝ≥0∞}
    (hB : B = klDiv ref ref' + ∫⁻ u0, (eulerPath key (concat e u0 v0) ts b disp 1).E
      (fun p => ENNReal.ofReal (driftCost b b' disp ts.1 ts.2 p.toList)) ∂ref) (hBt : B ≠ ∞)
    {φ : List (ι → ℝ) → List (κ → ℝ) → ℝ≥0∞} (hφ : MeasPair ι κ ts.2.length φ) (h1 : ∀ l m, φ l m ≤ 1) :
    |(jointInt (toyModel e hb disp dt c ref) v0 ts φ).toReal - (jointInt (toyModel e hb' disp dt c' ref') v0 ts φ).toReal| ≤
      Real.sqrt (B.toReal / 2) := by
  have hc : Measurable fun u : ι → ℝ => concat e u v0 :=
    (measurable_concat e).comp (measurable_id.prodMk measurable_const)
  have : IsProbabilityMeasure (ref.map fun u => concat e u v0) := Measure.isProbabilityMeasure_map hc.aemeasurable
  have : IsProbabilityMeasure (ref'.map fun u => concat e u v0) := Measure.isProbabilityMeasure_map hc.aemeasurable
  rw [jointInt_eq e hb c ref hdt ts hts v0 key hφ, jointInt_eq e hb' c' ref' hdt ts hts v0 key hφ]
  have hcost : ∫⁻ x, (eulerPath key x ts b disp 1).E (fun p => ENNReal.ofReal (driftCost b b' disp ts.1 ts.2 p.toList))
      ∂(ref.map fun u => concat e u v0) = ∫⁻ u0, (eulerPath key (concat e u0 v0) ts b disp 1).E
      (fun p => ENNReal.ofReal (driftCost b b' disp ts.1 ts.2 p.toList)) ∂ref :=
    lintegral_map (measurable_eulerPath_start disp hb key ts (measList_driftCost disp hb hb' ts.1 ts.2)) hc
  have hle : klDiv (ref.map fun u => concat e u v0) (ref'.map fun u => concat e u v0) +
      ∫⁻ x, (eulerPath key x ts b disp 1).E (fun p => ENNReal.ofReal (driftCost b b' disp ts.1 ts.2 p.toList))
        ∂(ref.map fun u => concat e u v0) ≤ B := by
    rw [hB, hcost]
    gcongr
    exact klDiv_map_le _ _ hc
  refine (C87_path disp hb hb' (uniformGrid_disp hts) (uniformGrid_ne hdt hts) (ref.map fun u => concat e u v0)
    (ref'.map fun u => concat e u v0) key key rfl (ne_top_of_le_ne_top hBt hle) (measList_pair e hφ)
    fun p => h1 _ _).trans ?_
  refine Real.sqrt_le_sqrt ?_
  have := ENNReal.toReal_mono hBt hle
  linarith

theorem jointInt_one (hdt : 0 < dt) (ts : Arr1 ℝ) (hts : UniformGrid dt disp ts.1 ts.2) (v0 : κ → ℝ) :
    jointInt (toyModel e hb disp dt c ref) v0 ts (fun _ _ => 1) = 1 := by
  have hc : Measurable fun u : ι → ℝ => concat e u v0 :=
    (measurable_concat e).comp (measurable_id.prodMk measurable_const)
  have : IsProbabilityMeasure (ref.map fun u => concat e u v0) := Measure.isProbabilityMeasure_map hc.aemeasurable
  rw [jointInt_eq e hb c ref hdt ts hts v0 [] (by unfold MeasPair; exact measurable_const)]
  have h := lintegral_eulerPath disp hb (ref.map fun u => concat e u v0) [] ts (φ := fun _ => 1)
    (by unfold MeasList; exact measurable_const)
  rw [h, lintegral_const]
  have := isProb_pathLaw (ref.map fun u => concat e u v0) _ (measurable_emMeanAt (gridAt ts) hb) (emVarAt disp (gridAt ts))
    ts.2.length
  rw [measure_univ, mul_one]

omit [Fintype ζ] in
theorem measurable_smoothInt (ts : Arr1 ℝ) (v0 : κ → ℝ) {φ : List (ι → ℝ) → List (κ → ℝ) → ℝ≥0∞}
    (hφ : MeasPair ι κ ts.2.length φ) : Measurable fun w : Fin ts.2.length → κ → ℝ =>
      (toyModel e hb disp dt c ref).smoothInt (v0, List.ofFn w) ts (fun l => φ l (List.ofFn w)) := by
  obtain ⟨t, ts⟩ := ts
  simp only at hφ
  have hm : Measurable fun q : (Fin ts.length → κ → ℝ) × (ι → ℝ) =>
      pathInt ((toyModel e hb disp dt c ref).steps v0 (List.ofFn q.1) (t :: ts)) q.2
        (fun l => φ (q.2 :: l) (List.ofFn q.1)) := by
    refine measurable_pathInt_toy e hb c ref (t :: ts) ts.length (by simp)
      (fun (q : (Fin ts.length → κ → ℝ) × (ι → ℝ)) l => φ (q.2 :: l) (List.ofFn q.1)) ?_
      measurable_snd measurable_const measurable_fst
    have hm : Measurable fun q : ((Fin ts.length → κ → ℝ) × (ι → ℝ)) × (ℕ → ι → ℝ) =>
        ((Fin.cons q.1.2 fun j : Fin ts.length => q.2 j, q.1.1) :
          (Fin (ts.length + 1) → ι → ℝ) × (Fin ts.length → κ → ℝ)) := by
      refine Measurable.prodMk (measurable_pi_iff.2 fun j => ?_) (measurable_fst.comp measurable_fst)
      refine Fin.cases ?_ (fun j => ?_) j
      · exact measurable_snd.comp measurable_fst
      · exact (measurable_pi_apply (j : ℕ)).comp measurable_snd
    have := Measurable.comp hφ hm
    convert this using 1
    funext q
    have hr : (List.range ts.length).map q.2 = List.ofFn fun j : Fin ts.length => q.2 j := by
      apply List.ext_getElem <;> simp
    simp only [Function.comp_apply, List.ofFn_cons, hr]
  exact hm.lintegral_prod_right'

theorem pathInt_add {U : Type} [MeasurableSpace U] : ∀ (ss : List (FKStep U)) (u : U) {f g : List U → ℝ≥0∞},
    (Measurable fun q : ℕ → U => f ((List.range ss.length).map q)) →
    pathInt ss u (fun l => f l + g l) = pathInt ss u f + pathInt ss u g
  | [], _, _, _, _ => rfl
  | s :: ss, u, f, g, hf => by
    have hf2 : Measurable fun q : U × (ℕ → U) => f (q.1 :: (List.range ss.length).map q.2) := by
      have h : Measurable fun q : U × (ℕ → U) => (fun j => Nat.casesOn j q.1 q.2 : ℕ → U) :=
        measurable_seqCons measurable_fst measurable_snd
      have := hf.comp h
      convert this using 1
      funext q
      simp only [Function.comp_apply, List.length_cons, List.range_succ_eq_map, List.map_cons, List.map_map]
      rfl
    simp only [pathInt]
    rw [lintegral_congr fun u' => pathInt_add ss u' (f := fun l => f (u' :: l)) (g := fun l => g (u' :: l))
      (hf2.comp (measurable_prodMk_left (x := u'))),
      lintegral_add_left (show Measurable fun u' => pathInt ss u' fun l => f (u' :: l) from
        measurable_pathInt_param ss (fun u' l => f (u' :: l)) hf2 id measurable_id), mul_add]

/-- The smoothing integral is additive. -/
theorem smoothInt_add {U V : Type} [MeasurableSpace U] (S : StateSpace U V) (vs : Arr1 V) (ts : Arr1 ℝ)
    (ht : ts.2.length = vs.2.length) {f g : List U → ℝ≥0∞} (hf : MeasList (vs.2.length + 1) f) :
    S.smoothInt vs ts (fun l => f l + g l) = S.smoothInt vs ts f + S.smoothInt vs ts g := by
  have hlen : (S.steps vs.1 vs.2 ts.toList).length = vs.2.length := Csmc.steps_length S vs.1 vs.2 ts.toList (by simp [Arr1.toList, ht])
  have hf2 : Measurable fun q : U × (ℕ → U) => f (q.1 :: (List.range vs.2.length).map q.2) := by
    have hm : Measurable fun q : U × (ℕ → U) =>
        (Fin.cons q.1 fun j : Fin vs.2.length => q.2 j : Fin (vs.2.length + 1) → U) := by
      refine measurable_pi_iff.2 fun j => ?_
      refine Fin.cases ?_ (fun j => ?_) j
      · exact measurable_fst
      · exact (measurable_pi_apply (j : ℕ)).comp measurable_snd
    have := Measurable.comp hf hm
    convert this using 1
    funext q
    have hr : (List.range vs.2.length).map q.2 = List.ofFn fun j : Fin vs.2.length => q.2 j := by
      apply List.ext_getElem <;> simp
    simp only [Function.comp_apply, List.ofFn_cons, hr]
  unfold StateSpace.smoothInt
  rw [lintegral_congr fun u => pathInt_add _ u (f := fun l => f (u :: l)) (g := fun l => g (u :: l)) (by
    rw [hlen]; exact hf2.comp (measurable_prodMk_left (x := u)))]
  exact lintegral_add_left (measurable_pathInt_param _ (fun u l => f (u :: l)) (by rw [hlen]; exact hf2) id measurable_id) _

theorem smoothInt_const {U V : Type} [MeasurableSpace U] (S : StateSpace U V) (vs : Arr1 V) (ts : Arr1 ℝ) {r : ℝ≥0∞}
    (hr : r ≠ ∞) : S.smoothInt vs ts (fun _ => r) = (S.smoothInt vs ts fun _ => 1) * r := by
  unfold StateSpace.smoothInt
  rw [← lintegral_mul_const' _ _ hr]
  refine lintegral_congr fun u => ?_
  have := pathInt_const_mul r (F := fun _ : U => 1) measurable_const (S.steps vs.1 vs.2 ts.toList) u
  rw [mul_comm]
  simpa using this

/-- The array with the entries of a list. -/
def toFn {α : Type} [Zero α] (K : ℕ) (m : List α) : Fin K → α := fun i => m.getD i 0

theorem toFn_ofFn {α : Type} [Zero α] {K : ℕ} (w : Fin K → α) : toFn K (List.ofFn w) = w := by
  funext i
  simp [toFn, List.getD_eq_getElem?_getD]

theorem le_add_of_gap {x y : ℝ≥0∞} (hx : x ≤ 1) (hy : y ≤ 1) {δ : ℝ} (h : |x.toReal - y.toReal| ≤ δ) :
    x ≤ y + ENNReal.ofReal δ := by
  have hδ : 0 ≤ δ := (abs_nonneg _).trans h
  have hx' := ne_top_of_le_ne_top ENNReal.one_ne_top hx
  have hy' := ne_top_of_le_ne_top ENNReal.one_ne_top hy
  rw [← ENNReal.ofReal_toReal hx', ← ENNReal.ofReal_toReal hy', ← ENNReal.ofReal_add ENNReal.toReal_nonneg hδ]
  exact ENNReal.ofReal_le_ofReal (by linarith [(abs_le.1 h).2])

/-! ### C88 -/

/-- **C88, smoothing laws.**  Two sets of functions built as in the experiments from the drifts `b`, `b'` and the start laws `ref`,
`ref'`.  On average over the observations of the run with `b`, the conditional means of every `φ` with values in `[0, 1]` of the
hidden path and of the observations differ by at most `2 √(B / 2)`, with `B` the relative entropy of the start laws plus the mean
cost of the difference of the drifts. -/
theorem C88_smoothing (hdt : 0 < dt) (ts : Arr1 ℝ) (hts : UniformGrid dt disp ts.1 ts.2) (v0 : κ → ℝ) (key : Key) {B : ℝ≥0∞}
    (hB : B = klDiv ref ref' + ∫⁻ u0, (eulerPath key (concat e u0 v0) ts b disp 1).E
      (fun p => ENNReal.ofReal (driftCost b b' disp ts.1 ts.2 p.toList)) ∂ref) (hBt : B ≠ ∞)
    {φ : List (ι → ℝ) → List (κ → ℝ) → ℝ≥0∞} (hφ : MeasPair ι κ ts.2.length φ) (h1 : ∀ l m, φ l m ≤ 1) :
    ∫⁻ w, (toyModel e hb disp dt c ref).smoothInt (v0, List.ofFn w) ts (fun _ => 1) *
        ENNReal.ofReal |(toyModel e hb disp dt c ref).smoothMean (v0, List.ofFn w) ts (fun l => φ l (List.ofFn w)) -
          (toyModel e hb' disp dt c' ref').smoothMean (v0, List.ofFn w) ts (fun l => φ l (List.ofFn w))|
        ∂(Measure.pi fun _ : Fin ts.2.length => (volume : Measure (κ → ℝ))) ≤
      2 * ENNReal.ofReal (Real.sqrt (B.toReal / 2)) := by
  set K := ts.2.length with hK
  have hφ1 : MeasPair ι κ K fun l m => 1 - φ l m := Measurable.const_sub hφ 1
  have hone : MeasPair ι κ K fun _ _ => 1 := by unfold MeasPair; exact measurable_const
  have hjle : ∀ {S : StateSpace (ι → ℝ) (κ → ℝ)}, jointInt S v0 ts (fun _ _ => 1) = 1 →
      ∀ {ψ : List (ι → ℝ) → List (κ → ℝ) → ℝ≥0∞}, (∀ l m, ψ l m ≤ 1) → jointInt S v0 ts ψ ≤ 1 := by
    intro S hS ψ hψ
    rw [← hS]
    refine lintegral_mono fun w => lintegral_mono fun u => ?_
    have hmono : ∀ (ss : List (FKStep (ι → ℝ))) (u : ι → ℝ) {f g : List (ι → ℝ) → ℝ≥0∞}, (∀ l, f l ≤ g l) →
        pathInt ss u f ≤ pathInt ss u g := by
      intro ss
      induction ss with
      | nil => intro u f g h; exact h []
      | cons s ss ih => intro u f g h; exact mul_le_mul_right (lintegral_mono fun u' => ih u' fun l => h _) _
    exact hmono _ _ fun l => hψ _ _
  have j1 := jointInt_one e hb c ref hdt ts hts v0
  have j1' := jointInt_one e hb' c' ref' hdt ts hts v0
  have hadd : ∀ (S : StateSpace (ι → ℝ) (κ → ℝ)) (w : Fin K → κ → ℝ),
      S.smoothInt (v0, List.ofFn w) ts (fun l => φ l (List.ofFn w)) +
        S.smoothInt (v0, List.ofFn w) ts (fun l => 1 - φ l (List.ofFn w)) =
        S.smoothInt (v0, List.ofFn w) ts (fun _ => 1) := by
    intro S w
    rw [← smoothInt_add S (v0, List.ofFn w) ts (by simp [hK])]
    · congr 1
      funext l
      exact add_tsub_cancel_of_le (h1 _ _)
    · have : Measurable fun q : Fin (K + 1) → ι → ℝ => φ (List.ofFn q) (List.ofFn w) :=
        Measurable.comp hφ (measurable_id.prodMk (measurable_const (a := w)))
      unfold MeasList
      rw [List.length_ofFn]
      exact this
  refine CondStability.cond_stability
    (b := fun w => (toyModel e hb disp dt c ref).smoothInt (v0, List.ofFn w) ts (fun l => 1 - φ l (List.ofFn w)))
    (b' := fun w => (toyModel e hb' disp dt c' ref').smoothInt (v0, List.ofFn w) ts (fun l => 1 - φ l (List.ofFn w)))
    (measurable_smoothInt e hb' c' ref' ts v0 hφ) (measurable_smoothInt e hb' c' ref' ts v0 hφ1)
    (measurable_smoothInt e hb c ref ts v0 hone) (measurable_smoothInt e hb' c' ref' ts v0 hone)
    (hadd _) (hadd _) j1 j1' (measurable_smoothInt e hb c ref ts v0 hφ) (fun S hS => ?_) (fun ρ hρ hρ1 => ?_)
  · classical
    set ψ : List (ι → ℝ) → List (κ → ℝ) → ℝ≥0∞ := fun l m =>
      if toFn K m ∈ S then φ l m else 1 - φ l m with hψ
    have hψm : MeasPair ι κ K ψ := by
      unfold MeasPair
      simp only [hψ, toFn_ofFn]
      exact Measurable.ite (measurable_snd hS) hφ hφ1
    have hψ1 : ∀ l m, ψ l m ≤ 1 := fun l m => by
      simp only [hψ]
      split
      · exact h1 _ _
      · exact tsub_le_self
    have hval : ∀ (M : StateSpace (ι → ℝ) (κ → ℝ)), jointInt M v0 ts ψ =
        ∫⁻ w, S.indicator (fun w => M.smoothInt (v0, List.ofFn w) ts (fun l => φ l (List.ofFn w))) w +
          Sᶜ.indicator (fun w => M.smoothInt (v0, List.ofFn w) ts (fun l => 1 - φ l (List.ofFn w))) w
          ∂(Measure.pi fun _ : Fin K => (volume : Measure (κ → ℝ))) := by
      intro M
      refine lintegral_congr fun w => ?_
      by_cases h : w ∈ S
      · simp [hψ, toFn_ofFn, h]
      · simp [hψ, toFn_ofFn, h]
    rw [← hval, ← hval]
    exact le_add_of_gap (hjle j1 hψ1) (hjle j1' hψ1) (joint_gap e hb hb' c c' ref ref' hdt ts hts v0 key hB hBt hψm hψ1)
  · set ψ : List (ι → ℝ) → List (κ → ℝ) → ℝ≥0∞ := fun _ m => ρ (toFn K m) with hψ
    have hψm : MeasPair ι κ K ψ := by
      unfold MeasPair
      simp only [hψ, toFn_ofFn]
      exact hρ.comp measurable_snd
    have hψ1 : ∀ l m, ψ l m ≤ 1 := fun l m => hρ1 _
    have hval : ∀ (M : StateSpace (ι → ℝ) (κ → ℝ)), jointInt M v0 ts ψ =
        ∫⁻ w, M.smoothInt (v0, List.ofFn w) ts (fun _ => 1) * ρ w
          ∂(Measure.pi fun _ : Fin K => (volume : Measure (κ → ℝ))) := by
      intro M
      refine lintegral_congr fun w => ?_
      rw [← smoothInt_const M _ ts (ne_top_of_le_ne_top ENNReal.one_ne_top (hρ1 w))]
      simp only [hψ, toFn_ofFn]
    rw [← hval, ← hval]
    exact le_add_of_gap (hjle j1' hψ1) (hjle j1 hψ1) (by
      rw [abs_sub_comm]; exact joint_gap e hb hb' c c' ref ref' hdt ts hts v0 key hB hBt hψm hψ1)

theorem smoothInt_last {U V : Type} [MeasurableSpace U] [Zero U] (S : StateSpace U V) (vs : Arr1 V) (ts : Arr1 ℝ)
    (f : U → ℝ≥0∞) : S.smoothInt vs ts (fun l => f (l.getLastD 0)) = S.filterInt vs ts f := by
  unfold StateSpace.smoothInt StateSpace.filterInt
  refine lintegral_congr fun u => ?_
  congr 1
  funext l
  simp only [List.getLastD_cons]

/-- **C88, filtering laws.**  The same for the means under the filtering laws at the last time, which are the laws that the
particle filters approximate. -/
theorem C88_filtering (hdt : 0 < dt) (ts : Arr1 ℝ) (hts : UniformGrid dt disp ts.1 ts.2) (v0 : κ → ℝ) (key : Key) {B : ℝ≥0∞}
    (hB : B = klDiv ref ref' + ∫⁻ u0, (eulerPath key (concat e u0 v0) ts b disp 1).E
      (fun p => ENNReal.ofReal (driftCost b b' disp ts.1 ts.2 p.toList)) ∂ref) (hBt : B ≠ ∞)
    {φ : (ι → ℝ) → ℝ} (hφ : Measurable φ) (h1 : ∀ u, φ u ≤ 1) :
    ∫⁻ w, (toyModel e hb disp dt c ref).filterInt (v0, List.ofFn w) ts (fun _ => 1) *
        ENNReal.ofReal |(toyModel e hb disp dt c ref).filterMean (v0, List.ofFn w) ts φ -
          (toyModel e hb' disp dt c' ref').filterMean (v0, List.ofFn w) ts φ|
        ∂(Measure.pi fun _ : Fin ts.2.length => (volume : Measure (κ → ℝ))) ≤
      2 * ENNReal.ofReal (Real.sqrt (B.toReal / 2)) := by
  have hlast : ∀ {K : ℕ} (q : Fin (K + 1) → ι → ℝ), (List.ofFn q).getLastD 0 = q (Fin.last K) := fun q => by
    rw [List.ofFn_succ', List.concat_eq_append]
    simp
  have hm : MeasPair ι κ ts.2.length fun l _ => ENNReal.ofReal (φ (l.getLastD 0)) := by
    unfold MeasPair
    simp only [hlast]
    exact (hφ.comp ((measurable_pi_apply _).comp measurable_fst)).ennreal_ofReal
  have h := C88_smoothing e hb hb' c c' ref ref' hdt ts hts v0 key hB hBt hm fun l m => by
    simpa using ENNReal.ofReal_le_ofReal (h1 (l.getLastD 0))
  simp only [StateSpace.smoothMean, smoothInt_last _ _ _ fun u => ENNReal.ofReal (φ u)] at h
  exact h

/-! ### Particle filters -/

theorem E_filter_const {N : ℕ} [NeZero N] {U V : Type} [MeasurableSpace U] {m : Smc.Funs N U V} {S : StateSpace U V}
    {vs : Arr1 V} (hm : SmcImplements m S vs.1) {res : Smc.Resampling N} (hres : UnbiasedSums res) (hvar : SmallVariance res)
    (ts : Arr1 ℝ) (key : Key) (log rl : Bool) (x : ℝ≥0∞) :
    (Smc.bootstrapFilter m res vs ts key log rl).E (fun _ => x) = x := by
  have hN : (N : ℝ≥0∞) ≠ 0 := by exact_mod_cast NeZero.ne N
  have hr : ∀ w k, Weights w → (res w k).E (fun _ => x) = x := by
    intro w k hw
    obtain ⟨q, hq, -⟩ := hvar w k hw
    have h1 := hres w k hw fun _ => 1
    rw [hq] at h1
    have hs : ∑ i, ENNReal.ofReal (w i) = 1 := by
      rw [← ENNReal.ofReal_sum_of_nonneg fun i _ => hw.1 i, hw.2, ENNReal.ofReal_one]
    simp only [Finset.sum_const, Finset.card_univ, Fintype.card_fin, nsmul_eq_mul, mul_one, hs, ← Finset.sum_mul] at h1
    have h2 : ∑ a, q a = 1 := by
      have h3 := congrArg (· * (N : ℝ≥0∞)⁻¹) h1
      simpa [mul_assoc, ENNReal.mul_inv_cancel hN (ENNReal.natCast_ne_top N)] using h3
    rw [hq, ← Finset.sum_mul, h2, one_mul]
  have hbody : ∀ {ο : Type} (emit : (Fin N → U) → ο) s i, (Smc.filterBody m res emit s i).E (fun _ => x) = x := by
    intro ο emit s i
    obtain ⟨us, l⟩ := s
    obtain ⟨v, v', t, k⟩ := i
    simp only [Smc.filterBody, Rand.E_bind, Rand.pure_eq, Rand.E_ret]
    have hw : Weights fun i => Real.exp (m.lik v us v' t i - logsumexp (m.lik v us v' t)) := normalise_weights _
    simp only [hr _ _ hw]
    rw [hm.trans _ _ _ _ (fun _ => x) measurable_const]
    simp
  have hscan : ∀ {ο : Type} (emit : (Fin N → U) → ο) (is : List (Smc.StepIn V)) s,
      (Rand.scan (Smc.filterBody m res emit) s is).E (fun _ => x) = x := by
    intro ο emit is
    induction is with
    | nil => intro s; rfl
    | cons i is ih =>
      intro s
      simp only [Rand.scan, Rand.E_bind, Rand.pure_eq, Rand.E_ret, ih, hbody]
  have hi : (m.initSampler (split key 2 0) vs.1 N).E (fun _ => x) = x := by
    rw [hm.init _ _ (fun _ => x) measurable_const]
    simp
  unfold Smc.bootstrapFilter
  cases rl <;> simp [Rand.E_bind, Rand.pure_eq, Rand.E_ret, hscan, hi]

omit [Fintype ι] [Fintype ζ] in
theorem toyLogG_le (v v' : κ → ℝ) (t : ℝ) (u : ι → ℝ) : toyLogG e b disp dt v v' t u ≤
    ∑ _i : κ, -Real.log (2 * Real.pi * (Real.sqrt dt * disp t) ^ 2) / 2 := by
  refine Finset.sum_le_sum fun i _ => ?_
  unfold Linear.normLogpdf
  have : 0 ≤ (v i - (v' i + driftV e b v' u t i * dt)) ^ 2 / (Real.sqrt dt * disp t) ^ 2 := by positivity
  linarith

omit [Fintype ζ] in
/-- The likelihoods are bounded on the grid. -/
theorem exists_steps_bound : ∀ (ts : List ℝ), ∃ β : ℝ, ∀ (v : κ → ℝ) (vs : List (κ → ℝ)),
    ∀ s ∈ (toyModel e hb disp dt c ref).steps v vs ts, ∀ u, s.g u ≤ β
  | [] => ⟨0, fun v vs s hs => by cases vs <;> simp [StateSpace.steps] at hs⟩
  | t :: ts => by
    obtain ⟨β, hβ⟩ := exists_steps_bound ts
    refine ⟨max β (∑ _i : κ, -Real.log (2 * Real.pi * (Real.sqrt dt * disp t) ^ 2) / 2), fun v vs s hs u => ?_⟩
    cases vs with
    | nil => simp [StateSpace.steps] at hs
    | cons v' vs =>
      simp only [StateSpace.steps, List.mem_cons] at hs
      rcases hs with rfl | hs
      · exact (toyLogG_le e v' v t u).trans (le_max_right _ _)
      · exact (hβ v' vs s hs u).trans (le_max_left _ _)

theorem mean_abs_of_sq {α : Type} (p : Rand α) (x : α → ℝ) {r d q : ℝ} (hd : 0 ≤ d) (hq : 0 < q)
    (h : ∀ e, 0 ≤ e → p.E (fun a => ENNReal.ofReal ((x a - r) ^ 2 + e)) ≤ ENNReal.ofReal (q + e)) :
    p.E (fun a => ENNReal.ofReal (|x a - r| + d)) ≤ ENNReal.ofReal (Real.sqrt q + d) := by
  have hs : 0 < Real.sqrt q := Real.sqrt_pos.2 hq
  have hs2 : Real.sqrt q ^ 2 = q := Real.sq_sqrt hq.le
  set θ := Real.sqrt q with hθ
  have he : 0 ≤ q + 2 * θ * d := by positivity
  calc p.E (fun a => ENNReal.ofReal (|x a - r| + d))
      ≤ p.E (fun a => ENNReal.ofReal (1 / (2 * θ)) * ENNReal.ofReal ((x a - r) ^ 2 + (q + 2 * θ * d))) := by
        refine Rand.E_mono _ fun a => ?_
        rw [← ENNReal.ofReal_mul (by positivity)]
        refine ENNReal.ofReal_le_ofReal ?_
        have h1 : 0 ≤ (|x a - r| - θ) ^ 2 := sq_nonneg _
        have h2 : |x a - r| ^ 2 = (x a - r) ^ 2 := sq_abs _
        rw [one_div, inv_mul_eq_div, le_div_iff₀ (by positivity), ← h2, ← hs2]
        nlinarith
    _ = ENNReal.ofReal (1 / (2 * θ)) * p.E (fun a => ENNReal.ofReal ((x a - r) ^ 2 + (q + 2 * θ * d))) :=
        Rand.E_const_mul _ ENNReal.ofReal_ne_top _
    _ ≤ ENNReal.ofReal (1 / (2 * θ)) * ENNReal.ofReal (q + (q + 2 * θ * d)) := by gcongr; exact h _ he
    _ = ENNReal.ofReal (θ + d) := by
        rw [← ENNReal.ofReal_mul (by positivity)]
        congr 1
        field_simp
        rw [← hs2]
        ring

/-- **C88, particle filters.**  `bootstrap_filter` with the functions of an approximate drift `b'` (and an approximate start law), on
observations of the exact run: for enough particles, the mean distance between the average of `φ` over the final particles and
the exact conditional mean is at most `2 √(B / 2)` plus any given `η > 0`. -/
theorem C88_particle_filter (hdt : 0 < dt) (ts : Arr1 ℝ) (hts : UniformGrid dt disp ts.1 ts.2) (v0 : κ → ℝ) (key : Key)
    {B : ℝ≥0∞} (hB : B = klDiv ref ref' + ∫⁻ u0, (eulerPath key (concat e u0 v0) ts b disp 1).E
      (fun p => ENNReal.ofReal (driftCost b b' disp ts.1 ts.2 p.toList)) ∂ref) (hBt : B ≠ ∞)
    {φ : (ι → ℝ) → ℝ} (hφ : Measurable φ) (h0 : ∀ u, 0 ≤ φ u) (h1 : ∀ u, φ u ≤ 1) {η : ℝ} (hη : 0 < η) :
    ∃ N₀ : ℕ, ∀ (N : ℕ) [NeZero N], N₀ ≤ N → ∀ (m : Smc.Funs N (ι → ℝ) (κ → ℝ)) (res : Smc.Resampling N),
      SmcImplements m (toyModel e hb' disp dt c' ref') v0 → UnbiasedSums res → SmallVariance res →
      ∀ (key' : Key) (log rl : Bool),
      ∫⁻ w, (toyModel e hb disp dt c ref).filterInt (v0, List.ofFn w) ts (fun _ => 1) *
          (Smc.bootstrapFilter m res (v0, List.ofFn w) ts key' log rl).E (fun out => ENNReal.ofReal
            |(∑ i, φ (out.final i)) / N - (toyModel e hb disp dt c ref).filterMean (v0, List.ofFn w) ts φ|)
          ∂(Measure.pi fun _ : Fin ts.2.length => (volume : Measure (κ → ℝ))) ≤
        ENNReal.ofReal (2 * Real.sqrt (B.toReal / 2) + η) := by
  set K := ts.2.length with hK
  set S := toyModel e hb disp dt c ref with hS
  set S' := toyModel e hb' disp dt c' ref' with hS'
  obtain ⟨β, hβ⟩ := exists_steps_bound e hb' (disp := disp) (dt := dt) c' ref' ts.toList
  set A : (Fin K → κ → ℝ) → ℝ≥0∞ := fun w => S.filterInt (v0, List.ofFn w) ts (fun _ => 1) with hA
  set Z : (Fin K → κ → ℝ) → ℝ := fun w => (S'.filterInt (v0, List.ofFn w) ts (fun _ => 1)).toReal with hZ
  have hAm : Measurable A := measurable_smoothInt e hb c ref ts v0 (φ := fun _ _ => 1) (by unfold MeasPair; exact measurable_const)
  have hZm : Measurable Z := (measurable_smoothInt e hb' c' ref' ts v0 (φ := fun _ _ => 1)
    (by unfold MeasPair; exact measurable_const)).ennreal_toReal
  have hI : ∫⁻ w, A w ∂(Measure.pi fun _ : Fin K => (volume : Measure (κ → ℝ))) = 1 := jointInt_one e hb c ref hdt ts hts v0
  have hZpos : ∀ w, 0 < Z w := fun w => filterInt_one_pos (v0, List.ofFn w) ts (hβ v0 (List.ofFn w))
  set C : ℝ := (2 * K + 1) * Real.exp β ^ (2 * K) with hC
  have hCpos : 0 < C := by positivity
  set Q : ℕ → (Fin K → κ → ℝ) → ℝ := fun N w => Real.sqrt (4 * (C / N) / Z w ^ 2) with hQ
  set err : ℕ → (Fin K → κ → ℝ) → ℝ≥0∞ := fun N w => A w * min 1 (ENNReal.ofReal (Q N w)) with herr
  have herrm : ∀ N, Measurable (err N) := fun N =>
    hAm.mul (measurable_const.min ((measurable_const.div (hZm.pow_const 2)).sqrt.ennreal_ofReal))
  have hlim : Filter.Tendsto (fun N => ∫⁻ w, err N w ∂(Measure.pi fun _ : Fin K => (volume : Measure (κ → ℝ))))
      Filter.atTop (nhds 0) := by
    have h := tendsto_lintegral_of_dominated_convergence (μ := Measure.pi fun _ : Fin K => (volume : Measure (κ → ℝ)))
      (F := err) (f := fun _ => 0) A herrm
      (fun N => Filter.Eventually.of_forall fun w => mul_le_of_le_one_right' (min_le_left _ _)) (by rw [hI]; simp)
      ((ae_lt_top hAm (by rw [hI]; simp)).mono fun w hw => ?_)
    · simpa using h
    · have h2 : Filter.Tendsto (fun N : ℕ => Q N w) Filter.atTop (nhds 0) := by
        have h3 : Filter.Tendsto (fun N : ℕ => 4 * (C / N) / Z w ^ 2) Filter.atTop (nhds 0) := by
          have := ((tendsto_const_div_atTop_nhds_zero_nat C).const_mul 4).div_const (Z w ^ 2)
          simpa using this
        have := (Real.continuous_sqrt.tendsto 0).comp h3
        rw [Real.sqrt_zero] at this
        exact this
      have h4 : Filter.Tendsto (fun N : ℕ => min 1 (ENNReal.ofReal (Q N w))) Filter.atTop (nhds 0) := by
        have := (tendsto_const_nhds (x := (1 : ℝ≥0∞))).min (ENNReal.tendsto_ofReal h2)
        simpa using this
      have := ENNReal.Tendsto.const_mul h4 (Or.inr hw.ne)
      simpa using this
  obtain ⟨N₀, hN₀⟩ := (ENNReal.tendsto_atTop_zero.1 hlim) (ENNReal.ofReal η) (by simpa using hη)
  refine ⟨N₀, fun N _ hN m res hm hres hvar key' log rl => ?_⟩
  have hNpos : (0 : ℝ) < N := by exact_mod_cast Nat.pos_of_ne_zero (NeZero.ne N)
  set d : (Fin K → κ → ℝ) → ℝ := fun w =>
    |S.filterMean (v0, List.ofFn w) ts φ - S'.filterMean (v0, List.ofFn w) ts φ| with hd
  have hpt : ∀ w, (Smc.bootstrapFilter m res (v0, List.ofFn w) ts key' log rl).E (fun out => ENNReal.ofReal
      |(∑ i, φ (out.final i)) / N - S.filterMean (v0, List.ofFn w) ts φ|) ≤
      ENNReal.ofReal (d w) + min 1 (ENNReal.ofReal (Q N w)) := by
    intro w
    have hdw : 0 ≤ d w := abs_nonneg _
    have hle : ∀ out : Smc.FilterOut N (ι → ℝ), |(∑ i, φ (out.final i)) / N - S.filterMean (v0, List.ofFn w) ts φ| ≤
        |(∑ i, φ (out.final i)) / N - S'.filterMean (v0, List.ofFn w) ts φ| + d w := by
      intro out
      have := abs_sub_le ((∑ i, φ (out.final i)) / N) (S'.filterMean (v0, List.ofFn w) ts φ)
        (S.filterMean (v0, List.ofFn w) ts φ)
      rw [abs_sub_comm (S'.filterMean (v0, List.ofFn w) ts φ)] at this
      exact this
    have hmean : ∀ f, 0 ≤ S'.filterMean (v0, List.ofFn w) ts f := fun f =>
      div_nonneg ENNReal.toReal_nonneg ENNReal.toReal_nonneg
    have hmean1 : S'.filterMean (v0, List.ofFn w) ts φ ≤ 1 := by
      refine div_le_one_of_le₀ (ENNReal.toReal_mono ?_ ?_) ENNReal.toReal_nonneg
      · intro h
        have := hZpos w
        simp [hZ, h] at this
      · refine lintegral_mono fun u => ?_
        have hmono : ∀ (ss : List (FKStep (ι → ℝ))) (u : ι → ℝ) {f g : List (ι → ℝ) → ℝ≥0∞}, (∀ l, f l ≤ g l) →
            pathInt ss u f ≤ pathInt ss u g := by
          intro ss
          induction ss with
          | nil => intro u f g h; exact h []
          | cons s ss ih => intro u f g h; exact mul_le_mul_right (lintegral_mono fun u' => ih u' fun l => h _) _
        exact hmono _ _ fun l => by simpa using ENNReal.ofReal_le_ofReal (h1 (l.getLastD u))
    rw [← min_add_add_left]
    refine le_min ?_ ?_
    · have h5 : ENNReal.ofReal (d w) + 1 = ENNReal.ofReal (d w + 1) := by
        rw [ENNReal.ofReal_add hdw zero_le_one, ENNReal.ofReal_one]
      rw [h5, ← E_filter_const (vs := (v0, List.ofFn w)) hm hres hvar ts key' log rl (ENNReal.ofReal (d w + 1))]
      refine Rand.E_mono _ fun out => ENNReal.ofReal_le_ofReal ((hle out).trans ?_)
      have h6 := avg_nonneg h0 out.final
      have h7 := avg_le_one h1 out.final
      have h8 := hmean φ
      have : |(∑ i, φ (out.final i)) / N - S'.filterMean (v0, List.ofFn w) ts φ| ≤ 1 := abs_le.2 ⟨by linarith, by linarith⟩
      linarith
    · rw [← ENNReal.ofReal_add hdw (Real.sqrt_nonneg _), add_comm]
      refine (Rand.E_mono _ fun out => ENNReal.ofReal_le_ofReal (hle out)).trans ?_
      refine mean_abs_of_sq _ _ hdw (by have := hZpos w; positivity) fun e he => ?_
      have := filter_mean_sq (v0, List.ofFn w) ts hm hres hvar (by simp [hK]) (hβ v0 (List.ofFn w)) key' log rl hφ h0 h1 he
      simpa [hC, hZ] using this
  calc _ ≤ ∫⁻ w, A w * ENNReal.ofReal (d w) + err N w ∂(Measure.pi fun _ : Fin K => (volume : Measure (κ → ℝ))) := by
        refine lintegral_mono fun w => ?_
        simp only [herr]
        rw [← mul_add]
        exact mul_le_mul_right (hpt w) _
    _ = (∫⁻ w, A w * ENNReal.ofReal (d w) ∂(Measure.pi fun _ : Fin K => (volume : Measure (κ → ℝ)))) +
        ∫⁻ w, err N w ∂(Measure.pi fun _ : Fin K => (volume : Measure (κ → ℝ))) := lintegral_add_right _ (herrm N)
    _ ≤ 2 * ENNReal.ofReal (Real.sqrt (B.toReal / 2)) + ENNReal.ofReal η :=
        add_le_add (C88_filtering e hb hb' c c' ref ref' hdt ts hts v0 key hB hBt hφ h1) (hN₀ N hN)
    _ = _ := by
        rw [ENNReal.ofReal_add (by positivity) hη.le, ENNReal.ofReal_mul zero_le_two, ENNReal.ofReal_ofNat]

end Main

section Score

variable {ι κ ζ : Type} [Fintype ι] [Fintype κ] [Fintype ζ] (e : ι ⊕ κ ≃ ζ) {s s' f : (ζ → ℝ) → ℝ → (ζ → ℝ)}
  (hs : ∀ t, Measurable fun z => s z t) (hs' : ∀ t, Measurable fun z => s' z t) (hf : ∀ t, Measurable fun z => f z t)
  {disp : ℝ → ℝ} {dt T : ℝ} (c c' : ℝ)
  (ref ref' : Measure (ι → ℝ)) [IsProbabilityMeasure ref] [IsProbabilityMeasure ref']

include hs hf in
omit [Fintype ι] [Fintype κ] in
theorem score_cost_bound (ts : Arr1 ℝ) (hts : UniformGrid dt (reverseDispersion T disp) ts.1 ts.2) {ε : ℝ}
    (hε : ∀ t ∈ ts.init, ∀ x, ∑ i, (s x (T - t) i - s' x (T - t) i) ^ 2 ≤ ε ^ 2) (v0 : κ → ℝ) (key : Key) :
    ∫⁻ u0, (eulerPath key (concat e u0 v0) ts (reverseDrift T s f disp) (reverseDispersion T disp) 1).E
      (fun p => ENNReal.ofReal (driftCost (reverseDrift T s f disp) (reverseDrift T s' f disp) (reverseDispersion T disp)
        ts.1 ts.2 p.toList)) ∂ref ≤ ENNReal.ofReal (ε ^ 2 / 2 * dispMass disp T ts.1 ts.2) := by
  have hc : Measurable fun u : ι → ℝ => concat e u v0 :=
    (measurable_concat e).comp (measurable_id.prodMk measurable_const)
  have : IsProbabilityMeasure (ref.map fun u => concat e u v0) := Measure.isProbabilityMeasure_map hc.aemeasurable
  have hd := measurable_reverseDrift_of disp hs hf T
  refine (lintegral_mono fun u0 => Rand.E_mono _ (g := fun _ => ENNReal.ofReal (ε ^ 2 / 2 * dispMass disp T ts.1 ts.2))
    fun p => ?_).trans (le_of_eq ?_)
  · rw [scoreCost_eq disp s s' f T ts.2 ts.1 p.toList (uniformGrid_disp hts)]
    exact ENNReal.ofReal_le_ofReal (scoreCost_le disp _ _ _ hε)
  · have hφ : MeasList (ts.2.length + 1) fun _ : List (ζ → ℝ) => ENNReal.ofReal (ε ^ 2 / 2 * dispMass disp T ts.1 ts.2) := by
      unfold MeasList; exact measurable_const
    have h1 := lintegral_map (μ := ref) (measurable_eulerPath_start (reverseDispersion T disp) hd key ts hφ) hc
    rw [← h1, lintegral_eulerPath (reverseDispersion T disp) hd _ key ts hφ, lintegral_const]
    have := isProb_pathLaw (ref.map fun u => concat e u v0) _ (measurable_emMeanAt (gridAt ts) hd)
      (emVarAt (reverseDispersion T disp) (gridAt ts)) ts.2.length
    rw [measure_univ, mul_one]

/-- **C88, a uniform error of the score.**  If `|s - s'| ≤ ε` at the times of the grid, then the conditional means differ on average
by at most `2 √((KL(ref ‖ ref') + ε² / 2 ∑ₖ |tₖ₊₁ - tₖ| g(T - tₖ)²) / 2)`; for equal start laws this is
`ε √(∑ₖ |tₖ₊₁ - tₖ| g(T - tₖ)²)`. -/
theorem C88_score (hdt : 0 < dt) (ts : Arr1 ℝ) (hts : UniformGrid dt (reverseDispersion T disp) ts.1 ts.2) {ε : ℝ}
    (hε : ∀ t ∈ ts.init, ∀ x, ∑ i, (s x (T - t) i - s' x (T - t) i) ^ 2 ≤ ε ^ 2) (hk : klDiv ref ref' ≠ ∞) (v0 : κ → ℝ)
    {φ : List (ι → ℝ) → List (κ → ℝ) → ℝ≥0∞} (hφ : MeasPair ι κ ts.2.length φ) (h1 : ∀ l m, φ l m ≤ 1) :
    ∫⁻ w, (toyModel e (measurable_reverseDrift_of disp hs hf T) (reverseDispersion T disp) dt c ref).smoothInt
          (v0, List.ofFn w) ts (fun _ => 1) *
        ENNReal.ofReal
          |(toyModel e (measurable_reverseDrift_of disp hs hf T) (reverseDispersion T disp) dt c ref).smoothMean
              (v0, List.ofFn w) ts (fun l => φ l (List.ofFn w)) -
            (toyModel e (measurable_reverseDrift_of disp hs' hf T) (reverseDispersion T disp) dt c' ref').smoothMean
              (v0, List.ofFn w) ts (fun l => φ l (List.ofFn w))|
        ∂(Measure.pi fun _ : Fin ts.2.length => (volume : Measure (κ → ℝ))) ≤
      2 * ENNReal.ofReal (Real.sqrt (((klDiv ref ref').toReal + ε ^ 2 / 2 * dispMass disp T ts.1 ts.2) / 2)) := by
  have hcost := score_cost_bound e hs (s' := s') hf ref ts hts hε v0 []
  have hmass : 0 ≤ ε ^ 2 / 2 * dispMass disp T ts.1 ts.2 := mul_nonneg (by positivity) (dispMass_nonneg disp _ _ _)
  have hct := ne_top_of_le_ne_top ENNReal.ofReal_ne_top hcost
  refine (C88_smoothing e (measurable_reverseDrift_of disp hs hf T) (measurable_reverseDrift_of disp hs' hf T) c c' ref ref'
    hdt ts hts v0 [] rfl (ENNReal.add_ne_top.2 ⟨hk, hct⟩) hφ h1).trans ?_
  gcongr
  rw [ENNReal.toReal_add hk hct]
  have := ENNReal.toReal_le_of_le_ofReal hmass hcost
  linarith

include hs' in
/-- **C88, the particle filter of the experiments with an approximate score.** -/
theorem C88_score_particle_filter (hdt : 0 < dt) (ts : Arr1 ℝ) (hts : UniformGrid dt (reverseDispersion T disp) ts.1 ts.2)
    {ε : ℝ} (hε0 : 0 ≤ ε) (hε : ∀ t ∈ ts.init, ∀ x, ∑ i, (s x (T - t) i - s' x (T - t) i) ^ 2 ≤ ε ^ 2) (v0 : κ → ℝ)
    {φ : (ι → ℝ) → ℝ} (hφ : Measurable φ) (h0 : ∀ u, 0 ≤ φ u) (h1 : ∀ u, φ u ≤ 1) {η : ℝ} (hη : 0 < η) :
    ∃ N₀ : ℕ, ∀ (N : ℕ) [NeZero N], N₀ ≤ N → ∀ (refSampler : Key → (κ → ℝ) → ℕ → Rand (Fin N → ι → ℝ))
      (res : Smc.Resampling N), (∀ k n (F : (Fin N → ι → ℝ) → ℝ≥0∞), Measurable F →
        (refSampler k v0 n).E F = ∫⁻ x, F x ∂(Measure.pi fun _ => ref)) → UnbiasedSums res → SmallVariance res →
      ∀ (key' : Key) (log rl : Bool),
      ∫⁻ w, (toyModel e (measurable_reverseDrift_of disp hs hf T) (reverseDispersion T disp) dt c ref).filterInt
            (v0, List.ofFn w) ts (fun _ => 1) *
          (Smc.bootstrapFilter (filterFuns e (reverseDrift T s' f disp) (reverseDispersion T disp) dt refSampler) res
            (v0, List.ofFn w) ts key' log rl).E (fun out => ENNReal.ofReal |(∑ i, φ (out.final i)) / N -
              (toyModel e (measurable_reverseDrift_of disp hs hf T) (reverseDispersion T disp) dt c ref).filterMean
                (v0, List.ofFn w) ts φ|)
          ∂(Measure.pi fun _ : Fin ts.2.length => (volume : Measure (κ → ℝ))) ≤
        ENNReal.ofReal (ε * Real.sqrt (dispMass disp T ts.1 ts.2) + η) := by
  have hcost := score_cost_bound e hs (s' := s') hf ref ts hts hε v0 []
  have hmass : 0 ≤ ε ^ 2 / 2 * dispMass disp T ts.1 ts.2 := mul_nonneg (by positivity) (dispMass_nonneg disp _ _ _)
  have hct := ne_top_of_le_ne_top ENNReal.ofReal_ne_top hcost
  have hBt : klDiv ref ref + ∫⁻ u0, (eulerPath [] (concat e u0 v0) ts (reverseDrift T s f disp) (reverseDispersion T disp) 1).E
      (fun p => ENNReal.ofReal (driftCost (reverseDrift T s f disp) (reverseDrift T s' f disp) (reverseDispersion T disp)
        ts.1 ts.2 p.toList)) ∂ref ≠ ∞ := by
    rw [klDiv_self, zero_add]; exact hct
  obtain ⟨N₀, h⟩ := C88_particle_filter e (measurable_reverseDrift_of disp hs hf T) (measurable_reverseDrift_of disp hs' hf T)
    c 0 ref ref hdt ts hts v0 [] rfl hBt hφ h0 h1 hη
  refine ⟨N₀, fun N _ hN refSampler res href hres hvar key' log rl => ?_⟩
  refine (h N hN (filterFuns e (reverseDrift T s' f disp) (reverseDispersion T disp) dt refSampler) res
    ⟨href, fun xs v t k F hF => E_transitionSampler e _ dt hdt.le xs v t k hF, fun v xs v' t i => rfl⟩ hres hvar key' log
    rl).trans (ENNReal.ofReal_le_ofReal ?_)
  refine add_le_add ?_ le_rfl
  rw [klDiv_self, zero_add]
  have h5 := ENNReal.toReal_le_of_le_ofReal hmass hcost
  have h6 : ε * Real.sqrt (dispMass disp T ts.1 ts.2) =
      2 * Real.sqrt (ε ^ 2 / 2 * dispMass disp T ts.1 ts.2 / 2) := by
    rw [show ε ^ 2 / 2 * dispMass disp T ts.1 ts.2 / 2 = (ε / 2) ^ 2 * dispMass disp T ts.1 ts.2 by ring,
      Real.sqrt_mul (by positivity), Real.sqrt_sq (by positivity)]
    ring
  rw [h6]
  gcongr

/-- The hypotheses can be met: two coordinates, a grid of two steps, a score that is off by `1/10` in each coordinate. -/
example (ref : Measure (Fin 1 → ℝ)) [IsProbabilityMeasure ref] (v0 : Fin 1 → ℝ) {η : ℝ} (hη : 0 < η) :
    ∃ N₀ : ℕ, ∀ (N : ℕ) [NeZero N], N₀ ≤ N → ∀ (refSampler : Key → (Fin 1 → ℝ) → ℕ → Rand (Fin N → Fin 1 → ℝ)),
      (∀ k n (F : (Fin N → Fin 1 → ℝ) → ℝ≥0∞), Measurable F →
        (refSampler k v0 n).E F = ∫⁻ x, F x ∂(Measure.pi fun _ => ref)) → ∀ key' : Key,
      ∫⁻ w, (toyModel (Equiv.refl (Fin 1 ⊕ Fin 1)) (measurable_reverseDrift_of (ι := Fin 1 ⊕ Fin 1) (s := fun x _ => -x)
            (f := fun x _ i => -x i / 2) (fun _ => 1) (fun _ => by fun_prop) (fun _ => by fun_prop) 2)
            (reverseDispersion 2 fun _ => 1) 1 0 ref).filterInt (v0, List.ofFn w) (0, [1, 2]) (fun _ => 1) *
          (Smc.bootstrapFilter (filterFuns (Equiv.refl (Fin 1 ⊕ Fin 1)) (reverseDrift 2 (fun x _ i => -x i + 1 / 10)
            (fun x _ i => -x i / 2) fun _ => 1) (reverseDispersion 2 fun _ => 1) 1 refSampler) Resampling.stratified
            (v0, List.ofFn w) (0, [1, 2]) key' true true).E (fun out => ENNReal.ofReal
              |(∑ i, (if 0 ≤ out.final i 0 then 1 else 0 : ℝ)) / N -
              (toyModel (Equiv.refl (Fin 1 ⊕ Fin 1)) (measurable_reverseDrift_of (ι := Fin 1 ⊕ Fin 1) (s := fun x _ => -x)
                (f := fun x _ i => -x i / 2) (fun _ => 1) (fun _ => by fun_prop) (fun _ => by fun_prop) 2)
                (reverseDispersion 2 fun _ => 1) 1 0 ref).filterMean (v0, List.ofFn w) (0, [1, 2])
                fun u => if 0 ≤ u 0 then 1 else 0|)
          ∂(Measure.pi fun _ : Fin 2 => (volume : Measure (Fin 1 → ℝ))) ≤
        ENNReal.ofReal (1 / 5 + η) := by
  obtain ⟨N₀, h⟩ := C88_score_particle_filter (Equiv.refl (Fin 1 ⊕ Fin 1)) (s := fun x _ => -x)
    (s' := fun x _ i => -x i + 1 / 10) (f := fun x _ i => -x i / 2) (fun _ => by fun_prop) (fun _ => by fun_prop)
    (fun _ => by fun_prop) (disp := fun _ => 1) (dt := 1) (T := 2) 0 ref one_pos (0, [1, 2])
    (by simp [UniformGrid, reverseDispersion]; norm_num) (ε := Real.sqrt 2 / 10) (by positivity)
    (fun t _ x => by simp [div_pow]; norm_num) v0 (φ := fun u => if 0 ≤ u 0 then 1 else 0)
    (Measurable.ite (measurableSet_le measurable_const (measurable_pi_apply 0)) measurable_const measurable_const)
    (fun u => by split <;> norm_num) (fun u => by split <;> norm_num) hη
  refine ⟨N₀, fun N _ hN refSampler href key' => ?_⟩
  refine (h N hN refSampler Resampling.stratified href sums_stratified smallVariance_stratified key' true true).trans
    (ENNReal.ofReal_le_ofReal ?_)
  have : Real.sqrt 2 / 10 * Real.sqrt (dispMass (fun _ => 1) 2 0 [1, 2]) = 1 / 5 := by
    have h2 : dispMass (fun _ => 1) 2 0 [1, 2] = 2 := by simp [dispMass]; norm_num
    rw [h2, div_mul_eq_mul_div, Real.mul_self_sqrt (by norm_num)]
    norm_num
  simp only [this]
  exact le_rfl

end Score

end Props
end Fbs
