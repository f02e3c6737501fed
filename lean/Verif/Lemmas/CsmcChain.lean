import Verif.Lemmas.IdealKer
import Verif.Props.IdealChain

/-! The chain of calls of `csmc_kernel` with `backward=False` as a Markov kernel on trajectories. -/

open MeasureTheory ProbabilityTheory
open scoped ENNReal

namespace Fbs
namespace Props

open Jax Spec Csmc Chains

section

variable {N K : ℕ} {U V : Type}

/-- The rows of an array. -/
def rowsOf (K : ℕ) (a : Arr1 U) : Fin (K + 1) → U := fun i => a.toList.getD i a.1

theorem toList_arr (q : Fin (K + 1) → U) : (arr q).toList = List.ofFn q := by rw [List.ofFn_succ]; rfl

theorem getD_ofFn {k : ℕ} (q : Fin k → U) (d : U) (i : Fin k) : (List.ofFn q).getD i d = q i := by
  rw [List.getD_eq_getElem _ _ (by rw [List.length_ofFn]; exact i.2), List.getElem_ofFn]

theorem rowsOf_arr (q : Fin (K + 1) → U) : rowsOf K (arr q) = q := by
  funext i
  unfold rowsOf
  rw [toList_arr, getD_ofFn]

theorem arr_rowsOf {a : Arr1 U} (h : a.2.length = K) : arr (rowsOf K a) = a := by
  refine Prod.ext rfl ?_
  apply List.ext_getElem
  · simp [arr, h]
  · intro i h1 h2
    simp only [arr, List.getElem_ofFn, rowsOf, Arr1.toList, Fin.val_succ, List.getD_cons_succ]
    exact List.getD_eq_getElem _ _ h2

/-- A function of the rows as a function of the list. -/
def onPath (K : ℕ) (F : (Fin (K + 1) → U) → ℝ≥0∞) : List U → ℝ≥0∞
  | [] => 0
  | u :: l => F (rowsOf K (u, l))

theorem onPath_toList (F : (Fin (K + 1) → U) → ℝ≥0∞) (a : Arr1 U) : onPath K F a.toList = F (rowsOf K a) := rfl

theorem onPath_ofFn (F : (Fin (K + 1) → U) → ℝ≥0∞) (p : Fin (1 + K) → U) :
    onPath K F (List.ofFn p) = F fun i => p (Fin.cast (Nat.add_comm K 1) i) := by
  have h : List.ofFn p = (arr fun i : Fin (K + 1) => p (Fin.cast (Nat.add_comm K 1) i)).toList := by
    rw [toList_arr]
    apply List.ext_getElem
    · rw [List.length_ofFn, List.length_ofFn, Nat.add_comm]
    · intro i h1 h2
      rw [List.getElem_ofFn, List.getElem_ofFn]
      rfl
  rw [h, onPath_toList, rowsOf_arr]

theorem onPath_tsum (F : ℕ → (Fin (K + 1) → U) → ℝ≥0∞) (us : List U) :
    onPath K (fun q => ∑' i, F i q) us = ∑' i, onPath K (F i) us := by
  cases us <;> simp [onPath]

theorem onPath_const_mul (c : ℝ≥0∞) (F : (Fin (K + 1) → U) → ℝ≥0∞) (us : List U) :
    onPath K (fun q => c * F q) us = c * onPath K F us := by
  cases us <;> simp [onPath]

theorem onPath_le_one {F : (Fin (K + 1) → U) → ℝ≥0∞} (h : ∀ q, F q ≤ 1) (us : List U) : onPath K F us ≤ 1 := by
  cases us
  · simp [onPath]
  · exact h _

variable [MeasurableSpace U] [MeasurableSpace V]

omit [MeasurableSpace V] in
theorem measList_onPath {F : (Fin (K + 1) → U) → ℝ≥0∞} (hF : Measurable F) : MeasList (1 + K) (onPath K F) := by
  unfold MeasList
  simp only [onPath_ofFn]
  exact hF.comp (measurable_pi_iff.2 fun i => measurable_pi_apply _)

omit [MeasurableSpace V] in
theorem measOut_onPath {F : (Fin (K + 1) → U) → ℝ≥0∞} (hF : Measurable F) :
    MeasOut (N := N) (1 + K) fun us _ => onPath K F us :=
  (measList_onPath hF).comp (measurable_pi_iff.2 fun j => measurable_fst.comp (measurable_pi_apply j))

omit [MeasurableSpace V] in
/-- The uniform indices integrate out. -/
theorem extInt_fst [NeZero N] (ss : List (FKStep U)) : ∀ (u : U) (φ : List U → ℝ≥0∞),
    extInt N ss u (fun l => φ (l.map Prod.fst)) = pathInt ss u φ := by
  have hN : (N : ℝ≥0∞) ≠ 0 := by exact_mod_cast NeZero.ne N
  induction ss with
  | nil => intro u φ; rfl
  | cons s ss ih =>
    intro u φ
    have h : ∀ u', extInt N ss u' (fun l => φ (u' :: l.map Prod.fst)) = pathInt ss u' fun l => φ (u' :: l) :=
      fun u' => ih u' fun l => φ (u' :: l)
    simp only [extInt, pathInt, List.map_cons, h, Finset.sum_const, Finset.card_univ, Fintype.card_fin, nsmul_eq_mul]
    simp only [← mul_assoc, ENNReal.inv_mul_cancel hN (ENNReal.natCast_ne_top N), one_mul]

omit [MeasurableSpace V] in
theorem measurable_pathInt_prefix {T : ℕ} {φ : List U → ℝ≥0∞} (hφ : MeasList T φ) (ss : List (FKStep U)) (p : List U)
    (hp : p.length + (ss.length + 1) = T) : Measurable fun u => pathInt ss u fun l => φ (p ++ u :: l) :=
  measurable_pathInt_param ss (fun u l => φ (p ++ u :: l)) (measurable_prefix hφ p hp) id measurable_id

omit [MeasurableSpace V] in
theorem pathInt_tsum {T : ℕ} {φ : ℕ → List U → ℝ≥0∞} (hφ : ∀ i, MeasList T (φ i)) : ∀ (ss : List (FKStep U)) (p : List U)
    (u : U), p.length + ss.length = T →
    pathInt ss u (fun l => ∑' i, φ i (p ++ l)) = ∑' i, pathInt ss u fun l => φ i (p ++ l)
  | [], _, _, _ => rfl
  | s :: ss, p, u, hp => by
    have hp' : p.length + (ss.length + 1) = T := hp
    simp only [pathInt]
    have e : ∀ u', pathInt ss u' (fun l => ∑' i, φ i (p ++ u' :: l)) = ∑' i, pathInt ss u' fun l => φ i (p ++ u' :: l) :=
      fun u' => by
        have h := pathInt_tsum hφ ss (p ++ [u']) u' (by rw [List.length_append, List.length_singleton]; omega)
        simpa only [List.append_assoc, List.singleton_append] using h
    rw [lintegral_congr e, lintegral_tsum fun i => (measurable_pathInt_prefix (hφ i) ss p hp').aemeasurable,
      ENNReal.tsum_mul_left]

omit [MeasurableSpace V] in
theorem pathInt_mul {T : ℕ} (c : ℝ≥0∞) {φ : List U → ℝ≥0∞} (hφ : MeasList T φ) : ∀ (ss : List (FKStep U)) (p : List U)
    (u : U), p.length + ss.length = T → pathInt ss u (fun l => c * φ (p ++ l)) = c * pathInt ss u fun l => φ (p ++ l)
  | [], _, _, _ => rfl
  | s :: ss, p, u, hp => by
    have hp' : p.length + (ss.length + 1) = T := hp
    simp only [pathInt]
    have e : ∀ u', pathInt ss u' (fun l => c * φ (p ++ u' :: l)) = c * pathInt ss u' fun l => φ (p ++ u' :: l) :=
      fun u' => by
        have h := pathInt_mul c hφ ss (p ++ [u']) u' (by rw [List.length_append, List.length_singleton]; omega)
        simpa only [List.append_assoc, List.singleton_append] using h
    rw [lintegral_congr e, lintegral_const_mul _ (measurable_pathInt_prefix hφ ss p hp'), mul_left_comm]

omit [MeasurableSpace V] in
/-- The target on trajectories, in the form of `refMean`. -/
theorem target_onPath [NeZero N] (S : StateSpace U V) (vs : Arr1 V) (ts : Arr1 ℝ) (F : (Fin (K + 1) → U) → ℝ≥0∞) :
    S.target N vs ts (fun p => F (rowsOf K (p.map Prod.fst)))
      = ∫⁻ u, ENNReal.ofReal (Real.exp (S.logG0 vs.1 (vs.2.headD vs.1) u)) *
        pathInt (S.steps vs.1 vs.2 ts.toList) u (fun l => onPath K F (u :: l)) ∂S.init := by
  have hN : (N : ℝ≥0∞) ≠ 0 := by exact_mod_cast NeZero.ne N
  unfold StateSpace.target
  refine lintegral_congr fun u => ?_
  have e : ∀ b : Fin N, extInt N (S.steps vs.1 vs.2 ts.toList) u (fun l => F (rowsOf K (Arr1.map Prod.fst ((u, b), l))))
      = pathInt (S.steps vs.1 vs.2 ts.toList) u fun l => onPath K F (u :: l) := fun b =>
    extInt_fst (N := N) _ u fun l => onPath K F (u :: l)
  simp only [e, Finset.sum_const, Finset.card_univ, Fintype.card_fin, nsmul_eq_mul]
  rw [← mul_assoc (N : ℝ≥0∞)⁻¹, ENNReal.inv_mul_cancel hN (ENNReal.natCast_ne_top N), one_mul]

omit [MeasurableSpace V] in
/-- The target on trajectories is a measure. -/
theorem target_measure [NeZero N] (S : StateSpace U V) (vs : Arr1 V) (ts : Arr1 ℝ) (hK : vs.2.length = K)
    (ht : ts.2.length = K) : ∃ π : Measure (Fin (K + 1) → U), ∀ F, Measurable F →
      S.target N vs ts (fun p => F (rowsOf K (p.map Prod.fst))) = ∫⁻ q, F q ∂π := by
  have hlen : (S.steps vs.1 vs.2 ts.toList).length = K := by
    rw [Csmc.steps_length _ _ _ _ (by simp [Arr1.toList, ht, hK]), hK]
  have hg : Measurable fun u => ENNReal.ofReal (Real.exp (S.logG0 vs.1 (vs.2.headD vs.1) u)) :=
    ENNReal.measurable_ofReal.comp (Real.measurable_exp.comp (S.measG0 _ _))
  have hm : ∀ F : (Fin (K + 1) → U) → ℝ≥0∞, Measurable F →
      Measurable fun u => pathInt (S.steps vs.1 vs.2 ts.toList) u fun l => onPath K F (u :: l) := fun F hF =>
    measurable_pathInt_prefix (measList_onPath hF) _ [] (by rw [hlen, List.length_nil]; omega)
  have hmm : ∀ F : (Fin (K + 1) → U) → ℝ≥0∞, Measurable F → Measurable fun u =>
      ENNReal.ofReal (Real.exp (S.logG0 vs.1 (vs.2.headD vs.1) u)) *
        pathInt (S.steps vs.1 vs.2 ts.toList) u fun l => onPath K F (u :: l) := fun F hF => hg.mul (hm F hF)
  refine exists_measure_of_functional (fun F hF => ?_) fun c F hF => ?_
  · rw [target_onPath S vs ts fun q => ∑' i, F i q]
    simp only [target_onPath, onPath_tsum]
    rw [← lintegral_tsum fun i => (hmm _ (hF i)).aemeasurable]
    refine lintegral_congr fun u => ?_
    rw [ENNReal.tsum_mul_left]
    congr 1
    exact pathInt_tsum (fun i => measList_onPath (hF i)) _ [u] u (by rw [hlen]; rfl)
  · rw [target_onPath S vs ts fun q => c * F q]
    simp only [target_onPath, onPath_const_mul]
    rw [← lintegral_const_mul _ (hmm F hF)]
    refine lintegral_congr fun u => ?_
    rw [mul_left_comm]
    congr 1
    exact pathInt_mul c (measList_onPath hF) _ [u] u (by rw [hlen]; rfl)

omit [MeasurableSpace V] in
/-- The law of the returned trajectory as an integral over the initial particles. -/
theorem csmc_E [NeZero N] {m : Csmc.Funs N U V} {S : StateSpace U V} (hm : Implements m S) {res : CondResampling N}
    (C : ExactScheme res) (k : ℕ) (key : Key) (us : Arr1 U) (cs : Arr1 (Fin N)) (vs : Arr1 V) (ts : Arr1 ℝ)
    (hl : us.2.length = vs.2.length) (hcs : cs.2.length = vs.2.length) (ht : ts.2.length = vs.2.length) {φ : List U → ℝ≥0∞}
    (hφ : MeasOut (N := N) (1 + vs.2.length) fun us _ => φ us) :
    (Csmc.kernel m res k false key us cs vs ts).E (fun out => φ out.1)
      = ∫⁻ y, Cf C.cond (selectΨ fun us _ => φ us) (S.steps vs.1 vs.2 ts.toList) (us.2.zip cs.2)
        (initSt (S.logG0 vs.1 (vs.2.headD vs.1)) (Function.update y cs.1 us.1)) cs.1 ∂(Measure.pi fun _ => S.init) := by
  obtain ⟨u, l⟩ := us
  obtain ⟨c, cl⟩ := cs
  simp only at hl hcs
  have hz : (l.zip cl).length = vs.2.length := by simp [hl, hcs]
  have h := E_forwardPass hm C (Ψ := selectΨ fun us _ => φ us) k (split key 2 0) ((u, c), l.zip cl) vs ts
    hz.symm (ht.trans hz.symm) (by rw [hz]; exact measFun_select hφ)
  have h1 : Arr1.map Prod.fst (((u, c), l.zip cl) : Arr1 (U × Fin N)) = (u, l) := by
    simp [Arr1.map, List.map_fst_zip, hl, hcs]
  have h2 : Arr1.map Prod.snd (((u, c), l.zip cl) : Arr1 (U × Fin N)) = (c, cl) := by
    simp [Arr1.map, List.map_snd_zip, hl, hcs]
  rw [h1, h2] at h
  rw [E_kernel_scanning m res k key (u, l) (c, cl) vs ts _ (fun us _ => φ us), h]

omit [MeasurableSpace U] [MeasurableSpace V] in
theorem select_tsum [NeZero N] (F : ℕ → (Fin (K + 1) → U) → ℝ≥0∞) :
    (selectΨ (fun us _ => onPath K (fun q => ∑' i, F i q) us) : St N U → Fin N → ℝ≥0∞)
      = fun st b => ∑' i, selectΨ (fun us _ => onPath K (F i) us) st b := by
  funext st b
  simp only [selectΨ, onPath_tsum]
  rw [Summable.tsum_finsetSum fun _ _ => ENNReal.summable]
  simp only [ENNReal.tsum_mul_left]

omit [MeasurableSpace U] [MeasurableSpace V] in
theorem select_const_mul [NeZero N] (c : ℝ≥0∞) (F : (Fin (K + 1) → U) → ℝ≥0∞) :
    (selectΨ (fun us _ => onPath K (fun q => c * F q) us) : St N U → Fin N → ℝ≥0∞)
      = fun st b => c * selectΨ (fun us _ => onPath K F us) st b := by
  funext st b
  simp only [selectΨ, onPath_const_mul, Finset.mul_sum]
  exact Finset.sum_congr rfl fun _ _ => mul_left_comm _ _ _

omit [MeasurableSpace V] in
/-- The Markov kernel of one call. -/
theorem csmc_ker [NeZero N] {m : Csmc.Funs N U V} {S : StateSpace U V} (hm : Implements m S) {res : CondResampling N}
    (hres : res = CsmcResampling.killing ∨ res = CsmcResampling.multinomial) (k : ℕ) (vs : Arr1 V) (ts : Arr1 ℝ)
    (hK : vs.2.length = K) (ht : ts.2.length = K) :
    ∃ η : Kernel (Fin (K + 1) → U) (Fin (K + 1) → U), IsMarkovKernel η ∧ ∀ key (us : Arr1 U) (bs : Arr1 (Fin N)),
      us.2.length = K → bs.2.length = K → ∀ F, Measurable F →
      (Csmc.kernel m res k false key us bs vs ts).E (fun out => onPath K F out.1) = ∫⁻ q, F q ∂(η (rowsOf K us)) := by
  obtain ⟨C⟩ : Nonempty (ExactScheme res) := by
    rcases hres with rfl | rfl
    · exact ⟨killingScheme⟩
    · exact ⟨multinomialScheme⟩
  let b0 : Arr1 (Fin N) := (0, List.replicate K 0)
  have hb0 : b0.2.length = K := by simp [b0]
  let ss := S.steps vs.1 vs.2 ts.toList
  have hlen : ss.length = K := by
    simp only [ss]
    rw [Csmc.steps_length _ _ _ _ (by simp [Arr1.toList, ht, hK]), hK]
  let g0 := S.logG0 vs.1 (vs.2.headD vs.1)
  let P : (Fin (K + 1) → U) → ((Fin (K + 1) → U) → ℝ≥0∞) → (Fin N → U) → ℝ≥0∞ := fun q F y =>
    Cf C.cond (selectΨ fun us _ => onPath K F us) ss ((arr q).2.zip b0.2) (initSt g0 (Function.update y b0.1 (arr q).1)) b0.1
  have hsel : ∀ F : (Fin (K + 1) → U) → ℝ≥0∞, Measurable F →
      MeasFun (N := N) (1 + ss.length) (selectΨ fun us _ => onPath K F us) := fun F hF => by
    rw [hlen]; exact measFun_select (measOut_onPath hF)
  have hz : ∀ q : Fin (K + 1) → U, ((arr q).2.zip b0.2).length = ss.length := fun q => by rw [hlen]; simp [arr, b0]
  have hst : ∀ (q : Fin (K + 1) → U), MeasSt 1 fun y : Fin N → U => initSt g0 (Function.update y b0.1 (arr q).1) := fun q =>
    measSt_init (S.measG0 _ _) (measurable_update_pi measurable_id measurable_const)
  have hP : ∀ q F, Measurable F → Measurable (P q F) := fun q F hF =>
    measurable_Cf_fixed C.meas ss 1 (hsel F hF) (hst q) _ (hz q) _
  have hjoint : ∀ F, Measurable F → Measurable fun q => ∫⁻ y, P q F y ∂(Measure.pi fun _ => S.init) := fun F hF => by
    refine Measurable.lintegral_prod_right' (f := fun z : (Fin (K + 1) → U) × (Fin N → U) => P z.1 F z.2) ?_
    have e : ∀ z : (Fin (K + 1) → U) × (Fin N → U), P z.1 F z.2
        = Cf C.cond (selectΨ fun us _ => onPath K F us) ss
          ((List.range ss.length).map fun j => (ext z.1 (j + 1), b0.2.getD j b0.1))
          (initSt g0 (Function.update z.2 b0.1 (ext z.1 0))) b0.1 := fun z => by
      simp only [P, arr_eq z.1, zip_range _ b0.2 hb0 b0.1, hlen]
    simp only [e]
    have hu : Measurable fun z : (Fin (K + 1) → U) × (Fin N → U) => ext z.1 := measurable_ext.comp measurable_fst
    refine measurable_Cf C.meas ss 1 (hsel F hF) _ _
      (measSt_init (S.measG0 _ _) (measurable_update_pi measurable_snd ((measurable_pi_apply 0).comp hu)))
      (fun z j => (ext z.1 (j + 1), b0.2.getD j b0.1))
      (measurable_pi_iff.2 fun j => ((measurable_pi_apply (j + 1)).comp hu).prodMk measurable_const) _
  have hmeas : ∀ q : Fin (K + 1) → U, ∃ μ : Measure (Fin (K + 1) → U), ∀ F, Measurable F →
      ∫⁻ y, P q F y ∂(Measure.pi fun _ => S.init) = ∫⁻ x, F x ∂μ := fun q => by
    refine exists_measure_of_functional (fun F hF => ?_) fun c F hF => ?_
    · rw [← lintegral_tsum fun i => (hP q _ (hF i)).aemeasurable]
      refine lintegral_congr fun y => ?_
      simp only [P, select_tsum]
      exact Cf_tsum C.meas ss _ 1 _ _ (hz q) ((hst q).comp (f := fun _ : Unit => y) measurable_const) fun i => hsel _ (hF i)
    · rw [← lintegral_const_mul _ (hP q F hF)]
      refine lintegral_congr fun y => ?_
      simp only [P, select_const_mul]
      exact Cf_const_mul C.meas c ss _ 1 _ _ (hz q) ((hst q).comp (f := fun _ : Unit => y) measurable_const) (hsel F hF)
  choose μ hμ using hmeas
  have hμm : Measurable μ := Measure.measurable_of_measurable_coe _ fun s hs => by
    have : (fun q => μ q s) = fun q => ∫⁻ y, P q (s.indicator 1) y ∂(Measure.pi fun _ => S.init) := funext fun q => by
      rw [hμ q _ (measurable_one.indicator hs), lintegral_indicator_one hs]
    rw [this]
    exact hjoint _ (measurable_one.indicator hs)
  have hlaw : ∀ key (us : Arr1 U) (bs : Arr1 (Fin N)), us.2.length = K → bs.2.length = K → ∀ F, Measurable F →
      (Csmc.kernel m res k false key us bs vs ts).E (fun out => onPath K F out.1) = ∫⁻ q, F q ∂(μ (rowsOf K us)) := by
    intro key us bs hu hb F hF
    rw [C58_csmc_index_free hm hres k key us b0 bs vs ts (hu.trans hK.symm) (hb0.trans hK.symm) (hb.trans hK.symm)
        (ht.trans hK.symm) (φ := onPath K F) (by rw [hK]; exact measList_onPath hF),
      csmc_E hm C k key us b0 vs ts (hu.trans hK.symm) (hb0.trans hK.symm) (ht.trans hK.symm) (φ := onPath K F)
        (by rw [hK]; exact measOut_onPath hF), ← hμ _ F hF]
    simp only [P, arr_rowsOf hu]
    rfl
  refine ⟨⟨μ, hμm⟩, ⟨fun q => ⟨?_⟩⟩, hlaw⟩
  have h1 := hlaw [] (arr q) b0 (by simp [arr]) hb0 (fun _ => 1) measurable_const
  rw [rowsOf_arr, lintegral_one] at h1
  show μ q Set.univ = 1
  refine h1.symm.trans (Eq.trans ?_
    (csmc_total hm C k [] (arr q) b0 vs ts (by simp [arr, hK]) (hb0.trans hK.symm) (ht.trans hK.symm)))
  refine Rand.E_congr_leaves (leaves_kernel m res k [] (arr q) b0 vs ts) fun out ho => ?_
  obtain ⟨us, bs⟩ := out
  cases us with
  | nil => exact absurd rfl ho
  | cons u l => rfl

end

end Props
end Fbs
