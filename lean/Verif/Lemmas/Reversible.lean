import Verif.Lemmas.GibbsKer

/-! The joint law of the old and the new state of the conditional samplers, in terms of an ordinary particle system. -/

open MeasureTheory ProbabilityTheory
open scoped ENNReal

namespace Fbs
namespace Props

open Jax Spec Csmc Gibbs

variable {n N : ℕ} {U V Z : Type} [MeasurableSpace U]

/-- The last reference index. -/
def lastIdx : List (U × Fin N) → Fin N → Fin N
  | [], b => b
  | p :: l, _ => lastIdx l p.2

/-- Along the conditional pass the path of the reference index is the reference, so that only the values of `Ψ` at such states
matter. -/
theorem Cf_congr_path [NeZero N] {res : CondResampling N} (sch : ExactScheme res) {Ψ Ψ' : St N U → Fin N → ℝ≥0∞} :
    ∀ (ss : List (FKStep U)) (l : List (U × Fin N)), l.length = ss.length →
    ∀ (st : St N U) (b : Fin N), Weights st.W → (∀ i, 0 < st.W i) →
    (∀ st' : St N U, st'.P (lastIdx l b) = st.P b ++ l → Ψ st' (lastIdx l b) = Ψ' st' (lastIdx l b)) →
    Cf sch.cond Ψ ss l st b = Cf sch.cond Ψ' ss l st b
  | [], [], _, st, b, _, _, h => h st (by simp [lastIdx])
  | s :: ss, (u', b') :: l, hl, st, b, hW, hpos, h => by
    simp only [Cf]
    refine Finset.sum_congr rfl fun A _ => ?_
    by_cases hA : A b' = b
    · congr 1
      refine lintegral_congr fun y => ?_
      refine Cf_congr_path sch ss l (by simpa using hl) _ b' (normalise_weights _) (normalise_pos _) fun st' hst' => ?_
      refine h st' (hst'.trans ?_)
      simp [next, hA]
    · have := sch.bayes st.W hW b b' A
      rw [if_neg hA] at this
      have h0 : sch.cond st.W b b' A = 0 := by
        rcases mul_eq_zero.1 this with h | h
        · exact absurd (ENNReal.ofReal_eq_zero.1 h) (not_le.2 (hpos b))
        · exact h
      rw [h0, zero_mul, zero_mul]
  | [], _ :: _, hl, _, _, _, _, _ => by simp at hl
  | _ :: _, [], hl, _, _, _, _, _ => by simp at hl

/-- A function of the reference comes out of the conditional pass. -/
theorem Cf_keep_mul [NeZero N] {res : CondResampling N} (sch : ExactScheme res) (φ : List U → List (Fin N) → ℝ≥0∞)
    {Ψ : St N U → Fin N → ℝ≥0∞} (ss : List (FKStep U)) (l : List (U × Fin N)) (k : ℕ) (st : St N U) (b : Fin N)
    (hl : l.length = ss.length) (hst : MeasSt k (fun _ : Unit => st)) (hΨ : MeasFun (k + ss.length) Ψ) (hW : Weights st.W)
    (hpos : ∀ i, 0 < st.W i) :
    Cf sch.cond (fun st b => keepΨ φ st b * Ψ st b) ss l st b
      = φ ((st.P b ++ l).map Prod.fst) ((st.P b ++ l).map Prod.snd) * Cf sch.cond Ψ ss l st b := by
  rw [← Cf_const_mul sch.meas _ ss l k st b hl hst hΨ]
  refine Cf_congr_path sch ss l hl st b hW hpos fun st' h => ?_
  simp only [keepΨ, h]

theorem Cf_add [NeZero N] {c : (Fin N → ℝ) → Fin N → Fin N → (Fin N → Fin N) → ℝ≥0∞}
    (hc : ∀ i j A, Measurable fun w => c w i j A) {Ψ Ψ' : St N U → Fin N → ℝ≥0∞} : ∀ (ss : List (FKStep U))
    (l : List (U × Fin N)) (k : ℕ) (st : St N U) (b : Fin N), l.length = ss.length → MeasSt k (fun _ : Unit => st) →
    MeasFun (k + ss.length) Ψ →
    Cf c (fun st b => Ψ st b + Ψ' st b) ss l st b = Cf c Ψ ss l st b + Cf c Ψ' ss l st b
  | [], [], _, _, _, _, _, _ => by simp only [Cf]
  | s :: ss, (u', b') :: l, k, st, b, hl, hst, hΨ => by
    have hlen : l.length = ss.length := by simpa using hl
    have hΨ' : MeasFun (k + 1 + ss.length) Ψ := by
      rwa [List.length_cons, show k + (ss.length + 1) = k + 1 + ss.length by omega] at hΨ
    have hn : ∀ A, MeasSt (k + 1) fun y : Fin N → U => next s st A (Function.update y b' u') := fun A =>
      (measSt_const hst).next s A (measurable_update_pi measurable_id measurable_const)
    simp only [Cf]
    rw [← Finset.sum_add_distrib]
    refine Finset.sum_congr rfl fun A _ => ?_
    rw [← mul_add, ← lintegral_add_left (measurable_Cf_fixed hc ss (k + 1) hΨ' (hn A) l hlen b')]
    congr 1
    exact lintegral_congr fun y =>
      Cf_add hc ss l (k + 1) _ b' hlen ((hn A).comp (f := fun _ : Unit => y) measurable_const) hΨ'
  | [], _ :: _, _, _, _, hl, _, _ => by simp at hl
  | _ :: _, [], _, _, _, hl, _, _ => by simp at hl

theorem Rf_mono_on [NeZero N] (r : (Fin N → ℝ) → (Fin N → Fin N) → ℝ≥0∞) {Ψ Ψ' : St N U → Fin N → ℝ≥0∞}
    {Q : (Fin N → ℝ) → Prop}
    (h : ∀ st : St N U, Weights st.W → Q st.W →
      ∑ b, ENNReal.ofReal (st.W b) * Ψ st b ≤ ∑ b, ENNReal.ofReal (st.W b) * Ψ' st b) :
    ∀ (ss : List (FKStep U)), (∀ s ∈ ss, ∀ x : Fin N → U, Q (normalise fun i => s.g (x i))) →
    ∀ st : St N U, Weights st.W → Q st.W → Rf r Ψ ss st ≤ Rf r Ψ' ss st := by
  intro ss
  induction ss with
  | nil => intro _ st hW hQ; exact h st hW hQ
  | cons s ss ih =>
    intro hs st hW _
    simp only [Rf]
    refine Finset.sum_le_sum fun A _ => ?_
    gcongr
    exact ih (fun s' h' => hs s' (List.mem_cons_of_mem _ h')) _ (normalise_weights _) (hs s List.mem_cons_self _)

/-- The value of a pair of functions of the old and of the new state, for the conditional sampler with final move `mv`. -/
noncomputable def pairΨ (f : List U → List (Fin N) → ℝ≥0∞) (mv : St N U → Fin N → ℝ≥0∞) (st : St N U) (b : Fin N) : ℝ≥0∞ :=
  keepΨ f st b * mv st b

theorem measFun_pair {k : ℕ} {f : List U → List (Fin N) → ℝ≥0∞} (hf : MeasOut k f) {mv : St N U → Fin N → ℝ≥0∞}
    (hmv : MeasFun k mv) : MeasFun k (pairΨ f mv) := fun Y _ st hst b => (measFun_keep hf Y st hst b).mul (hmv Y st hst b)

theorem measFun_add {k : ℕ} {Ψ Ψ' : St N U → Fin N → ℝ≥0∞} (h : MeasFun k Ψ) (h' : MeasFun k Ψ') :
    MeasFun k fun st b => Ψ st b + Ψ' st b := fun Y _ st hst b => (h Y st hst b).add (h' Y st hst b)

omit [MeasurableSpace U] in
theorem sum_pair_select [NeZero N] (f g : List U → List (Fin N) → ℝ≥0∞) (st : St N U) (hW : Weights st.W) :
    ∑ b, ENNReal.ofReal (st.W b) * pairΨ f (selectΨ g) st b
      = (∑ b, ENNReal.ofReal (st.W b) * keepΨ f st b) * ∑ b, ENNReal.ofReal (st.W b) * keepΨ g st b := by
  have e : ∀ b, selectΨ g st b = ∑ b, ENNReal.ofReal (st.W b) * keepΨ g st b := fun b => by
    simp [selectΨ, keepΨ, hW.sum_one]
  simp only [pairΨ, e, ← mul_assoc]
  rw [← Finset.sum_mul]

omit [MeasurableSpace U] in
/-- With the forced move, the pair (old, new) is exchangeable given the particle system. -/
theorem sum_pair_force [NeZero N] (f g : List U → List (Fin N) → ℝ≥0∞) (st : St N U) (hW : Weights st.W)
    (hr : Regular st.W) :
    ∑ b, ENNReal.ofReal (st.W b) * pairΨ f (forceΨ g) st b = ∑ b, ENNReal.ofReal (st.W b) * pairΨ g (forceΨ f) st b := by
  have e : ∀ (f g : List U → List (Fin N) → ℝ≥0∞) (b : Fin N), pairΨ f (forceΨ g) st b
      = (forceMove [] st.W b).E fun r => keepΨ f st b * keepΨ g st r.1 := fun f g b => by
    rw [E_forceMove hW [] b fun i => keepΨ f st b * keepΨ g st i]
    simp only [pairΨ, forceΨ, mul_add, Finset.mul_sum]
    exact congrArg₂ _ (Finset.sum_congr rfl fun _ _ => mul_left_comm _ _ _) (mul_left_comm _ _ _)
  simp only [e]
  rw [C12_force_move_reversible hW hr [] fun b i => keepΨ f st b * keepΨ g st i]
  simp only [mul_comm]

theorem two_mul_le {a b : ℝ≥0∞} : a * b + b * a ≤ a * a + b * b := by
  rcases le_total a b with h | h
  · obtain ⟨c, rfl⟩ := exists_add_of_le h
    have : a * a + (a + c) * (a + c) = a * (a + c) + (a + c) * a + c * c := by ring
    rw [this]
    exact le_self_add
  · obtain ⟨c, rfl⟩ := exists_add_of_le h
    have : (b + c) * (b + c) + b * b = (b + c) * b + b * (b + c) + c * c := by ring
    rw [this]
    exact le_self_add

/-! ### From the paths to the particle system -/

section

variable [MeasurableSpace V]

/-- The average over the reference paths and indices is the expectation over an ordinary particle system. -/
theorem gibbs_core_Rf {K : ℕ} [NeZero N] {S : StateSpace U V} (hS : S.JointMeas) {ts : Arr1 ℝ} (hts : ts.2.length = K)
    {Λ : Measure (U × (Fin (K + 1) → V))} {I : (Arr1 U → Arr1 V → ℝ≥0∞) → ℝ≥0∞}
    (hΛ : ∀ φ, MeasPaths K φ →
      I φ = ∫⁻ q, pathInt (S.steps (arr q.2).1 (arr q.2).2 ts.toList) q.1 (fun l => φ (q.1, l) (arr q.2)) ∂Λ)
    (c : ℝ) {Ψ : St N U → Fin N → ℝ≥0∞} (hΨ : MeasFun (1 + K) Ψ) :
    avgBs N K (fun bs => I fun us vs => Cf killingScheme.cond Ψ (S.steps vs.1 vs.2 ts.toList) (us.2.zip bs.2)
        (startSt N c us.1) bs.1)
      = ∫⁻ q, Rf killingScheme.joint Ψ (S.steps (arr q.2).1 (arr q.2).2 ts.toList) (startSt N c q.1) ∂Λ := by
  have htl : K ≤ ts.toList.length := by simp [Arr1.toList, hts]
  let ss : (Fin (K + 1) → V) → List (FKStep U) := fun v => S.steps (arr v).1 (arr v).2 ts.toList
  have hss : ∀ v, ss v = seqSteps S (ext v) K ts.toList := by
    intro v; simp only [ss, arr_eq]; rfl
  have hlen : ∀ v, (ss v).length = K := by
    intro v
    simp only [ss]
    rw [Csmc.steps_length]
    · simp [arr]
    · simp [arr, Arr1.toList, hts]
  let G : (Fin (K + 1) → V) → Arr1 (Fin N) → U → List U → ℝ≥0∞ := fun v bs u l =>
    Cf killingScheme.cond Ψ (ss v) (l.zip bs.2) (startSt N c u) bs.1
  have hG : ∀ bs : Arr1 (Fin N), bs.2.length = K → ∀ (Y : Type) [MeasurableSpace Y]
      (v : Y → Fin (K + 1) → V) (_ : Measurable v) (u : Y → U) (_ : Measurable u) (p : Y → ℕ → U)
      (_ : Measurable p), Measurable fun y => G (v y) bs (u y) ((List.range K).map (p y)) := by
    intro bs hbs Y _ v hv u hu p hp
    simp only [G, hss, zip_range _ bs.2 hbs bs.1]
    exact measurable_Cf_obs killingScheme.meas S hS K ts.toList htl 1 hΨ Y _ (measSt_start _ hu)
      (fun y j => (p y j, bs.2.getD j bs.1))
      (measurable_pi_iff.2 fun j => ((measurable_pi_apply j).comp hp).prodMk measurable_const)
      (fun y => ext (v y)) (measurable_ext.comp hv) bs.1
  have hGp : ∀ bs : Arr1 (Fin N), bs.2.length = K →
      Measurable fun q : U × (Fin (K + 1) → V) => pathInt (ss q.2) q.1 (G q.2 bs q.1) := by
    intro bs hbs
    simp only [hss]
    refine measurable_pathInt_obs S hS K ts.toList htl _ (fun q l => G q.2 bs q.1 l) ?_ _ measurable_fst
      (fun q => ext q.2) (measurable_ext.comp measurable_snd)
    exact hG bs hbs _ _ (measurable_snd.comp measurable_fst) _ (measurable_fst.comp measurable_fst) _
      measurable_snd
  have hparam : ∀ (v : Fin (K + 1) → V) (u : U) (b : Fin N), MeasParam (Z := Unit) (ss v).length
      (fun _ l => Cf killingScheme.cond Ψ (ss v) l (startSt N c u) b) := fun v u b =>
    measParam_Cf killingScheme.meas (ss v) 1 (by rw [hlen]; exact hΨ) (measSt_start _ measurable_const) b
  have hL : ∀ bs : Arr1 (Fin N), bs.2.length = K →
      (I fun us vs => Cf killingScheme.cond Ψ (S.steps vs.1 vs.2 ts.toList) (us.2.zip bs.2) (startSt N c us.1) bs.1)
        = ∫⁻ q, pathInt (ss q.2) q.1 (G q.2 bs q.1) ∂Λ := fun bs hbs =>
    hΛ _ (measPaths_pinned hS hΨ c hts hbs)
  rw [avgBs_congr hL, ← lintegral_avgBs Λ hGp]
  refine lintegral_congr fun q => ?_
  rw [← avg_Cf (ss q.2) (by rw [hlen]; exact hΨ) c q.1]
  unfold avgBs
  congr 1
  refine Finset.sum_congr rfl fun b _ => ?_
  rw [extInt_eq_avgIdx _ _ _ (hparam q.2 q.1 b), hlen]

/-- The same for particles started from a reference law. -/
theorem ref_core_Rf {K : ℕ} [NeZero N] {S : StateSpace U V} (hS : S.JointMeas)
    {ν : Measure U} [IsProbabilityMeasure ν] {ts : Arr1 ℝ} (hts : ts.2.length = K)
    {Λ : Measure (Fin (K + 1) → V)} {I : (Arr1 U → Arr1 V → ℝ≥0∞) → ℝ≥0∞}
    (hΛ : ∀ φ, MeasPaths K φ → I φ =
      ∫⁻ v, ∫⁻ u, ENNReal.ofReal (Real.exp (S.logG (arr v).1 ((arr v).2.headD (arr v).1) ts.1 u)) *
        pathInt (S.steps (arr v).1 (arr v).2 ts.toList) u (fun l => φ (u, l) (arr v)) ∂ν ∂Λ)
    {Ψ : St N U → Fin N → ℝ≥0∞} (hΨ : MeasFun (1 + K) Ψ) :
    avgBs N K (fun bs => I fun us vs => ∫⁻ y, Cf killingScheme.cond Ψ (S.steps vs.1 vs.2 ts.toList) (us.2.zip bs.2)
        (initSt (S.logG vs.1 (vs.2.headD vs.1) ts.1) (Function.update y bs.1 us.1)) bs.1
          ∂(Measure.pi fun _ => ν))
      = ∫⁻ v, ∫⁻ y, (N : ℝ≥0∞)⁻¹ *
          ENNReal.ofReal (∑ i, Real.exp (S.logG (arr v).1 ((arr v).2.headD (arr v).1) ts.1 (y i))) *
          Rf killingScheme.joint Ψ (S.steps (arr v).1 (arr v).2 ts.toList)
            (initSt (S.logG (arr v).1 ((arr v).2.headD (arr v).1) ts.1) y) ∂(Measure.pi fun _ : Fin N => ν) ∂Λ := by
  have htl : K ≤ ts.toList.length := by simp [Arr1.toList, hts]
  let ss : (Fin (K + 1) → V) → List (FKStep U) := fun v => S.steps (arr v).1 (arr v).2 ts.toList
  let g0 : (Fin (K + 1) → V) → U → ℝ := fun v u => S.logG (arr v).1 ((arr v).2.headD (arr v).1) ts.1 u
  have hg0 : ∀ (Y : Type) [MeasurableSpace Y] (v : Y → Fin (K + 1) → V) (_ : Measurable v) (x : Y → U)
      (_ : Measurable x), Measurable fun y => g0 (v y) (x y) := by
    intro Y _ v hv x hx
    have h1 : Measurable fun y => (arr (v y)).1 := (measurable_pi_apply 0).comp hv
    have h2 : Measurable fun y => (arr (v y)).2.headD (arr (v y)).1 := by
      cases K with
      | zero => simpa [arr] using h1
      | succ K =>
        have h3 : Measurable fun y => v y 1 := (measurable_pi_apply 1).comp hv
        simpa [arr] using h3
    exact (hS.2 ts.1).comp (h1.prodMk (h2.prodMk hx))
  have hss : ∀ v, ss v = seqSteps S (ext v) K ts.toList := by
    intro v; simp only [ss, arr_eq]; rfl
  have hlen : ∀ v, (ss v).length = K := by
    intro v
    simp only [ss]
    rw [Csmc.steps_length]
    · simp [arr]
    · simp [arr, Arr1.toList, hts]
  let G : (Fin (K + 1) → V) → Arr1 (Fin N) → U → List U → ℝ≥0∞ := fun v bs u l =>
    ∫⁻ y, Cf killingScheme.cond Ψ (ss v) (l.zip bs.2) (initSt (g0 v) (Function.update y bs.1 u)) bs.1
      ∂(Measure.pi fun _ => ν)
  have hG : ∀ bs : Arr1 (Fin N), bs.2.length = K → ∀ (Y : Type) [MeasurableSpace Y]
      (v : Y → Fin (K + 1) → V) (_ : Measurable v) (u : Y → U) (_ : Measurable u) (p : Y → ℕ → U)
      (_ : Measurable p), Measurable fun y => G (v y) bs (u y) ((List.range K).map (p y)) := by
    intro bs hbs Y _ v hv u hu p hp
    simp only [G, hss, zip_range _ bs.2 hbs bs.1]
    refine Measurable.lintegral_prod_right' (f := fun z : Y × (Fin N → U) => Cf killingScheme.cond Ψ
      (seqSteps S (ext (v z.1)) K ts.toList) ((List.range K).map fun j => (p z.1 j, bs.2.getD j bs.1))
      (initSt (g0 (v z.1)) (Function.update z.2 bs.1 (u z.1))) bs.1) ?_
    refine measurable_Cf_obs killingScheme.meas S hS K ts.toList htl 1 hΨ (Y × (Fin N → U)) _ ?_
      (fun z j => (p z.1 j, bs.2.getD j bs.1))
      (measurable_pi_iff.2 fun j => ((measurable_pi_apply j).comp (hp.comp measurable_fst)).prodMk
        measurable_const)
      (fun z => ext (v z.1)) (measurable_ext.comp (hv.comp measurable_fst)) bs.1
    exact measSt_init_param (fun x hx => hg0 _ _ (hv.comp measurable_fst) x hx)
      (measurable_update_pi measurable_snd (hu.comp measurable_fst))
  have hw : Measurable fun q : (Fin (K + 1) → V) × U => ENNReal.ofReal (Real.exp (g0 q.1 q.2)) :=
    ENNReal.measurable_ofReal.comp (Real.measurable_exp.comp (hg0 _ _ measurable_fst _ measurable_snd))
  have hGp : ∀ bs : Arr1 (Fin N), bs.2.length = K → Measurable fun q : (Fin (K + 1) → V) × U =>
      ENNReal.ofReal (Real.exp (g0 q.1 q.2)) * pathInt (ss q.1) q.2 (G q.1 bs q.2) := by
    intro bs hbs
    refine hw.mul ?_
    simp only [hss]
    refine measurable_pathInt_obs S hS K ts.toList htl _ (fun q l => G q.1 bs q.2 l) ?_ _ measurable_snd
      (fun q => ext q.1) (measurable_ext.comp measurable_fst)
    exact hG bs hbs _ _ (measurable_fst.comp measurable_fst) _ (measurable_snd.comp measurable_fst) _
      measurable_snd
  have hparam : ∀ (v : Fin (K + 1) → V) (u : U) (b : Fin N), MeasParam (Z := Unit) (ss v).length
      (fun _ l => ∫⁻ y, Cf killingScheme.cond Ψ (ss v) l (initSt (g0 v) (Function.update y b u)) b
        ∂(Measure.pi fun _ => ν)) := by
    intro v u b
    have h1 := measParam_Cf (Z := Fin N → U) killingScheme.meas (ss v) 1 (by rw [hlen]; exact hΨ)
      (measSt_init (g0 := g0 v) (hg0 U _ measurable_const _ measurable_id)
        (measurable_update_pi (b := b) measurable_id (measurable_const (a := u)))) b
    unfold MeasParam at h1 ⊢
    have h2 : Measurable fun z : (Unit × (ℕ → U × Fin N)) × (Fin N → U) => (z.2, z.1.2) := by fun_prop
    exact (h1.comp h2).lintegral_prod_right'
  have hL : ∀ bs : Arr1 (Fin N), bs.2.length = K →
      (I fun us vs => ∫⁻ y, Cf killingScheme.cond Ψ (S.steps vs.1 vs.2 ts.toList) (us.2.zip bs.2)
        (initSt (S.logG vs.1 (vs.2.headD vs.1) ts.1) (Function.update y bs.1 us.1)) bs.1
          ∂(Measure.pi fun _ => ν))
        = ∫⁻ v, ∫⁻ u, ENNReal.ofReal (Real.exp (g0 v u)) * pathInt (ss v) u (G v bs u) ∂ν ∂Λ := fun bs hbs =>
    hΛ _ (measPaths_ref hS hΨ ν hts hbs)
  have hGv : ∀ bs : Arr1 (Fin N), bs.2.length = K → Measurable fun v =>
      ∫⁻ u, ENNReal.ofReal (Real.exp (g0 v u)) * pathInt (ss v) u (G v bs u) ∂ν :=
    fun bs hbs => (hGp bs hbs).lintegral_prod_right'
  rw [avgBs_congr hL, ← lintegral_avgBs Λ hGv]
  refine lintegral_congr fun v => ?_
  have hi := init_identity (N := N) killingScheme (ss v) (by rw [hlen]; exact hΨ) ν
    (hg0 U (fun _ => v) measurable_const _ measurable_id)
  rw [← lintegral_avgBs (f := fun u bs => ENNReal.ofReal (Real.exp (g0 v u)) * pathInt (ss v) u (G v bs u)) ν
      fun bs hbs => (hGp bs hbs).comp measurable_prodMk_left]
  have hpull : ∀ (c : ℝ≥0∞) (f : Arr1 (Fin N) → ℝ≥0∞),
      avgBs N K (fun bs => c * f bs) = c * avgBs N K f := by
    intro c f
    simp only [avgBs, avgIdx_const_mul, ← Finset.mul_sum]
    ring
  simp only [hpull]
  have e1 : ∀ u (b : Fin N), extInt N (ss v) u (fun l => ∫⁻ y, Cf killingScheme.cond Ψ (ss v) l
      (initSt (g0 v) (Function.update y b u)) b ∂(Measure.pi fun _ => ν))
      = avgIdx N K fun bl => pathInt (ss v) u (G v (b, bl) u) := by
    intro u b
    rw [extInt_eq_avgIdx _ _ _ (hparam v u b), hlen]
  refine Eq.trans (lintegral_congr fun u => ?_) hi
  congr 1
  unfold avgBs
  congr 1
  exact Finset.sum_congr rfl fun b _ => (e1 u b).symm

omit [MeasurableSpace V] in
theorem steps_mem {S : StateSpace U V} {Q : (Fin N → ℝ) → Prop}
    (hQ : ∀ v v' t (x : Fin N → U), Q (normalise fun i => S.logG v v' t (x i))) :
    ∀ (vs : List V) (v : V) (l : List ℝ), ∀ s ∈ S.steps v vs l, ∀ x : Fin N → U, Q (normalise fun i => s.g (x i)) := by
  intro vs
  induction vs with
  | nil => intro v l s hs; cases l <;> simp [StateSpace.steps] at hs
  | cons v' vs ih =>
    intro v l s hs x
    cases l with
    | nil => simp [StateSpace.steps] at hs
    | cons t l =>
      simp only [StateSpace.steps, List.mem_cons] at hs
      rcases hs with rfl | hs
      · exact hQ v' v t x
      · exact ih v' l s hs x

omit [MeasurableSpace U] [MeasurableSpace V] in
theorem lastF_arr {K : ℕ} (F : U → List (Fin N) → ℝ≥0∞) (p : Fin (K + 1) → U) (bs : List (Fin N)) :
    lastF F (arr p).toList bs = F (p (Fin.last K)) bs := by
  have e : (arr p).toList = List.ofFn p := by rw [List.ofFn_succ]; rfl
  unfold lastF
  rw [e, List.getLast?_eq_some_getLast (by simp), List.getLast_ofFn]
  rfl

/-- The path handed to the conditional sampler ends at the state. -/
theorem paths_last {ef : Bool} {m : Gibbs.Funs (rows n ef) U V Z} {y0 : V} {ts : Arr1 ℝ} {K : ℕ}
    (hst : ∀ key x (F : U → ℝ≥0∞), Measurable F → (m.fwd key x y0).E (fun p => F (m.unpack p).1.1) = F x)
    {κ : Kernel U ((Fin (K + 1) → U) × (Fin (K + 1) → V))}
    (hp : ∀ key x φ, MeasPaths K φ →
      (gibbsPaths m false key x y0 ts).E (fun q => φ q.1 q.2) = ∫⁻ q, φ (arr q.1) (arr q.2) ∂(κ x))
    {f : U → ℝ≥0∞} (hf : Measurable f) (x : U) : ∀ᵐ q ∂(κ x), f (q.1 (Fin.last K)) = f x := by
  let F : U → ℝ≥0∞ := (f ⁻¹' {f x}ᶜ).indicator 1
  have hF : Measurable F := measurable_one.indicator (hf (measurableSet_singleton _).compl)
  let φ : Arr1 U → Arr1 V → ℝ≥0∞ := fun us _ => lastF (N := 1) (fun x _ => F x) us.toList []
  have hφ : MeasPaths K φ := by
    unfold MeasPaths
    simp only [φ, lastF_arr]
    exact hF.comp ((measurable_pi_apply _).comp measurable_fst)
  have h := hp [] x φ hφ
  have h0 : (gibbsPaths m false [] x y0 ts).E (fun q => φ q.1 q.2) = F x := by
    rw [← hst (split [] 3 0) x F hF]
    simp only [gibbsPaths, Rand.E_bind, Rand.pure_eq, Rand.E_ret, Bool.false_eq_true, if_false, φ]
    refine Rand.E_congr _ fun p => ?_
    rw [reverse_toList]
    simp [lastF, Arr1.toList]
  rw [h0, show F x = 0 by simp [F]] at h
  simp only [φ, lastF_arr] at h
  have h' := (lintegral_eq_zero_iff (hF.comp ((measurable_pi_apply (Fin.last K)).comp measurable_fst))).1 h.symm
  filter_upwards [h'] with q hq
  by_contra hne
  have : F (q.1 (Fin.last K)) = 1 := Set.indicator_of_mem (show q.1 (Fin.last K) ∈ f ⁻¹' {f x}ᶜ from hne) _
  simp only [Function.comp, Pi.zero_apply] at hq
  rw [this] at hq
  exact one_ne_zero hq

theorem mul_paths {ef : Bool} {m : Gibbs.Funs (rows n ef) U V Z} {y0 : V} {ts : Arr1 ℝ} {K : ℕ}
    (hst : ∀ key x (F : U → ℝ≥0∞), Measurable F → (m.fwd key x y0).E (fun p => F (m.unpack p).1.1) = F x)
    (hpk : PathsKer m false y0 ts K) {f : U → ℝ≥0∞} (hf : Measurable f) {φ : Arr1 U → Arr1 V → ℝ≥0∞} (hφ : MeasPaths K φ)
    (key : Key) (x : U) (bl : List (Fin N)) :
    f x * (gibbsPaths m false key x y0 ts).E (fun q => φ q.1 q.2)
      = (gibbsPaths m false key x y0 ts).E fun q => lastF (fun x _ => f x) q.1.toList bl * φ q.1 q.2 := by
  obtain ⟨κ, hκ, hp⟩ := hpk
  have hm : MeasPaths K fun us vs => lastF (fun x _ => f x) us.toList bl * φ us vs := by
    unfold MeasPaths at hφ ⊢
    simp only [lastF_arr]
    exact (hf.comp ((measurable_pi_apply (Fin.last K)).comp measurable_fst)).mul hφ
  rw [hp key x φ hφ, hp key x _ hm, ← lintegral_const_mul _ hφ]
  refine lintegral_congr_ae ?_
  filter_upwards [paths_last hst hp hf x] with q hq
  rw [lastF_arr, hq]

theorem E_paths_add {ef : Bool} {m : Gibbs.Funs (rows n ef) U V Z} {y0 : V} {ts : Arr1 ℝ} {K : ℕ}
    (hpk : PathsKer m false y0 ts K) {φ ψ : Arr1 U → Arr1 V → ℝ≥0∞} (hφ : MeasPaths K φ) (hψ : MeasPaths K ψ) {key : Key} {x : U} :
    (gibbsPaths m false key x y0 ts).E (fun q => φ q.1 q.2) + (gibbsPaths m false key x y0 ts).E (fun q => ψ q.1 q.2)
      = (gibbsPaths m false key x y0 ts).E fun q => φ q.1 q.2 + ψ q.1 q.2 := by
  obtain ⟨κ, hκ, hp⟩ := hpk
  rw [hp key x φ hφ, hp key x ψ hψ, hp key x (fun us vs => φ us vs + ψ us vs) (Measurable.add hφ hψ)]
  exact (lintegral_add_left hφ _).symm

omit [MeasurableSpace V] in
theorem measurable_gibbs {ef : Bool} [NeZero n] {m : Gibbs.Funs (rows n ef) U V Z} {y0 : V} {ts : Arr1 ℝ} {eb : Bool}
    {η : Kernel U U} {bs : Arr1 (Fin (rows n ef))} {key : Key}
    (hη : ∀ x F, Measurable F → (gibbsKernel ef m false eb key x y0 bs ts).E (fun out => F out.1) = ∫⁻ u, F u ∂(η x))
    {g : U → ℝ≥0∞} (hg : Measurable g) :
    Measurable fun x => (gibbsKernel ef m false eb key x y0 bs ts).E (fun out => g out.1) := by
  simp only [hη _ g hg]
  exact hg.lintegral_kernel

/-- Expectations of two products of functions of the old and the new state, `explicit_final=False`. -/
theorem gibbs_pair_of {K : ℕ} [NeZero n] {m : Gibbs.Funs (rows n false) U V Z} {S : StateSpace U V}
    (hS : S.JointMeas) {π0 : Measure U} {y0 : V} {ts : Arr1 ℝ} (hm : BackwardExact m S π0 y0 ts K)
    (hsh : PathShape m K) (hpk : PathsKer m false y0 ts K) (hts : ts.2.length = K) (eb : Bool)
    {Λ : Measure (U × (Fin (K + 1) → V))} (hΛ : ∀ key φ, MeasPaths K φ →
      ∫⁻ x, (m.fwd key x y0).E (fun p => φ (m.unpack p).1.reverse (m.unpack p).2.reverse) ∂π0
        = ∫⁻ q, pathInt (S.steps (arr q.2).1 (arr q.2).2 ts.toList) q.1 (fun l => φ (q.1, l) (arr q.2)) ∂Λ)
    (key : Key) (bs : Arr1 (Fin (rows n false))) (hb : bs.2.length = K) {f g f' g' : U → ℝ≥0∞} (hf : Measurable f)
    (hg : Measurable g) (hf' : Measurable f') (hg' : Measurable g') :
      ∫⁻ x, f x * (gibbsKernel false m false eb key x y0 bs ts).E (fun out => g out.1) ∂π0
        + ∫⁻ x, f' x * (gibbsKernel false m false eb key x y0 bs ts).E (fun out => g' out.1) ∂π0
      = ∫⁻ q, Rf killingScheme.joint (fun st b => pairΨ (lastF fun x _ => f x) (moveΨ eb g) st b
            + pairΨ (lastF fun x _ => f' x) (moveΨ eb g') st b)
          (S.steps (arr q.2).1 (arr q.2).2 ts.toList) (startSt (rows n false) (-Real.log n) q.1) ∂Λ := by
  have hmk : ∀ {f g : U → ℝ≥0∞}, Measurable f → Measurable g →
      MeasFun (N := rows n false) (1 + K) (pairΨ (lastF fun x _ => f x) (moveΨ eb g)) := fun hf hg =>
    measFun_pair (measOut_lastF (fun _ => hf) _) (measFun_move eb hg)
  have hstart : ∀ u : U, MeasSt 1 (fun _ : Unit => startSt (rows n false) (-Real.log n) u) := fun u =>
    measSt_start _ measurable_const
  rw [← gibbs_core_Rf hS hts (fun φ hφ => hΛ (split key 3 0) φ hφ) (-Real.log n)
    (measFun_add (hmk hf hg) (hmk hf' hg'))]
  obtain ⟨η, hη, hE⟩ := gibbs_ker hS hm.trans hm.lik hm.starts hsh false eb hts hpk
  have hm1 : Measurable fun x => f x * (gibbsKernel false m false eb key x y0 bs ts).E (fun out => g out.1) :=
    hf.mul (measurable_gibbs (fun x F hF => hE key x bs hb F hF) hg)
  rw [← lintegral_add_left hm1,
    ← avgBs_const (N := rows n false) K (∫⁻ x, _ ∂π0)]
  refine avgBs_congr fun cs hcs => lintegral_congr fun x => ?_
  have e : ∀ {f g : U → ℝ≥0∞}, Measurable f → Measurable g →
      f x * (gibbsKernel false m false eb key x y0 bs ts).E (fun out => g out.1)
        = (gibbsPaths m false key x y0 ts).E fun q => lastF (fun x _ => f x) q.1.toList cs.toList *
          Cf killingScheme.cond (moveΨ eb g) (S.steps q.2.1 q.2.2 ts.toList) (q.1.2.zip cs.2)
            (startSt (rows n false) (-Real.log n) q.1.1) cs.1 := by
    intro f g hf hg
    rw [C58_gibbs_index_free hm.trans hm.lik hm.starts hsh false eb key x hcs hb hts hg,
      E_gibbs_x0 hm.starts false eb key x cs ts hg,
      ← mul_paths hm.starts hpk hf (measPaths_pinned hS (measFun_move eb hg) (-Real.log n) hts hcs) key x]
    congr 1
    refine Rand.E_congr_leaves (leaves_gibbsPaths false key x y0 ts hsh) fun q hq => ?_
    obtain ⟨hu, hv⟩ := hq
    exact E_forwardPass_pinned hm.trans hm.lik _ ts.1 q.1 cs q.2 ts (hu.trans hv.symm) (hcs.trans hv.symm)
      (hts.trans hv.symm) (measFun_move eb hg)
  have hmp : ∀ {f g : U → ℝ≥0∞}, Measurable f → Measurable g → MeasPaths K fun us vs =>
      lastF (fun x _ => f x) us.toList cs.toList * Cf killingScheme.cond (moveΨ eb g) (S.steps vs.1 vs.2 ts.toList)
        (us.2.zip cs.2) (startSt (rows n false) (-Real.log n) us.1) cs.1 := by
    intro f g hf hg
    have h := measPaths_pinned (N := rows n false) hS (measFun_move eb hg) (-Real.log n) hts hcs
    unfold MeasPaths at h ⊢
    simp only [lastF_arr]
    exact (hf.comp ((measurable_pi_apply (Fin.last K)).comp measurable_fst)).mul h
  rw [e hf hg, e hf' hg', E_paths_add hpk (hmp hf hg) (hmp hf' hg')]
  have eI : ∀ φ : Arr1 U → Arr1 V → ℝ≥0∞, (m.fwd (split key 3 0) x y0).E
      (fun p => φ (m.unpack p).1.reverse (m.unpack p).2.reverse)
        = (gibbsPaths m false key x y0 ts).E fun q => φ q.1 q.2 := fun φ => by
    simp only [gibbsPaths, Rand.E_bind, Rand.pure_eq, Rand.E_ret, Bool.false_eq_true, if_false]
  rw [eI fun us vs => Cf killingScheme.cond (fun st b => pairΨ (lastF fun x _ => f x) (moveΨ eb g) st b
    + pairΨ (lastF fun x _ => f' x) (moveΨ eb g') st b) (S.steps vs.1 vs.2 ts.toList) (us.2.zip cs.2)
      (startSt (rows n false) (-Real.log n) us.1) cs.1]
  refine Rand.E_congr_leaves (leaves_gibbsPaths false key x y0 ts hsh) fun q hq => ?_
  obtain ⟨hu, hv⟩ := hq
  have hlen : (S.steps q.2.1 q.2.2 ts.toList).length = K := by
    rw [Csmc.steps_length _ _ _ _ (by simp [Arr1.toList, hts, hv]), hv]
  have hz : (q.1.2.zip cs.2).length = (S.steps q.2.1 q.2.2 ts.toList).length := by
    rw [hlen]; simp [hu, hcs]
  have hk : ∀ {f g : U → ℝ≥0∞}, Measurable f → Measurable g →
      Cf killingScheme.cond (pairΨ (lastF fun x _ => f x) (moveΨ eb g)) (S.steps q.2.1 q.2.2 ts.toList) (q.1.2.zip cs.2)
        (startSt (rows n false) (-Real.log n) q.1.1) cs.1
      = lastF (fun x _ => f x) q.1.toList cs.toList * Cf killingScheme.cond (moveΨ eb g) (S.steps q.2.1 q.2.2 ts.toList)
        (q.1.2.zip cs.2) (startSt (rows n false) (-Real.log n) q.1.1) cs.1 := by
    intro f g hf hg
    refine (Cf_keep_mul killingScheme (lastF fun x _ => f x) _ _ 1 _ cs.1 hz (hstart _) (measFun_move eb hg)
      (normalise_weights _) fun i => normalise_pos _ i).trans ?_
    congr 1
    simp only [startSt, initSt, List.singleton_append, List.map_cons]
    rw [List.map_fst_zip (by omega), List.map_snd_zip (by omega)]
    rfl
  rw [Cf_add killingScheme.meas _ _ 1 _ _ hz (hstart _) (by rw [hlen]; exact hmk hf hg), hk hf hg, hk hf' hg']

/-- Expectations of two products of functions of the old and the new state, `explicit_final=False`. -/
theorem gibbs_pair {K : ℕ} [NeZero n] {m : Gibbs.Funs (rows n false) U V Z} {S : StateSpace U V}
    (hS : S.JointMeas) {π0 : Measure U} {y0 : V} {ts : Arr1 ℝ} (hm : BackwardExact m S π0 y0 ts K)
    (hsh : PathShape m K) (hpk : PathsKer m false y0 ts K) (hts : ts.2.length = K) (eb : Bool) :
    ∃ Λ : Measure (U × (Fin (K + 1) → V)), ∀ (key : Key) (bs : Arr1 (Fin (rows n false))), bs.2.length = K →
      ∀ {f g f' g' : U → ℝ≥0∞}, Measurable f → Measurable g → Measurable f' → Measurable g' →
      ∫⁻ x, f x * (gibbsKernel false m false eb key x y0 bs ts).E (fun out => g out.1) ∂π0
        + ∫⁻ x, f' x * (gibbsKernel false m false eb key x y0 bs ts).E (fun out => g' out.1) ∂π0
      = ∫⁻ q, Rf killingScheme.joint (fun st b => pairΨ (lastF fun x _ => f x) (moveΨ eb g) st b
            + pairΨ (lastF fun x _ => f' x) (moveΨ eb g') st b)
          (S.steps (arr q.2).1 (arr q.2).2 ts.toList) (startSt (rows n false) (-Real.log n) q.1) ∂Λ := by
  obtain ⟨Λ, hΛ⟩ := hm.factor
  exact ⟨Λ, fun key bs hb _ _ _ _ hf hg hf' hg' => gibbs_pair_of hS hm hsh hpk hts eb hΛ key bs hb hf hg hf' hg'⟩

/-- The same with `explicit_final=True`. -/
theorem gibbs_final_pair_of {K : ℕ} [NeZero n] {m : Gibbs.Funs (rows n true) U V Z} {S : StateSpace U V}
    (hS : S.JointMeas) {ν : Measure U} [IsProbabilityMeasure ν] {π0 : Measure U} {y0 : V} {ts : Arr1 ℝ}
    (hm : ReferenceExact m S ν π0 y0 ts K fun v u => S.logG (arr v).1 ((arr v).2.headD (arr v).1) ts.1 u)
    (hsh : PathShape m K) (hpk : PathsKer m false y0 ts K) (hts : ts.2.length = K) (eb : Bool)
    {Λ : Measure (Fin (K + 1) → V)} (hΛ : ∀ key φ, MeasPaths K φ →
      ∫⁻ x, (m.fwd key x y0).E (fun p => φ (m.unpack p).1.reverse (m.unpack p).2.reverse) ∂π0
        = ∫⁻ v, ∫⁻ u, ENNReal.ofReal (Real.exp (S.logG (arr v).1 ((arr v).2.headD (arr v).1) ts.1 u)) *
          pathInt (S.steps (arr v).1 (arr v).2 ts.toList) u (fun l => φ (u, l) (arr v)) ∂ν ∂Λ)
    (key : Key) (bs : Arr1 (Fin (rows n true))) (hb : bs.2.length = K) {f g f' g' : U → ℝ≥0∞} (hf : Measurable f)
    (hg : Measurable g) (hf' : Measurable f') (hg' : Measurable g') :
      ∫⁻ x, f x * (gibbsKernel true m false eb key x y0 bs ts).E (fun out => g out.1) ∂π0
        + ∫⁻ x, f' x * (gibbsKernel true m false eb key x y0 bs ts).E (fun out => g' out.1) ∂π0
      = ∫⁻ v, ∫⁻ y, ((rows n true : ℕ) : ℝ≥0∞)⁻¹ *
          ENNReal.ofReal (∑ i, Real.exp (S.logG (arr v).1 ((arr v).2.headD (arr v).1) ts.1 (y i))) *
          Rf killingScheme.joint (fun st b => pairΨ (lastF fun x _ => f x) (moveΨ eb g) st b
            + pairΨ (lastF fun x _ => f' x) (moveΨ eb g') st b) (S.steps (arr v).1 (arr v).2 ts.toList)
            (initSt (S.logG (arr v).1 ((arr v).2.headD (arr v).1) ts.1) y)
              ∂(Measure.pi fun _ : Fin (rows n true) => ν) ∂Λ := by
  have hmk : ∀ {f g : U → ℝ≥0∞}, Measurable f → Measurable g →
      MeasFun (N := rows n true) (1 + K) (pairΨ (lastF fun x _ => f x) (moveΨ eb g)) := fun hf hg =>
    measFun_pair (measOut_lastF (fun _ => hf) _) (measFun_move eb hg)
  rw [← ref_core_Rf hS hts (fun φ hφ => hΛ (split key 3 0) φ hφ) (measFun_add (hmk hf hg) (hmk hf' hg'))]
  obtain ⟨η, hη, hE⟩ := gibbs_final_ker hS hm.trans hm.lik hm.normal hm.starts hsh false eb hts hpk
  have hm1 : Measurable fun x => f x * (gibbsKernel true m false eb key x y0 bs ts).E (fun out => g out.1) :=
    hf.mul (measurable_gibbs (fun x F hF => hE key x bs hb F hF) hg)
  rw [← lintegral_add_left hm1, ← avgBs_const (N := rows n true) K (∫⁻ x, _ ∂π0)]
  refine avgBs_congr fun cs hcs => lintegral_congr fun x => ?_
  let Φ : (St (rows n true) U → Fin (rows n true) → ℝ≥0∞) → Arr1 U → Arr1 V → ℝ≥0∞ := fun Ψ us vs =>
    ∫⁻ y, Cf killingScheme.cond Ψ (S.steps vs.1 vs.2 ts.toList) (us.2.zip cs.2)
      (initSt (S.logG vs.1 (vs.2.headD vs.1) ts.1) (Function.update y cs.1 us.1)) cs.1 ∂(Measure.pi fun _ => ν)
  have e : ∀ {f g : U → ℝ≥0∞}, Measurable f → Measurable g →
      f x * (gibbsKernel true m false eb key x y0 bs ts).E (fun out => g out.1)
        = (gibbsPaths m false key x y0 ts).E fun q => lastF (fun x _ => f x) q.1.toList cs.toList *
          Φ (moveΨ eb g) q.1 q.2 := by
    intro f g hf hg
    rw [C58_gibbs_final_index_free hm.trans hm.lik hm.normal hm.starts hsh false eb key x hcs hb hts hg,
      E_gibbs_x0 hm.starts false eb key x cs ts hg,
      ← mul_paths hm.starts hpk hf (measPaths_ref hS (measFun_move eb hg) ν hts hcs) key x]
    congr 1
    refine Rand.E_congr_leaves (leaves_gibbsPaths false key x y0 ts hsh) fun q hq => ?_
    obtain ⟨hu, hv⟩ := hq
    exact E_forwardPass_ref hm.trans hm.lik hm.normal _ ts.1 q.1 cs q.2 ts (hu.trans hv.symm) (hcs.trans hv.symm)
      (hts.trans hv.symm) (measFun_move eb hg)
  have hmp : ∀ {f g : U → ℝ≥0∞}, Measurable f → Measurable g → MeasPaths K fun us vs =>
      lastF (fun x _ => f x) us.toList cs.toList * Φ (moveΨ eb g) us vs := by
    intro f g hf hg
    have h := measPaths_ref (N := rows n true) hS (measFun_move eb hg) ν hts hcs
    unfold MeasPaths at h ⊢
    simp only [lastF_arr]
    exact (hf.comp ((measurable_pi_apply (Fin.last K)).comp measurable_fst)).mul h
  rw [e hf hg, e hf' hg', E_paths_add hpk (hmp hf hg) (hmp hf' hg')]
  have eI : ∀ φ : Arr1 U → Arr1 V → ℝ≥0∞, (m.fwd (split key 3 0) x y0).E
      (fun p => φ (m.unpack p).1.reverse (m.unpack p).2.reverse)
        = (gibbsPaths m false key x y0 ts).E fun q => φ q.1 q.2 := fun φ => by
    simp only [gibbsPaths, Rand.E_bind, Rand.pure_eq, Rand.E_ret, Bool.false_eq_true, if_false]
  rw [eI (Φ fun st b => pairΨ (lastF fun x _ => f x) (moveΨ eb g) st b
    + pairΨ (lastF fun x _ => f' x) (moveΨ eb g') st b)]
  refine Rand.E_congr_leaves (leaves_gibbsPaths false key x y0 ts hsh) fun q hq => ?_
  obtain ⟨hu, hv⟩ := hq
  have hlen : (S.steps q.2.1 q.2.2 ts.toList).length = K := by
    rw [Csmc.steps_length _ _ _ _ (by simp [Arr1.toList, hts, hv]), hv]
  have hz : (q.1.2.zip cs.2).length = (S.steps q.2.1 q.2.2 ts.toList).length := by
    rw [hlen]; simp [hu, hcs]
  have hini : MeasSt 1 fun y : Fin (rows n true) → U =>
      initSt (S.logG q.2.1 (q.2.2.headD q.2.1) ts.1) (Function.update y cs.1 q.1.1) :=
    measSt_init (S.measG _ _ _) (measurable_update_pi measurable_id measurable_const)
  have hstart := fun y : Fin (rows n true) → U => hini.comp (f := fun _ : Unit => y) measurable_const
  have hk : ∀ {f g : U → ℝ≥0∞}, Measurable f → Measurable g → ∀ y : Fin (rows n true) → U,
      Cf killingScheme.cond (pairΨ (lastF fun x _ => f x) (moveΨ eb g)) (S.steps q.2.1 q.2.2 ts.toList) (q.1.2.zip cs.2)
        (initSt (S.logG q.2.1 (q.2.2.headD q.2.1) ts.1) (Function.update y cs.1 q.1.1)) cs.1
      = lastF (fun x _ => f x) q.1.toList cs.toList * Cf killingScheme.cond (moveΨ eb g) (S.steps q.2.1 q.2.2 ts.toList)
        (q.1.2.zip cs.2) (initSt (S.logG q.2.1 (q.2.2.headD q.2.1) ts.1) (Function.update y cs.1 q.1.1)) cs.1 := by
    intro f g hf hg y
    refine (Cf_keep_mul killingScheme (lastF fun x _ => f x) _ _ 1 _ cs.1 hz (hstart y) (measFun_move eb hg)
      (normalise_weights _) fun i => normalise_pos _ i).trans ?_
    congr 1
    simp only [initSt, Function.update_self, List.singleton_append, List.map_cons]
    rw [List.map_fst_zip (by omega), List.map_snd_zip (by omega)]
    rfl
  have hCm : ∀ {g : U → ℝ≥0∞}, Measurable g → Measurable fun y : Fin (rows n true) → U =>
      Cf killingScheme.cond (moveΨ eb g) (S.steps q.2.1 q.2.2 ts.toList) (q.1.2.zip cs.2)
        (initSt (S.logG q.2.1 (q.2.2.headD q.2.1) ts.1) (Function.update y cs.1 q.1.1)) cs.1 := fun hg =>
    measurable_Cf_fixed killingScheme.meas _ 1 (measFun_move eb hg) hini _ hz _
  simp only [Φ]
  rw [← lintegral_const_mul _ (hCm hg), ← lintegral_const_mul _ (hCm hg'), ← lintegral_add_left ((hCm hg).const_mul _)]
  refine lintegral_congr fun y => ?_
  rw [Cf_add killingScheme.meas _ _ 1 _ _ hz (hstart y) (by rw [hlen]; exact hmk hf hg), hk hf hg, hk hf' hg']

/-- The same with `explicit_final=True`. -/
theorem gibbs_final_pair {K : ℕ} [NeZero n] {m : Gibbs.Funs (rows n true) U V Z} {S : StateSpace U V}
    (hS : S.JointMeas) {ν : Measure U} [IsProbabilityMeasure ν] {π0 : Measure U} {y0 : V} {ts : Arr1 ℝ}
    (hm : ReferenceExact m S ν π0 y0 ts K fun v u => S.logG (arr v).1 ((arr v).2.headD (arr v).1) ts.1 u)
    (hsh : PathShape m K) (hpk : PathsKer m false y0 ts K) (hts : ts.2.length = K) (eb : Bool) :
    ∃ Λ : Measure (Fin (K + 1) → V), ∀ (key : Key) (bs : Arr1 (Fin (rows n true))), bs.2.length = K →
      ∀ {f g f' g' : U → ℝ≥0∞}, Measurable f → Measurable g → Measurable f' → Measurable g' →
      ∫⁻ x, f x * (gibbsKernel true m false eb key x y0 bs ts).E (fun out => g out.1) ∂π0
        + ∫⁻ x, f' x * (gibbsKernel true m false eb key x y0 bs ts).E (fun out => g' out.1) ∂π0
      = ∫⁻ v, ∫⁻ y, ((rows n true : ℕ) : ℝ≥0∞)⁻¹ *
          ENNReal.ofReal (∑ i, Real.exp (S.logG (arr v).1 ((arr v).2.headD (arr v).1) ts.1 (y i))) *
          Rf killingScheme.joint (fun st b => pairΨ (lastF fun x _ => f x) (moveΨ eb g) st b
            + pairΨ (lastF fun x _ => f' x) (moveΨ eb g') st b) (S.steps (arr v).1 (arr v).2 ts.toList)
            (initSt (S.logG (arr v).1 ((arr v).2.headD (arr v).1) ts.1) y)
              ∂(Measure.pi fun _ : Fin (rows n true) => ν) ∂Λ := by
  obtain ⟨Λ, hΛ⟩ := hm.factor
  exact ⟨Λ, fun key bs hb _ _ _ _ hf hg hf' hg' => gibbs_final_pair_of hS hm hsh hpk hts eb hΛ key bs hb hf hg hf' hg'⟩

end

end Props
end Fbs
