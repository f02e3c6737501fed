import Verif.Props.GibbsLaw

/-!
# C15: `explicit_final=True`
-/

open MeasureTheory ProbabilityTheory
open scoped ENNReal

namespace Fbs
namespace Props

open Jax Spec Csmc Gibbs

variable {n N : ℕ} {U V Z : Type} [MeasurableSpace U]

/-- The model with initial law `ν`, weighted initially by the likelihood with its arguments in the order of
`gibbs.py:136-137`. -/
noncomputable def refSpace (S : StateSpace U V) (ν : Measure U) [IsProbabilityMeasure ν] (t0 : ℝ) :
    StateSpace U V :=
  { S with
    init := ν
    prob := inferInstance
    logG0 := fun v0 v1 u => S.logG v0 v1 t0 u
    measG0 := fun v0 v1 => S.measG v0 v1 t0 }

theorem steps_refSpace (S : StateSpace U V) (ν : Measure U) [IsProbabilityMeasure ν] (t0 : ℝ) :
    ∀ (v : V) (vs : List V) (ts : List ℝ), (refSpace S ν t0).steps v vs ts = S.steps v vs ts
  | _, [], ts => by cases ts <;> rfl
  | v, v' :: vs, t :: ts => by
    simp only [StateSpace.steps, steps_refSpace S ν t0 v' vs ts]
    rfl
  | _, _ :: _, [] => rfl

theorem E_forwardPass_ref [NeZero n] {m : Gibbs.Funs (rows n true) U V Z} {S : StateSpace U V}
    {ν : Measure U} [IsProbabilityMeasure ν]
    (htr : ∀ xs v t k (F : (Fin (rows n true) → U) → ℝ≥0∞), Measurable F →
      (m.transSampler xs v t k).E F = ∫⁻ x, F x ∂(Measure.pi fun i => S.trans v t (xs i)))
    (hlik : ∀ v xs v' t i, m.lik v xs v' t i = S.logG v v' t (xs i))
    (hn : ∀ k r (F : (Fin (rows n true) → U) → ℝ≥0∞), Measurable F →
      (m.normal k r).E F = ∫⁻ x, F x ∂(Measure.pi fun _ => ν))
    {Ψ : St (rows n true) U → Fin (rows n true) → ℝ≥0∞} (key : Key) (t0 : ℝ)
    (us : Arr1 U) (bs : Arr1 (Fin (rows n true))) (vs : Arr1 V) (ts : Arr1 ℝ)
    (hl : us.2.length = vs.2.length) (hb : bs.2.length = vs.2.length) (ht : ts.2.length = vs.2.length)
    (hΨ : MeasFun (1 + vs.2.length) Ψ) :
    (forwardPass (csmcFuns true m us.1 t0) CsmcResampling.killing n key us bs vs ts).E
        (fun out => Ψ (finalSt out) bs.last)
      = ∫⁻ y, Cf killingScheme.cond Ψ (S.steps vs.1 vs.2 ts.toList) (us.2.zip bs.2)
        (initSt (S.logG vs.1 (vs.2.headD vs.1) t0) (Function.update y bs.1 us.1)) bs.1
          ∂(Measure.pi fun _ => ν) := by
  obtain ⟨u, l⟩ := us
  obtain ⟨b, bl⟩ := bs
  simp only at hl hb
  have hz : (l.zip bl).length = vs.2.length := by simp [hl, hb]
  have hi : Implements (csmcFuns true m u t0) (refSpace S ν t0) :=
    ⟨hn, htr, hlik, fun v xs v' i => hlik v xs v' t0 i⟩
  have h := E_forwardPass hi killingScheme n key ((u, b), l.zip bl) vs ts
    hz.symm (ht.trans hz.symm) (by rw [hz]; exact hΨ)
  have h1 : Arr1.map Prod.fst (((u, b), l.zip bl) : Arr1 (U × Fin (rows n true))) = (u, l) := by
    simp [Arr1.map, List.map_fst_zip, hl, hb]
  have h2 : Arr1.map Prod.snd (((u, b), l.zip bl) : Arr1 (U × Fin (rows n true))) = (b, bl) := by
    simp [Arr1.map, List.map_snd_zip, hl, hb]
  rw [h1, h2] at h
  rw [h, steps_refSpace]
  rfl

theorem measSt_init_param {Y : Type} [MeasurableSpace Y] [NeZero N] {g0 : Y → U → ℝ} {y : Y → Fin N → U}
    (hg : ∀ x : Y → U, Measurable x → Measurable fun z => g0 z (x z)) (hy : Measurable y) :
    MeasSt 1 (fun z => initSt (g0 z) (y z)) := by
  have hW : Measurable fun z => normalise fun i => g0 z (y z i) := by
    apply measurable_normalise
    exact measurable_pi_iff.2 fun i => hg _ ((measurable_pi_apply i).comp hy)
  refine ⟨hy, hW, ⟨fun z i _ => (y z i, i), ?_, fun z i => rfl⟩,
    ⟨fun z _ => (y z, normalise fun i => g0 z (y z i)), measurable_pi_iff.2 fun _ => hy.prodMk hW, fun z => rfl⟩⟩
  · exact measurable_pi_iff.2 fun i => measurable_pi_iff.2 fun j =>
      ((measurable_pi_apply i).comp hy).prodMk measurable_const

/-- The particle system identity, for a fixed path of observations. -/
theorem ref_step [NeZero N] {Ψ : St N U → Fin N → ℝ≥0∞} (ss : List (FKStep U))
    (hΨ : MeasFun (1 + ss.length) Ψ) (ν : Measure U) [IsProbabilityMeasure ν] {g0 : U → ℝ} (hg : Measurable g0)
    {Q : (Fin N → ℝ) → Prop} {F : U → List (Fin N) → ℝ≥0∞} (hF : ∀ bl, Measurable fun x => F x bl)
    (hQ : ∀ s ∈ ss, ∀ x : Fin N → U, Q (normalise fun i => s.g (x i)))
    (hQ0 : ∀ x : Fin N → U, Q (normalise fun i => g0 (x i)))
    (h : ∀ st : St N U, Weights st.W → Q st.W →
      ∑ b, ENNReal.ofReal (st.W b) * Ψ st b = ∑ b, ENNReal.ofReal (st.W b) * keepΨ (lastF F) st b) :
    ∫⁻ u, ENNReal.ofReal (Real.exp (g0 u)) * ((N : ℝ≥0∞)⁻¹ * ∑ b : Fin N, extInt N ss u
        (fun l => ∫⁻ y, Cf killingScheme.cond Ψ ss l (initSt g0 (Function.update y b u)) b
          ∂(Measure.pi fun _ => ν))) ∂ν
      = ∫⁻ u, ENNReal.ofReal (Real.exp (g0 u)) * ((N : ℝ≥0∞)⁻¹ * ∑ b : Fin N, extInt N ss u
        (fun l => lastF F (u :: l.map Prod.fst) (b :: l.map Prod.snd))) ∂ν := by
  have hk := measFun_keep (measOut_lastF (N := N) hF (1 + ss.length))
  have e : ∀ u (b : Fin N), extInt N ss u (fun l => lastF F (u :: l.map Prod.fst) (b :: l.map Prod.snd))
      = extInt N ss u (fun l => ∫⁻ y, Cf killingScheme.cond (keepΨ (lastF F)) ss l
          (initSt g0 (Function.update y b u)) b ∂(Measure.pi fun _ : Fin N => ν)) := by
    intro u b
    refine extInt_congr _ _ fun l hl => ?_
    have : ∀ y, Cf killingScheme.cond (keepΨ (lastF F)) ss l (initSt g0 (Function.update y b u)) b
        = lastF F (u :: l.map Prod.fst) (b :: l.map Prod.snd) := by
      intro y
      rw [Cf_keep killingScheme _ _ _ hl _ _ (normalise_weights _) (fun i => normalise_pos _ i)]
      simp [initSt]
    rw [lintegral_congr this]
    simp
  simp only [e]
  rw [init_identity killingScheme ss hΨ ν hg, init_identity killingScheme ss hk ν hg]
  refine lintegral_congr fun y => ?_
  rw [Rf_congr_on _ h ss hQ _ (normalise_weights _) (hQ0 y)]

/-! ### Assembly -/

variable [MeasurableSpace V]

/-- The analogue of `gibbs_core` for particles started from the reference law. -/
theorem ref_core_law {K : ℕ} [NeZero N] {S : StateSpace U V} (hS : S.JointMeas)
    {ν : Measure U} [IsProbabilityMeasure ν] {ts : Arr1 ℝ} (hts : ts.2.length = K)
    {Λ : Measure (Fin (K + 1) → V)} {I : (Arr1 U → Arr1 V → ℝ≥0∞) → ℝ≥0∞}
    (hΛ : ∀ φ, MeasPaths K φ → I φ =
      ∫⁻ v, ∫⁻ u, ENNReal.ofReal (Real.exp (S.logG (arr v).1 ((arr v).2.headD (arr v).1) ts.1 u)) *
        pathInt (S.steps (arr v).1 (arr v).2 ts.toList) u (fun l => φ (u, l) (arr v)) ∂ν ∂Λ)
    {Ψ : St N U → Fin N → ℝ≥0∞} (hΨ : MeasFun (1 + K) Ψ)
    {Q : (Fin N → ℝ) → Prop}
    (hQ : ∀ v v' t (x : Fin N → U), Q (normalise fun i => S.logG v v' t (x i)))
    {F : U → List (Fin N) → ℝ≥0∞} (hF : ∀ bl, Measurable fun x => F x bl)
    (h : ∀ st : St N U, Weights st.W → Q st.W →
      ∑ b, ENNReal.ofReal (st.W b) * Ψ st b = ∑ b, ENNReal.ofReal (st.W b) * keepΨ (lastF F) st b)
    {R : Arr1 U → Arr1 V → Arr1 (Fin N) → ℝ≥0∞}
    (hR : ∀ us vs bs, us.2.length = K → vs.2.length = K → bs.2.length = K →
      R us vs bs = ∫⁻ y, Cf killingScheme.cond Ψ (S.steps vs.1 vs.2 ts.toList) (us.2.zip bs.2)
        (initSt (S.logG vs.1 (vs.2.headD vs.1) ts.1) (Function.update y bs.1 us.1)) bs.1
          ∂(Measure.pi fun _ => ν)) :
    avgBs N K (fun bs => I fun us vs => R us vs bs) = avgBs N K (fun bs => I fun us _ => lastF F us.toList bs.toList) := by
  have htl : K ≤ ts.toList.length := by simp [Arr1.toList, hts]
  let ss : (Fin (K + 1) → V) → List (FKStep U) := fun v => S.steps (arr v).1 (arr v).2 ts.toList
  let g0 : (Fin (K + 1) → V) → U → ℝ := fun v u => S.logG (arr v).1 ((arr v).2.headD (arr v).1) ts.1 u
  have hg0 : ∀ (Y : Type) [MeasurableSpace Y] (v : Y → Fin (K + 1) → V) (_ : Measurable v) (x : Y → U)
      (_ : Measurable x), Measurable fun y => g0 (v y) (x y) := by
    intro Y _ v hv x hx
    have h1 : Measurable fun y => (arr (v y)).1 := (measurable_pi_apply 0).comp hv
    have h2 : Measurable fun y => (arr (v y)).2.headD (arr (v y)).1 := by
      cases K with
      | zero => simpa [arr] using h1
      | succ K =>
        have h3 : Measurable fun y => v y 1 := (measurable_pi_apply 1).comp hv
        simpa [arr] using h3
    exact (hS.2 ts.1).comp (h1.prodMk (h2.prodMk hx))
  have hss : ∀ v, ss v = seqSteps S (ext v) K ts.toList := by
    intro v; simp only [ss, arr_eq]; rfl
  have hlen : ∀ v, (ss v).length = K := by
    intro v
    simp only [ss]
    rw [steps_length]
    · simp [arr]
    · simp [arr, Arr1.toList, hts]
  have hmem : ∀ (vs : List V) (v : V) (l : List ℝ), ∀ s ∈ S.steps v vs l, ∀ x : Fin N → U,
      Q (normalise fun i => s.g (x i)) := by
    intro vs
    induction vs with
    | nil => intro v l s hs; cases l <;> simp [StateSpace.steps] at hs
    | cons v' vs ih =>
      intro v l s hs x
      cases l with
      | nil => simp [StateSpace.steps] at hs
      | cons t l =>
        simp only [StateSpace.steps, List.mem_cons] at hs
        rcases hs with rfl | hs
        · exact hQ v' v t x
        · exact ih v' l s hs x
  -- the value along the backward representation
  let G : (Fin (K + 1) → V) → Arr1 (Fin N) → U → List U → ℝ≥0∞ := fun v bs u l =>
    ∫⁻ y, Cf killingScheme.cond Ψ (ss v) (l.zip bs.2) (initSt (g0 v) (Function.update y bs.1 u)) bs.1
      ∂(Measure.pi fun _ => ν)
  have hG : ∀ bs : Arr1 (Fin N), bs.2.length = K → ∀ (Y : Type) [MeasurableSpace Y]
      (v : Y → Fin (K + 1) → V) (_ : Measurable v) (u : Y → U) (_ : Measurable u) (p : Y → ℕ → U)
      (_ : Measurable p), Measurable fun y => G (v y) bs (u y) ((List.range K).map (p y)) := by
    intro bs hbs Y _ v hv u hu p hp
    simp only [G, hss, zip_range _ bs.2 hbs bs.1]
    refine Measurable.lintegral_prod_right' (f := fun z : Y × (Fin N → U) => Cf killingScheme.cond Ψ
      (seqSteps S (ext (v z.1)) K ts.toList) ((List.range K).map fun j => (p z.1 j, bs.2.getD j bs.1))
      (initSt (g0 (v z.1)) (Function.update z.2 bs.1 (u z.1))) bs.1) ?_
    refine measurable_Cf_obs killingScheme.meas S hS K ts.toList htl 1 hΨ (Y × (Fin N → U)) _ ?_
      (fun z j => (p z.1 j, bs.2.getD j bs.1))
      (measurable_pi_iff.2 fun j => ((measurable_pi_apply j).comp (hp.comp measurable_fst)).prodMk
        measurable_const)
      (fun z => ext (v z.1)) (measurable_ext.comp (hv.comp measurable_fst)) bs.1
    exact measSt_init_param (fun x hx => hg0 _ _ (hv.comp measurable_fst) x hx)
      (measurable_update_pi measurable_snd (hu.comp measurable_fst))
  have hw : Measurable fun q : (Fin (K + 1) → V) × U => ENNReal.ofReal (Real.exp (g0 q.1 q.2)) :=
    ENNReal.measurable_ofReal.comp (Real.measurable_exp.comp (hg0 _ _ measurable_fst _ measurable_snd))
  have hGp : ∀ bs : Arr1 (Fin N), bs.2.length = K → Measurable fun q : (Fin (K + 1) → V) × U =>
      ENNReal.ofReal (Real.exp (g0 q.1 q.2)) * pathInt (ss q.1) q.2 (G q.1 bs q.2) := by
    intro bs hbs
    refine hw.mul ?_
    simp only [hss]
    refine measurable_pathInt_obs S hS K ts.toList htl _ (fun q l => G q.1 bs q.2 l) ?_ _ measurable_snd
      (fun q => ext q.1) (measurable_ext.comp measurable_fst)
    exact hG bs hbs _ _ (measurable_fst.comp measurable_fst) _ (measurable_snd.comp measurable_fst) _
      measurable_snd
  let H : Arr1 (Fin N) → U → List U → ℝ≥0∞ := fun bs u l => lastF F (u :: l) bs.toList
  have hH : ∀ (bs : Arr1 (Fin N)) (Y : Type) [MeasurableSpace Y] (u : Y → U) (_ : Measurable u)
      (p : Y → ℕ → U) (_ : Measurable p), Measurable fun y => H bs (u y) ((List.range K).map (p y)) := by
    intro bs Y _ u hu p hp
    have e : ∀ y, H bs (u y) ((List.range K).map (p y))
        = F (Nat.casesOn K (u y) (p y)) bs.toList := by
      intro y
      simp only [H, lastF]
      cases K with
      | zero => simp
      | succ K => simp [List.range_succ, List.getLast?_append, List.getLast?_cons]
    simp only [e]
    refine (hF bs.toList).comp ?_
    cases K with
    | zero => exact hu
    | succ K => exact (measurable_pi_apply K).comp hp
  have hHp : ∀ bs : Arr1 (Fin N), Measurable fun q : (Fin (K + 1) → V) × U =>
      ENNReal.ofReal (Real.exp (g0 q.1 q.2)) * pathInt (ss q.1) q.2 (H bs q.2) := by
    intro bs
    refine hw.mul ?_
    simp only [hss]
    refine measurable_pathInt_obs S hS K ts.toList htl _ (fun q l => H bs q.2 l) ?_ _ measurable_snd
      (fun q => ext q.1) (measurable_ext.comp measurable_fst)
    exact hH bs _ _ (measurable_snd.comp measurable_fst) _ measurable_snd
  have hparam : ∀ (v : Fin (K + 1) → V) (u : U) (b : Fin N), MeasParam (Z := Unit) (ss v).length
      (fun _ l => ∫⁻ y, Cf killingScheme.cond Ψ (ss v) l (initSt (g0 v) (Function.update y b u)) b
        ∂(Measure.pi fun _ => ν)) := by
    intro v u b
    have h1 := measParam_Cf (Z := Fin N → U) killingScheme.meas (ss v) 1 (by rw [hlen]; exact hΨ)
      (measSt_init (g0 := g0 v) (hg0 U _ measurable_const _ measurable_id)
        (measurable_update_pi (b := b) measurable_id (measurable_const (a := u)))) b
    unfold MeasParam at h1 ⊢
    have h2 : Measurable fun z : (Unit × (ℕ → U × Fin N)) × (Fin N → U) => (z.2, z.1.2) := by fun_prop
    exact (h1.comp h2).lintegral_prod_right'
  have hparam' : ∀ (v : Fin (K + 1) → V) (u : U) (b : Fin N), MeasParam (Z := Unit) (ss v).length
      (fun _ l => lastF F (u :: l.map Prod.fst) (b :: l.map Prod.snd)) := by
    intro v u b
    have h1 := measFun_keep (measOut_lastF (N := N) hF (1 + (ss v).length))
    have h2 := measParam_Cf (Z := Unit) killingScheme.meas (ss v) 1 h1
      (measSt_start 0 (measurable_const (a := u))) b
    unfold MeasParam at h2 ⊢
    convert h2 using 1
    funext q
    beta_reduce
    rw [Cf_keep killingScheme _ _ _ (by simp) _ _ (normalise_weights _) (fun i => normalise_pos _ i)]
    simp [startSt, initSt]
  -- left hand side
  have hL : ∀ bs : Arr1 (Fin N), bs.2.length = K →
      (I fun us vs => R us vs bs)
        = ∫⁻ v, ∫⁻ u, ENNReal.ofReal (Real.exp (g0 v u)) * pathInt (ss v) u (G v bs u) ∂ν ∂Λ := by
    intro bs hbs
    rw [hΛ (fun us vs => R us vs bs) ?_]
    · refine lintegral_congr fun v => lintegral_congr fun u => ?_
      congr 1
      refine pathInt_congr _ _ fun l hl => ?_
      have hl' : l.length = K := hl.trans (hlen v)
      exact hR (u, l) (arr v) bs hl' (by simp [arr]) hbs
    · unfold MeasPaths
      have e : ∀ q : (Fin (K + 1) → U) × (Fin (K + 1) → V), R (arr q.1) (arr q.2) bs
          = G q.2 bs (ext q.1 0) ((List.range K).map fun j => ext q.1 (j + 1)) := by
        intro q
        rw [hR _ _ bs (by simp [arr]) (by simp [arr]) hbs]
        simp only [G, ss, arr_eq q.1]
        rfl
      simp only [e]
      exact hG bs hbs _ _ measurable_snd _ ((measurable_pi_apply 0).comp (measurable_ext.comp measurable_fst))
        _ (measurable_tail (measurable_ext.comp measurable_fst))
  have hRt : ∀ bs : Arr1 (Fin N),
      ∫⁻ v, ∫⁻ u, ENNReal.ofReal (Real.exp (g0 v u)) * pathInt (ss v) u (H bs u) ∂ν ∂Λ
        = I fun us _ => lastF F us.toList bs.toList := by
    intro bs
    have hφ : MeasPaths (V := V) K (fun us _ => lastF F us.toList bs.toList) := by
      unfold MeasPaths
      have e : ∀ q : (Fin (K + 1) → U) × (Fin (K + 1) → V), lastF F (arr q.1).toList bs.toList
          = H bs (ext q.1 0) ((List.range K).map fun j => ext q.1 (j + 1)) := by
        intro q; simp only [arr_eq q.1]; rfl
      simp only [e]
      exact hH bs _ _ ((measurable_pi_apply 0).comp (measurable_ext.comp measurable_fst))
        _ (measurable_tail (measurable_ext.comp measurable_fst))
    exact (hΛ _ hφ).symm
  have hGv : ∀ bs : Arr1 (Fin N), bs.2.length = K → Measurable fun v =>
      ∫⁻ u, ENNReal.ofReal (Real.exp (g0 v u)) * pathInt (ss v) u (G v bs u) ∂ν :=
    fun bs hbs => (hGp bs hbs).lintegral_prod_right'
  have hHv : ∀ bs : Arr1 (Fin N), bs.2.length = K → Measurable fun v =>
      ∫⁻ u, ENNReal.ofReal (Real.exp (g0 v u)) * pathInt (ss v) u (H bs u) ∂ν :=
    fun bs _ => (hHp bs).lintegral_prod_right'
  rw [avgBs_congr hL, ← lintegral_avgBs Λ hGv]
  rw [show (fun bs : Arr1 (Fin N) => I fun us _ => lastF F us.toList bs.toList) = fun bs =>
    ∫⁻ v, ∫⁻ u, ENNReal.ofReal (Real.exp (g0 v u)) * pathInt (ss v) u (H bs u) ∂ν ∂Λ from
      funext fun bs => (hRt bs).symm, ← lintegral_avgBs Λ hHv]
  refine lintegral_congr fun v => ?_
  have hi := ref_step (N := N) (ss v) (by rw [hlen]; exact hΨ) ν
    (hg0 U (fun _ => v) measurable_const _ measurable_id) hF
    (hmem (arr v).2 (arr v).1 ts.toList) (fun x => hQ _ _ _ x) h
  rw [← lintegral_avgBs (f := fun u bs => ENNReal.ofReal (Real.exp (g0 v u)) * pathInt (ss v) u (G v bs u)) ν
      fun bs hbs => (hGp bs hbs).comp measurable_prodMk_left,
    ← lintegral_avgBs (f := fun u bs => ENNReal.ofReal (Real.exp (g0 v u)) * pathInt (ss v) u (H bs u)) ν
      fun bs _ => (hHp bs).comp measurable_prodMk_left]
  have hpull : ∀ (c : ℝ≥0∞) (f : Arr1 (Fin N) → ℝ≥0∞),
      avgBs N K (fun bs => c * f bs) = c * avgBs N K f := by
    intro c f
    simp only [avgBs, avgIdx_const_mul, ← Finset.mul_sum]
    ring
  simp only [hpull]
  have e1 : ∀ u (b : Fin N), extInt N (ss v) u (fun l => ∫⁻ y, Cf killingScheme.cond Ψ (ss v) l
      (initSt (g0 v) (Function.update y b u)) b ∂(Measure.pi fun _ => ν))
      = avgIdx N K fun bl => pathInt (ss v) u (G v (b, bl) u) := by
    intro u b
    rw [extInt_eq_avgIdx _ _ _ (hparam v u b), hlen]
  have e2 : ∀ u (b : Fin N), extInt N (ss v) u (fun l => lastF F (u :: l.map Prod.fst) (b :: l.map Prod.snd))
      = avgIdx N K fun bl => pathInt (ss v) u (H (b, bl) u) := by
    intro u b
    rw [extInt_eq_avgIdx _ _ _ (hparam' v u b), hlen]
    refine avgIdx_congr _ fun bl hbl => pathInt_congr _ _ fun l hl => ?_
    rw [hlen] at hl
    simp only [H, Arr1.toList]
    rw [List.map_fst_zip (by omega), List.map_snd_zip (by omega)]
  simp only [e2] at hi
  refine Eq.trans (lintegral_congr fun u => ?_) hi
  congr 1
  unfold avgBs
  congr 1
  exact Finset.sum_congr rfl fun b _ => (e1 u b).symm

/-- The same for the forward sampler of exact functions, started from `π0`. -/
theorem ref_core {K : ℕ} [NeZero N] {m : Gibbs.Funs N U V Z} {S : StateSpace U V} (hS : S.JointMeas)
    {ν : Measure U} [IsProbabilityMeasure ν] {π0 : Measure U} {y0 : V} {ts : Arr1 ℝ}
    (hm : ReferenceExact m S ν π0 y0 ts K fun v u => S.logG (arr v).1 ((arr v).2.headD (arr v).1) ts.1 u)
    (hts : ts.2.length = K) (key : Key) {Ψ : St N U → Fin N → ℝ≥0∞} (hΨ : MeasFun (1 + K) Ψ)
    {Q : (Fin N → ℝ) → Prop}
    (hQ : ∀ v v' t (x : Fin N → U), Q (normalise fun i => S.logG v v' t (x i)))
    {F : U → List (Fin N) → ℝ≥0∞} (hF : ∀ bl, Measurable fun x => F x bl)
    (h : ∀ st : St N U, Weights st.W → Q st.W →
      ∑ b, ENNReal.ofReal (st.W b) * Ψ st b = ∑ b, ENNReal.ofReal (st.W b) * keepΨ (lastF F) st b)
    {R : Arr1 U → Arr1 V → Arr1 (Fin N) → ℝ≥0∞}
    (hR : ∀ us vs bs, us.2.length = K → vs.2.length = K → bs.2.length = K →
      R us vs bs = ∫⁻ y, Cf killingScheme.cond Ψ (S.steps vs.1 vs.2 ts.toList) (us.2.zip bs.2)
        (initSt (S.logG vs.1 (vs.2.headD vs.1) ts.1) (Function.update y bs.1 us.1)) bs.1
          ∂(Measure.pi fun _ => ν)) :
    avgBs N K (fun bs => ∫⁻ x, (m.fwd key x y0).E
        (fun p => R (m.unpack p).1.reverse (m.unpack p).2.reverse bs) ∂π0)
      = avgBs N K (fun bs => ∫⁻ x, F x bs.toList ∂π0) := by
  obtain ⟨Λ, hΛ⟩ := hm.factor
  rw [ref_core_law hS hts (fun φ hφ => hΛ key φ hφ) hΨ hQ hF h hR]
  refine avgBs_congr fun bs _ => lintegral_congr fun x => ?_
  rw [← hm.starts key x _ (hF bs.toList)]
  refine Rand.E_congr _ fun p => ?_
  beta_reduce
  rw [reverse_toList]
  simp [lastF, Arr1.toList]

/-! ### The law of the kernel -/

/-- **C15, `explicit_backward=False`.** With `explicit_final=True` the kernel leaves `π0` invariant (with
independent uniform indices over the `nparticles + 1` rows) when the law of the terminal state given the
observations is the reference *tilted by the initial weight of the code*, `exp(logG(v_0 | u_0, v_1))`.  What is
missing compared with the property: the terminal law in the property is the untilted reference, see
`C15_explicit_final_counterexample`. -/
theorem C15_explicit_final_partial {K : ℕ} [NeZero n] {m : Gibbs.Funs (rows n true) U V Z} {S : StateSpace U V}
    (hS : S.JointMeas) {ν : Measure U} [IsProbabilityMeasure ν] {π0 : Measure U} {y0 : V} {ts : Arr1 ℝ}
    (hm : ReferenceExact m S ν π0 y0 ts K fun v u => S.logG (arr v).1 ((arr v).2.headD (arr v).1) ts.1 u)
    (hts : ts.2.length = K) (key : Key) {F : U → List (Fin (rows n true)) → ℝ≥0∞}
    (hF : ∀ bl, Measurable fun x => F x bl) :
    avgBs (rows n true) K (fun bs => ∫⁻ x, (gibbsKernel true m false false key x y0 bs ts).E
        (fun out => F out.1 out.2.2.1) ∂π0)
      = avgBs (rows n true) K (fun bs => ∫⁻ x, F x bs.toList ∂π0) := by
  have h := ref_core hS hm hts (split key 3 0)
    (Ψ := selectΨ (lastF F)) (measFun_select (measOut_lastF hF _)) (Q := fun _ => True) (fun _ _ _ _ => trivial)
    hF (fun st hW _ => select_eq_keep _ st hW)
    (R := fun us vs bs => (Csmc.kernel (csmcFuns true m us.1 ts.1) CsmcResampling.killing n false
      (split key 3 1) us bs vs ts).E fun out => lastF F out.1 out.2) ?_
  · rw [← h]
    refine avgBs_congr fun bs hbs => lintegral_congr fun x => ?_
    simp only [gibbsKernel, gibbsPaths, Rand.E_bind, Rand.pure_eq, Rand.E_ret, Bool.false_eq_true, if_false]
    refine Rand.E_congr _ fun p => ?_
    exact Rand.E_congr_leaves (leaves_kernel _ _ _ _ _ _ _ _) fun out ho => lastF_getLastD ho x _
  · intro us vs bs h1 h2 h3
    rw [E_kernel_scanning _ _ _ _ _ _ _ _ bs.last]
    exact E_forwardPass_ref hm.trans hm.lik hm.normal _ _ us bs vs ts (h1.trans h2.symm) (h3.trans h2.symm)
      (hts.trans h2.symm) (by rw [h2]; exact measFun_select (measOut_lastF hF _))

/-- If the likelihood of the first observation does not depend on the terminal state, the initial weight of the
code is harmless. -/
theorem ReferenceExact.of_constant {K : ℕ} {m : Gibbs.Funs N U V Z} {S : StateSpace U V} (hS : S.JointMeas)
    {ν : Measure U} [IsProbabilityMeasure ν] {π0 : Measure U} {y0 : V} {ts : Arr1 ℝ}
    (hm : ReferenceExact m S ν π0 y0 ts K fun _ _ => 0)
    (hc : ∀ v v' u u', S.logG v v' ts.1 u = S.logG v v' ts.1 u') :
    ReferenceExact m S ν π0 y0 ts K fun v u => S.logG (arr v).1 ((arr v).2.headD (arr v).1) ts.1 u := by
  obtain ⟨Λ, hΛ⟩ := hm.factor
  obtain ⟨u0⟩ : Nonempty U := ν.nonempty_of_neZero
  refine ⟨hm.trans, hm.lik, hm.normal, hm.starts, ?_⟩
  let c : (Fin (K + 1) → V) → ℝ := fun v => S.logG (arr v).1 ((arr v).2.headD (arr v).1) ts.1 u0
  have hcm : Measurable c := by
    have h1 : Measurable fun v : Fin (K + 1) → V => (arr v).1 := measurable_pi_apply 0
    have h2 : Measurable fun v : Fin (K + 1) → V => (arr v).2.headD (arr v).1 := by
      cases K with
      | zero => simpa [arr] using h1
      | succ K =>
        have h3 : Measurable fun v : Fin (K + 1 + 1) → V => v 1 := measurable_pi_apply 1
        simpa [arr] using h3
    exact (hS.2 ts.1).comp (h1.prodMk (h2.prodMk measurable_const))
  refine ⟨Λ.withDensity fun v => ENNReal.ofReal (Real.exp (-c v)), fun key φ hφ => ?_⟩
  have hd : Measurable fun v => ENNReal.ofReal (Real.exp (-c v)) :=
    ENNReal.measurable_ofReal.comp (Real.measurable_exp.comp hcm.neg)
  rw [hΛ key φ hφ, lintegral_withDensity_eq_lintegral_mul_non_measurable _ hd
    (Filter.Eventually.of_forall fun _ => ENNReal.ofReal_lt_top)]
  refine lintegral_congr fun v => ?_
  rw [Pi.mul_apply, ← lintegral_const_mul' _ _ ENNReal.ofReal_ne_top]
  refine lintegral_congr fun u => ?_
  rw [← mul_assoc, ← ENNReal.ofReal_mul (Real.exp_pos _).le, ← Real.exp_add, hc _ _ u u0]
  simp [c]

/-- **C15 for likelihoods that do not see the terminal state.** If the terminal law is the product reference and
the likelihood at the first time does not depend on the state, the kernel leaves `π0` invariant. -/
theorem C15_constant_likelihood_partial {K : ℕ} [NeZero n] {m : Gibbs.Funs (rows n true) U V Z}
    {S : StateSpace U V} (hS : S.JointMeas) {ν : Measure U} [IsProbabilityMeasure ν] {π0 : Measure U} {y0 : V}
    {ts : Arr1 ℝ} (hm : ReferenceExact m S ν π0 y0 ts K fun _ _ => 0)
    (hc : ∀ v v' u u', S.logG v v' ts.1 u = S.logG v v' ts.1 u')
    (hts : ts.2.length = K) (key : Key) {F : U → List (Fin (rows n true)) → ℝ≥0∞}
    (hF : ∀ bl, Measurable fun x => F x bl) :
    avgBs (rows n true) K (fun bs => ∫⁻ x, (gibbsKernel true m false false key x y0 bs ts).E
        (fun out => F out.1 out.2.2.1) ∂π0)
      = avgBs (rows n true) K (fun bs => ∫⁻ x, F x bs.toList ∂π0) :=
  C15_explicit_final_partial hS (ReferenceExact.of_constant hS hm hc) hts key hF

/-! ### The example model of C14, with a tilted terminal law -/

theorem exFuns_reference {g : ℝ → ℝ → ℝ} (hg : Measurable fun p : ℝ × ℝ => g p.1 p.2) {a : ℝ → ℝ}
    (ha : Measurable a) (N : ℕ) (y0 t0 t1 : ℝ) :
    ReferenceExact (exFuns g N) (exS g fun _ => hg.comp measurable_prodMk_left) (gaussianReal 0 1)
      ((gaussianReal 0 1).withDensity fun u => ENNReal.ofReal (Real.exp (a u)) *
        ENNReal.ofReal (Real.exp (g y0 u))) y0 (t0, [t1]) 1 (fun _ u => a u) where
  trans := (exFuns_exact hg N y0 t0 t1).trans
  lik := (exFuns_exact hg N y0 t0 t1).lik
  normal k n F hF := by simp [exFuns, Rand.E_sample]
  starts := (exFuns_exact hg N y0 t0 t1).starts
  factor := by
    refine ⟨(gaussianReal 0 1).map fun y1 => ![y1, y0], fun key φ hφ => ?_⟩
    have hmap : Measurable fun p : ℝ => (![p, y0] : Fin 2 → ℝ) := by
      refine measurable_pi_iff.2 fun i => ?_
      fin_cases i
      · exact measurable_id
      · exact measurable_const
    have ha' : Measurable fun u => ENNReal.ofReal (Real.exp (a u)) :=
      ENNReal.measurable_ofReal.comp (Real.measurable_exp.comp ha)
    have hd : Measurable fun u : ℝ => ENNReal.ofReal (Real.exp (g y0 u)) :=
      ENNReal.measurable_ofReal.comp (Real.measurable_exp.comp (hg.comp measurable_prodMk_left))
    have h2 : Measurable fun p : (ℝ × ℝ) × (Fin 2 → ℝ) =>
        ((![p.1.1, p.1.2], p.2) : (Fin 2 → ℝ) × (Fin 2 → ℝ)) := by
      refine (measurable_pi_iff.2 fun i => ?_).prodMk measurable_snd
      fin_cases i <;> simp <;> fun_prop
    have hf2 : Measurable fun p : (ℝ × ℝ) × (Fin 2 → ℝ) => φ (p.1.1, [p.1.2]) (arr p.2) := Measurable.comp hφ h2
    have hf : Measurable fun q : (Fin 2 → ℝ) × ℝ => φ (q.2, [q.2]) (arr q.1) := by
      have h : Measurable fun q : (Fin 2 → ℝ) × ℝ => ((q.2, q.2), q.1) := by fun_prop
      exact hf2.comp h
    have hf1 : Measurable fun p : ℝ × ℝ => φ (p.2, [p.2]) (p.1, [y0]) :=
      hf.comp ((hmap.comp measurable_fst).prodMk measurable_snd)
    have hstep : ∀ (v : Fin 2 → ℝ) u, pathInt ((exS g fun _ => hg.comp measurable_prodMk_left).steps
        (arr v).1 (arr v).2 (Arr1.toList ((t0, [t1]) : Arr1 ℝ))) u (fun l => φ (u, l) (arr v))
          = ENNReal.ofReal (Real.exp (g (v 1) u)) * φ (u, [u]) (arr v) := by
      intro v u
      have : Measurable fun u' => φ (u, [u']) (arr v) := by
        have h : Measurable fun u' : ℝ => ((u, u'), v) := by fun_prop
        exact hf2.comp h
      show ENNReal.ofReal (Real.exp (g (v 1) u)) * ∫⁻ u', φ (u, [u']) (arr v) ∂(Kernel.id u) = _
      rw [Kernel.id_apply, lintegral_dirac' _ this]
    have hR : Measurable fun q : (Fin 2 → ℝ) × ℝ => ENNReal.ofReal (Real.exp (a q.2)) *
        (ENNReal.ofReal (Real.exp (g (q.1 1) q.2)) * φ (q.2, [q.2]) (arr q.1)) := by
      have h : Measurable fun q : (Fin 2 → ℝ) × ℝ => (q.1 1, q.2) := by fun_prop
      exact (ha'.comp measurable_snd).mul
        ((ENNReal.measurable_ofReal.comp (Real.measurable_exp.comp (hg.comp h))).mul hf)
    have hL : ∀ x, ((exFuns g N).fwd key x y0).E
        (fun p => φ ((exFuns g N).unpack p).1.reverse ((exFuns g N).unpack p).2.reverse)
          = ∫⁻ y1, φ (x, [x]) (y1, [y0]) ∂(gaussianReal 0 1) := by
      intro x
      simp only [exFuns, Rand.E_map, Rand.E_sample]
      rfl
    simp only [hL, hstep]
    have hd' : Measurable fun u => ENNReal.ofReal (Real.exp (a u)) * ENNReal.ofReal (Real.exp (g y0 u)) :=
      ha'.mul hd
    rw [lintegral_withDensity_eq_lintegral_mul _ hd' hf1.lintegral_prod_left',
      lintegral_map hR.lintegral_prod_right' hmap]
    have hR' : Measurable fun q : ℝ × ℝ => ENNReal.ofReal (Real.exp (a q.2)) *
        (ENNReal.ofReal (Real.exp (g y0 q.2)) * φ (q.2, [q.2]) (q.1, [y0])) :=
      hR.comp ((hmap.comp measurable_fst).prodMk measurable_snd)
    refine Eq.trans ?_ (lintegral_lintegral_swap (μ := gaussianReal 0 1) (ν := gaussianReal 0 1)
      (f := fun y1 u => ENNReal.ofReal (Real.exp (a u)) *
        (ENNReal.ofReal (Real.exp (g y0 u)) * φ (u, [u]) (y1, [y0]))) hR'.aemeasurable).symm
    refine lintegral_congr fun x => ?_
    have hx : Measurable fun y1 : ℝ => φ (x, [x]) (y1, [y0]) := hf1.comp measurable_prodMk_right
    simp only [← mul_assoc]
    exact (lintegral_const_mul _ hx).symm

/-- The tilted case is met by a normal likelihood. -/
example (key : Key) {F : ℝ → List (Fin (rows 5 true)) → ℝ≥0∞} (hF : ∀ bl, Measurable fun x => F x bl) :
    avgBs (rows 5 true) 1 (fun bs => ∫⁻ x, (gibbsKernel true (exFuns (fun _ u => -u ^ 2 / 2) (rows 5 true))
        false false key x 2 bs (0, [1])).E (fun out => F out.1 out.2.2.1)
          ∂((gaussianReal 0 1).withDensity fun u => ENNReal.ofReal (Real.exp (-u ^ 2 / 2)) *
            ENNReal.ofReal (Real.exp (-u ^ 2 / 2))))
      = avgBs (rows 5 true) 1 (fun bs => ∫⁻ x, F x bs.toList
          ∂((gaussianReal 0 1).withDensity fun u => ENNReal.ofReal (Real.exp (-u ^ 2 / 2)) *
            ENNReal.ofReal (Real.exp (-u ^ 2 / 2)))) :=
  C15_explicit_final_partial (K := 1) (ts := (0, [1])) (exS_jointMeas (g := fun _ u => -u ^ 2 / 2) (by fun_prop))
    (exFuns_reference (g := fun _ u => -u ^ 2 / 2) (by fun_prop) (a := fun u => -u ^ 2 / 2) (by fun_prop) _ 2 0 1)
    rfl key hF

/-! ### Two noising steps, the first of which removes all information

`y` is replaced by standard normal noise in both steps, `x` is kept: the likelihood of the first backward step
does not depend on the state, that of the second is `g`. -/

/-- The backward model: nothing is learnt at time `0`. -/
noncomputable def lateS (g : ℝ → ℝ → ℝ) (hg : ∀ v, Measurable (g v)) : StateSpace ℝ ℝ where
  init := gaussianReal 0 1
  prob := inferInstance
  trans _ _ := Kernel.id
  markov _ _ := inferInstance
  logG v _ t u := if t = 0 then 0 else g v u
  measG v _ t := by split_ifs; exacts [measurable_const, hg v]
  logG0 _ _ _ := 0
  measG0 _ _ := measurable_const

/-- The functions of the example. -/
noncomputable def lateFuns (g : ℝ → ℝ → ℝ) (N : ℕ) : Gibbs.Funs N ℝ ℝ (ℝ × ℝ) where
  fwd k x y := (fun e => ((x, y), [(x, e.2), (x, e.1)])) <$>
    Rand.sample k Set.univ ((gaussianReal 0 1).prod (gaussianReal 0 1))
  unpack p := (p.map Prod.fst, p.map Prod.snd)
  bridge _ y y' _ := pure (y, [y, y'])
  normal k _ := Rand.sample k Set.univ (Measure.pi fun _ => gaussianReal 0 1)
  transSampler xs _ _ _ := pure xs
  transLogpdf _ _ _ _ := fun _ => 0
  lik v xs _ t := fun i => if t = 0 then 0 else g v (xs i)

theorem lateS_jointMeas {g : ℝ → ℝ → ℝ} (hg : Measurable fun p : ℝ × ℝ => g p.1 p.2) :
    (lateS g fun _ => hg.comp measurable_prodMk_left).JointMeas := by
  refine ⟨fun t => ?_, fun t => ?_⟩
  · exact (Kernel.id (α := ℝ)).measurable.comp measurable_snd
  · show Measurable fun p : ℝ × ℝ × ℝ => if t = 0 then 0 else g p.1 p.2.2
    split_ifs
    · exact measurable_const
    · have h : Measurable fun p : ℝ × ℝ × ℝ => (p.1, p.2.2) := by fun_prop
      exact hg.comp h

theorem lateFuns_reference {g : ℝ → ℝ → ℝ} (hg : Measurable fun p : ℝ × ℝ => g p.1 p.2) (N : ℕ) (y0 : ℝ) :
    ReferenceExact (lateFuns g N) (lateS g fun _ => hg.comp measurable_prodMk_left) (gaussianReal 0 1)
      ((gaussianReal 0 1).withDensity fun u => ENNReal.ofReal (Real.exp (g y0 u))) y0 (0, [1, 2]) 2
      (fun _ _ => 0) where
  trans xs v t k F hF := by
    have h : (Measure.pi fun i => (lateS g fun _ => hg.comp measurable_prodMk_left).trans v t (xs i))
        = Measure.dirac xs := by
      have : ∀ i, (lateS g fun _ => hg.comp measurable_prodMk_left).trans v t (xs i) = Measure.dirac (xs i) :=
        fun i => Kernel.id_apply _
      simp only [this]
      exact pi_dirac xs
    rw [h, lintegral_dirac' _ hF]
    rfl
  lik _ _ _ _ _ := rfl
  normal k n F hF := by simp [lateFuns, Rand.E_sample]
  starts key x F hF := by
    simp [lateFuns, Rand.E_map, Rand.E_sample, Arr1.map]
  factor := by
    refine ⟨((gaussianReal 0 1).prod (gaussianReal 0 1)).map fun e => ![e.1, e.2, y0], fun key φ hφ => ?_⟩
    have hmap : Measurable fun e : ℝ × ℝ => (![e.1, e.2, y0] : Fin 3 → ℝ) := by
      refine measurable_pi_iff.2 fun i => ?_
      fin_cases i
      · exact measurable_fst
      · exact measurable_snd
      · exact measurable_const
    have hd : Measurable fun u : ℝ => ENNReal.ofReal (Real.exp (g y0 u)) :=
      ENNReal.measurable_ofReal.comp (Real.measurable_exp.comp (hg.comp measurable_prodMk_left))
    have h2 : Measurable fun p : (ℝ × ℝ × ℝ) × (Fin 3 → ℝ) =>
        ((![p.1.1, p.1.2.1, p.1.2.2], p.2) : (Fin 3 → ℝ) × (Fin 3 → ℝ)) := by
      refine (measurable_pi_iff.2 fun i => ?_).prodMk measurable_snd
      fin_cases i <;> simp <;> fun_prop
    have hf2 : Measurable fun p : (ℝ × ℝ × ℝ) × (Fin 3 → ℝ) => φ (p.1.1, [p.1.2.1, p.1.2.2]) (arr p.2) :=
      Measurable.comp hφ h2
    have hf : Measurable fun q : (Fin 3 → ℝ) × ℝ => φ (q.2, [q.2, q.2]) (arr q.1) := by
      have h : Measurable fun q : (Fin 3 → ℝ) × ℝ => ((q.2, q.2, q.2), q.1) := by fun_prop
      exact hf2.comp h
    have hf1 : Measurable fun p : (ℝ × ℝ) × ℝ => φ (p.2, [p.2, p.2]) (p.1.1, [p.1.2, y0]) :=
      hf.comp ((hmap.comp measurable_fst).prodMk measurable_snd)
    have hstep : ∀ (v : Fin 3 → ℝ) u, pathInt ((lateS g fun _ => hg.comp measurable_prodMk_left).steps
        (arr v).1 (arr v).2 (Arr1.toList ((0, [1, 2]) : Arr1 ℝ))) u (fun l => φ (u, l) (arr v))
          = ENNReal.ofReal (Real.exp (g (v 2) u)) * φ (u, [u, u]) (arr v) := by
      intro v u
      have h1 : ∀ u', Measurable fun u'' => φ (u, [u', u'']) (arr v) := by
        intro u'
        have h : Measurable fun u'' : ℝ => ((u, u', u''), v) := by fun_prop
        exact hf2.comp h
      have h3 : Measurable fun u' => ENNReal.ofReal (Real.exp (g (v 2) u')) * φ (u, [u', u']) (arr v) := by
        have h : Measurable fun u' : ℝ => ((u, u', u'), v) := by fun_prop
        exact (ENNReal.measurable_ofReal.comp (Real.measurable_exp.comp
          (hg.comp measurable_prodMk_left))).mul (hf2.comp h)
      have h4 : ∀ u', ∫⁻ u'', φ (u, [u', u'']) (arr v) ∂((Kernel.id : Kernel ℝ ℝ) u') = φ (u, [u', u']) (arr v) := by
        intro u'
        rw [Kernel.id_apply, lintegral_dirac' _ (h1 u')]
      show ENNReal.ofReal (Real.exp (if (0 : ℝ) = 0 then 0 else g (v 1) u)) *
        ∫⁻ u', ENNReal.ofReal (Real.exp (if (1 : ℝ) = 0 then 0 else g (v 2) u')) *
          ∫⁻ u'', φ (u, [u', u'']) (arr v) ∂((Kernel.id : Kernel ℝ ℝ) u') ∂((Kernel.id : Kernel ℝ ℝ) u) = _
      simp only [h4, if_true, one_ne_zero, if_false, Real.exp_zero, ENNReal.ofReal_one, one_mul]
      rw [Kernel.id_apply, lintegral_dirac' _ h3]
    have hR : Measurable fun q : (Fin 3 → ℝ) × ℝ => ENNReal.ofReal (Real.exp 0) *
        (ENNReal.ofReal (Real.exp (g (q.1 2) q.2)) * φ (q.2, [q.2, q.2]) (arr q.1)) := by
      have h : Measurable fun q : (Fin 3 → ℝ) × ℝ => (q.1 2, q.2) := by fun_prop
      exact measurable_const.mul
        ((ENNReal.measurable_ofReal.comp (Real.measurable_exp.comp (hg.comp h))).mul hf)
    have hL : ∀ x, ((lateFuns g N).fwd key x y0).E
        (fun p => φ ((lateFuns g N).unpack p).1.reverse ((lateFuns g N).unpack p).2.reverse)
          = ∫⁻ e, φ (x, [x, x]) (e.1, [e.2, y0]) ∂((gaussianReal 0 1).prod (gaussianReal 0 1)) := by
      intro x
      simp only [lateFuns, Rand.E_map, Rand.E_sample]
      rfl
    simp only [hL, hstep]
    rw [lintegral_withDensity_eq_lintegral_mul _ hd hf1.lintegral_prod_left',
      lintegral_map hR.lintegral_prod_right' hmap]
    have hR' : Measurable fun q : (ℝ × ℝ) × ℝ => ENNReal.ofReal (Real.exp 0) *
        (ENNReal.ofReal (Real.exp (g y0 q.2)) * φ (q.2, [q.2, q.2]) (q.1.1, [q.1.2, y0])) :=
      hR.comp ((hmap.comp measurable_fst).prodMk measurable_snd)
    refine Eq.trans ?_ (lintegral_lintegral_swap (μ := (gaussianReal 0 1).prod (gaussianReal 0 1))
      (ν := gaussianReal 0 1) (f := fun e u => ENNReal.ofReal (Real.exp 0) *
        (ENNReal.ofReal (Real.exp (g y0 u)) * φ (u, [u, u]) (e.1, [e.2, y0]))) hR'.aemeasurable).symm
    refine lintegral_congr fun x => ?_
    have hx : Measurable fun e : ℝ × ℝ => φ (x, [x, x]) (e.1, [e.2, y0]) := hf1.comp measurable_prodMk_right
    simp only [Real.exp_zero, ENNReal.ofReal_one, one_mul]
    exact (lintegral_const_mul _ hx).symm

/-- An informative observation, all of whose information is destroyed by the first noising step. -/
example (key : Key) {F : ℝ → List (Fin (rows 5 true)) → ℝ≥0∞} (hF : ∀ bl, Measurable fun x => F x bl) :
    avgBs (rows 5 true) 2 (fun bs => ∫⁻ x, (gibbsKernel true
        (lateFuns (fun v u => -(v - u) ^ 2 / 2) (rows 5 true)) false false key x 2 bs (0, [1, 2])).E
          (fun out => F out.1 out.2.2.1)
          ∂((gaussianReal 0 1).withDensity fun u => ENNReal.ofReal (Real.exp (-(2 - u) ^ 2 / 2))))
      = avgBs (rows 5 true) 2 (fun bs => ∫⁻ x, F x bs.toList
          ∂((gaussianReal 0 1).withDensity fun u => ENNReal.ofReal (Real.exp (-(2 - u) ^ 2 / 2)))) :=
  C15_constant_likelihood_partial (K := 2) (ts := (0, [1, 2])) (lateS_jointMeas (g := fun v u => -(v - u) ^ 2 / 2) (by fun_prop))
    (lateFuns_reference (g := fun v u => -(v - u) ^ 2 / 2) (by fun_prop) _ 2)
    (fun v v' u u' => by simp [lateS]) rfl key hF

/-! ### The property itself fails

`x ~ N(0,1)`, the observation has density `3/2` if `x > 0` and `1/2` otherwise (with respect to its reference),
and one noising step replaces `y` by noise.  The terminal state and observation are independent, and the terminal
state has the standard normal law. -/

/-- Density of the observation. -/
noncomputable def stepDens (u : ℝ) : ℝ := if 0 < u then 3 / 2 else 1 / 2

theorem stepDens_pos (u : ℝ) : 0 < stepDens u := by unfold stepDens; split_ifs <;> norm_num

/-- Log density of the observation. -/
noncomputable def stepLik (_v u : ℝ) : ℝ := Real.log (stepDens u)

theorem exp_stepLik (v u : ℝ) : Real.exp (stepLik v u) = stepDens u := Real.exp_log (stepDens_pos u)

theorem measurable_stepDens : Measurable stepDens :=
  Measurable.ite measurableSet_Ioi measurable_const measurable_const

theorem measurable_stepLik : Measurable fun p : ℝ × ℝ => stepLik p.1 p.2 :=
  Real.measurable_log.comp (measurable_stepDens.comp measurable_snd)

theorem measurable_stepLik' (v : ℝ) : Measurable (stepLik v) :=
  Real.measurable_log.comp measurable_stepDens

/-- The posterior of `x0`. -/
noncomputable def stepPost : Measure ℝ :=
  (gaussianReal 0 1).withDensity fun u => ENNReal.ofReal (stepDens u)

theorem lintegral_step (c1 c2 : ℝ≥0∞) (h1 : c1 ≠ ∞) (h2 : c2 ≠ ∞) {ρ : ℝ → ℝ≥0∞}
    (hρ : ∀ u, ρ u = if 0 < u then c1 else c2) (f : ℝ → ℝ≥0∞) :
    ∫⁻ x, f x ∂((gaussianReal 0 1).withDensity ρ)
      = c1 * ∫⁻ x in Set.Ioi 0, f x ∂(gaussianReal 0 1) + c2 * ∫⁻ x in Set.Iic 0, f x ∂(gaussianReal 0 1) := by
  have hm : Measurable ρ := by
    have : ρ = fun u => if 0 < u then c1 else c2 := funext hρ
    rw [this]
    exact Measurable.ite measurableSet_Ioi measurable_const measurable_const
  rw [lintegral_withDensity_eq_lintegral_mul_non_measurable _ hm, ← lintegral_add_compl _ measurableSet_Ioi (A := Set.Ioi (0 : ℝ)),
    ← lintegral_const_mul' _ _ h1, ← lintegral_const_mul' _ _ h2, Set.compl_Ioi]
  · congr 1
    · refine setLIntegral_congr_fun measurableSet_Ioi fun x hx => ?_
      simp only [Pi.mul_apply, hρ, if_pos (Set.mem_Ioi.1 hx)]
    · refine setLIntegral_congr_fun measurableSet_Iic fun x hx => ?_
      simp only [Pi.mul_apply, hρ, if_neg (not_lt.2 (Set.mem_Iic.1 hx))]
  · refine Filter.Eventually.of_forall fun u => ?_
    rw [hρ]
    split_ifs
    exacts [h1.lt_top, h2.lt_top]

theorem gaussian_half : gaussianReal 0 1 (Set.Ioi (0 : ℝ)) = gaussianReal 0 1 (Set.Iic (0 : ℝ)) := by
  have h1 : (gaussianReal 0 1).map (fun x : ℝ => -x) = gaussianReal 0 1 := by
    rw [gaussianReal_map_neg]; simp
  have h2 : gaussianReal 0 1 (Set.Ioi (0 : ℝ)) = gaussianReal 0 1 (Set.Iio (0 : ℝ)) := by
    conv_lhs => rw [← h1]
    rw [Measure.map_apply measurable_neg measurableSet_Ioi]
    congr 1
    ext x
    simp
  have := nullSingletonClass_gaussianReal (μ := 0) (v := 1) one_ne_zero
  rw [h2]
  exact measure_congr Iio_ae_eq_Iic

instance : IsProbabilityMeasure stepPost := by
  refine ⟨?_⟩
  have h := lintegral_step (ENNReal.ofReal (3 / 2)) (ENNReal.ofReal (1 / 2)) ENNReal.ofReal_ne_top
    ENNReal.ofReal_ne_top (ρ := fun u => ENNReal.ofReal (stepDens u))
    (fun u => by unfold stepDens; split_ifs <;> rfl) (fun _ => 1)
  simp only [lintegral_const, one_mul, Measure.restrict_apply MeasurableSet.univ, Set.univ_inter, gaussian_half] at h
  rw [stepPost, h, ← add_mul, ← ENNReal.ofReal_add (by norm_num) (by norm_num)]
  have h2 : gaussianReal 0 1 (Set.Ioi (0 : ℝ)) + gaussianReal 0 1 (Set.Iic (0 : ℝ)) = 1 := by
    rw [← Set.compl_Ioi, measure_add_measure_compl measurableSet_Ioi, measure_univ]
  rw [gaussian_half] at h2
  rw [← h2]
  norm_num
  ring

/-- The terminal law of the example is the product reference. -/
theorem stepPost_reference (N : ℕ) (y0 t0 t1 : ℝ) :
    ReferenceExact (exFuns stepLik N) (exS stepLik measurable_stepLik')
      (gaussianReal 0 1) stepPost y0 (t0, [t1]) 1 (fun _ _ => 0) := by
  have h := exFuns_reference measurable_stepLik (a := fun _ => 0) measurable_const N y0 t0 t1
  simp only [Real.exp_zero, ENNReal.ofReal_one, one_mul, exp_stepLik] at h
  exact h

omit [MeasurableSpace U] [MeasurableSpace V] in
/-- A lower bound for the probability that no particle is moved. -/
theorem killing_cond_id_ge [NeZero N] {w : Fin N → ℝ} {c : ℝ} (hc0 : 0 ≤ c)
    (hc : ∀ m, c ≤ w m / vmax w) (i : Fin N) :
    ENNReal.ofReal (1 / N) * ENNReal.ofReal c ^ N ≤ (killingScheme (N := N)).cond w i i id := by
  have hN : (0 : ℝ) < N := by exact_mod_cast Nat.pos_of_ne_zero (NeZero.ne N)
  have hj : 1 / (N : ℝ) ≤ CsmcResampling.jProb w i i := by
    unfold CsmcResampling.jProb atSet
    simp only [Function.update_self]
    refine le_max_of_le_left ?_
    rw [← Finset.add_sum_erase _ _ (Finset.mem_univ i), Function.update_self, zero_add]
    have h1 : ∀ m ∈ Finset.univ.erase i,
        Function.update (fun m => (1 - w m / vmax w) / (N : ℝ)) i 0 m ≤ 1 / N := by
      intro m hm
      rw [Function.update_of_ne (Finset.ne_of_mem_erase hm)]
      refine div_le_div_of_nonneg_right ?_ hN.le
      have := hc m
      linarith
    have h2 := Finset.sum_le_card_nsmul _ _ _ h1
    rw [Finset.card_erase_of_mem (Finset.mem_univ i), Finset.card_univ, Fintype.card_fin, nsmul_eq_mul,
      Nat.cast_sub (Nat.one_le_iff_ne_zero.2 (NeZero.ne N)), Nat.cast_one, sub_mul, mul_one_div_cancel hN.ne',
      one_mul] at h2
    linarith
  show _ ≤ ∑ J, ENNReal.ofReal (CsmcResampling.jProb w i J) * ∑ A, (∏ m, killMass w m (A m)) *
    (if roll (Function.update A J i) ((i : ℤ) - (J : ℤ)) = id then 1 else 0)
  refine le_trans ?_ (Finset.single_le_sum (f := fun J => ENNReal.ofReal (CsmcResampling.jProb w i J) *
    ∑ A, (∏ m, killMass w m (A m)) *
      (if roll (Function.update A J i) ((i : ℤ) - (J : ℤ)) = id then 1 else 0)) (fun _ _ => zero_le)
    (Finset.mem_univ i))
  refine mul_le_mul' (ENNReal.ofReal_le_ofReal hj) ?_
  refine le_trans ?_ (Finset.single_le_sum (f := fun A : Fin N → Fin N => (∏ m, killMass w m (A m)) *
      (if roll (Function.update A i i) ((i : ℤ) - (i : ℤ)) = id then 1 else 0)) (fun _ _ => zero_le)
    (Finset.mem_univ id))
  have hroll : roll (Function.update (id : Fin N → Fin N) i i) ((i : ℤ) - (i : ℤ)) = id := by
    funext k
    have h1 : Function.update (id : Fin N → Fin N) i i = id := Function.update_eq_self i id
    rw [h1]
    ext
    simp only [roll, id, sub_self, sub_zero]
    have h2 : ((k : ℤ) % (N : ℤ)) = k := Int.emod_eq_of_lt (by positivity) (by exact_mod_cast k.2)
    rw [h2, Int.toNat_natCast]
  simp only [hroll, if_true, mul_one]
  have : ENNReal.ofReal c ^ N = ∏ _m : Fin N, ENNReal.ofReal c := by simp
  rw [this]
  refine Finset.prod_le_prod' fun m _ => ?_
  unfold killMass
  simp only [id, if_true]
  exact le_trans (ENNReal.ofReal_le_ofReal (hc m)) le_self_add

theorem stepDens_bounds (u : ℝ) : 1 / 2 ≤ stepDens u ∧ stepDens u ≤ 3 / 2 := by
  unfold stepDens
  split_ifs <;> norm_num

theorem normalise_step [NeZero N] (v : ℝ) (x : Fin N → ℝ) (i : Fin N) :
    normalise (fun i => stepLik v (x i)) i = stepDens (x i) / ∑ j, stepDens (x j) := by
  rw [normalise_eq]
  simp only [exp_stepLik]

/-- Weights computed from this likelihood are bounded below. -/
theorem normalise_step_ge [NeZero N] (v : ℝ) (x : Fin N → ℝ) (i : Fin N) :
    1 / (3 * N) ≤ normalise (fun i => stepLik v (x i)) i := by
  have hN : (0 : ℝ) < N := by exact_mod_cast Nat.pos_of_ne_zero (NeZero.ne N)
  have hs : ∑ j, stepDens (x j) ≤ N * (3 / 2) := by
    have := Finset.sum_le_card_nsmul Finset.univ (fun j => stepDens (x j)) (3 / 2) fun j _ =>
      (stepDens_bounds (x j)).2
    simpa using this
  have h0 : 0 < ∑ j, stepDens (x j) :=
    Finset.sum_pos (fun j _ => stepDens_pos _) ⟨i, Finset.mem_univ i⟩
  rw [normalise_step, div_le_div_iff₀ (by positivity) h0]
  have := (stepDens_bounds (x i)).1
  nlinarith

theorem killing_step_ge [NeZero N] (v : ℝ) (x : Fin N → ℝ) (i : Fin N) :
    ENNReal.ofReal (1 / N) * ENNReal.ofReal (1 / (3 * N)) ^ N
      ≤ (killingScheme (N := N)).cond (normalise fun i => stepLik v (x i)) i i id := by
  have hN : (0 : ℝ) < N := by exact_mod_cast Nat.pos_of_ne_zero (NeZero.ne N)
  have hv1 : 1 / (3 * N) ≤ vmax (normalise fun i => stepLik v (x i)) :=
    le_trans (normalise_step_ge v x i) (Finset.le_sup' (normalise fun i => stepLik v (x i)) (Finset.mem_univ i))
  have hv0 : 0 < vmax (normalise fun i => stepLik v (x i)) := lt_of_lt_of_le (by positivity) hv1
  refine killing_cond_id_ge (by positivity) (fun m => ?_) i
  have h1 : vmax (normalise fun i => stepLik v (x i)) ≤ 1 := by
    refine Finset.sup'_le _ _ fun j _ => ?_
    rw [← (normalise_weights fun i => stepLik v (x i)).sum_one]
    exact Finset.single_le_sum (fun k _ => (normalise_weights _).nonneg k) (Finset.mem_univ j)
  exact le_trans (normalise_step_ge v x m)
    (le_div_self ((normalise_weights _).nonneg m) hv0 h1)

/-- Indicator of the lower half line. -/
noncomputable def lowInd (x : ℝ) : ℝ≥0∞ := (Set.Iic (0 : ℝ)).indicator (fun _ => 1) x

theorem measurable_lowInd : Measurable lowInd := measurable_const.indicator measurableSet_Iic

/-- The other particle `j` is kept and selected with a probability bounded below. -/
theorem Cf_step_ge [NeZero N] {j : Fin N} (hj : j ≠ 0) (x v : ℝ) (y : Fin N → ℝ) (s : FKStep ℝ)
    (hsM : ∀ u, s.M u = Measure.dirac u) (hsg : ∀ u, s.g u = stepLik v u) :
    ENNReal.ofReal (1 / N) * ENNReal.ofReal (1 / (3 * N)) ^ N * (ENNReal.ofReal (1 / (3 * N)) * lowInd (y j))
      ≤ Cf killingScheme.cond (selectΨ (lastF fun u (_ : List (Fin N)) => lowInd u)) [s] [(x, 0)]
        (initSt (stepLik v) (Function.update y 0 x)) 0 := by
  simp only [Cf]
  refine le_trans ?_ (Finset.single_le_sum (f := fun A : Fin N → Fin N => killingScheme.cond
    (initSt (stepLik v) (Function.update y 0 x)).W 0 0 A * ∫⁻ y', selectΨ
      (lastF fun u (_ : List (Fin N)) => lowInd u)
      (next s (initSt (stepLik v) (Function.update y 0 x)) A (Function.update y' 0 x)) 0
      ∂(Measure.pi fun i => s.M ((initSt (stepLik v) (Function.update y 0 x)).x (A i))))
    (fun _ _ => zero_le) (Finset.mem_univ id))
  refine mul_le_mul' (killing_step_ge v (Function.update y 0 x) 0) ?_
  simp only [hsM]
  rw [pi_dirac, lintegral_dirac]
  unfold selectΨ
  refine le_trans ?_ (Finset.single_le_sum (fun _ _ => zero_le) (Finset.mem_univ j))
  refine mul_le_mul' (ENNReal.ofReal_le_ofReal ?_) (le_of_eq ?_)
  · simp only [next, hsg]
    rw [(normalise_weights _).sum_one, div_one]
    exact normalise_step_ge v _ j
  · simp [next, initSt, lastF, Function.update_of_ne hj]

theorem avgBs_add (N K : ℕ) (f g : Arr1 (Fin N) → ℝ≥0∞) :
    avgBs N K (fun bs => f bs + g bs) = avgBs N K f + avgBs N K g := by
  have h : ∀ (k : ℕ) (f g : List (Fin N) → ℝ≥0∞),
      avgIdx N k (fun l => f l + g l) = avgIdx N k f + avgIdx N k g := by
    intro k
    induction k with
    | zero => intro f g; rfl
    | succ k ih => intro f g; simp only [avgIdx, ih, Finset.sum_add_distrib, mul_add]
  simp only [avgBs, h, Finset.sum_add_distrib, mul_add]

theorem avgBs_const_mul (N K : ℕ) (c : ℝ≥0∞) (f : Arr1 (Fin N) → ℝ≥0∞) :
    avgBs N K (fun bs => c * f bs) = c * avgBs N K f := by
  simp only [avgBs, avgIdx_const_mul, ← Finset.mul_sum]
  ring

/-- Value of one call of the kernel in the example, bounded below. -/
theorem gibbs_step_ge [NeZero n] (key : Key) (y0 x : ℝ) :
    ENNReal.ofReal (1 / (rows n true : ℕ)) * ENNReal.ofReal (1 / (3 * (rows n true : ℕ))) ^ (rows n true) *
        (ENNReal.ofReal (1 / (3 * (rows n true : ℕ))) * gaussianReal 0 1 (Set.Iic (0 : ℝ)))
      ≤ (gibbsKernel true (exFuns stepLik (rows n true)) false false key x y0
        ((0, [0]) : Arr1 (Fin (rows n true))) (0, [1])).E (fun out => lowInd out.1) := by
  have hn := NeZero.ne n
  have hrow : 1 < rows n true := by simp [rows]; omega
  let j : Fin (rows n true) := ⟨1, hrow⟩
  have hj : j ≠ 0 := by
    intro h
    have := congrArg Fin.val h
    simp [j] at this
  have hex := stepPost_reference (rows n true) y0 0 1
  let S := exS stepLik measurable_stepLik'
  let F : ℝ → List (Fin (rows n true)) → ℝ≥0∞ := fun u _ => lowInd u
  have hF : ∀ bl, Measurable fun x => F x bl := fun _ => measurable_lowInd
  have hval : (gibbsKernel true (exFuns stepLik (rows n true)) false false key x y0
        ((0, [0]) : Arr1 (Fin (rows n true))) (0, [1])).E (fun out => lowInd out.1)
      = ∫⁻ y1, ∫⁻ y, Cf killingScheme.cond (selectΨ (lastF F)) (S.steps y1 [y0] [0, 1]) [(x, 0)]
          (initSt (stepLik y1) (Function.update y 0 x)) 0 ∂(Measure.pi fun _ => gaussianReal 0 1)
          ∂(gaussianReal 0 1) := by
    have h1 : (gibbsKernel true (exFuns stepLik (rows n true)) false false key x y0
        ((0, [0]) : Arr1 (Fin (rows n true))) (0, [1])).E (fun out => lowInd out.1)
        = ((exFuns stepLik (rows n true)).fwd (split key 3 0) x y0).E (fun p =>
          (Csmc.kernel (csmcFuns true (exFuns stepLik (rows n true))
            ((exFuns stepLik (rows n true)).unpack p).1.reverse.1 0)
            CsmcResampling.killing n false (split key 3 1)
            ((exFuns stepLik (rows n true)).unpack p).1.reverse (0, [0])
            ((exFuns stepLik (rows n true)).unpack p).2.reverse (0, [1])).E fun out => lastF F out.1 out.2) := by
      simp only [gibbsKernel, gibbsPaths, Rand.E_bind, Rand.pure_eq, Rand.E_ret, Bool.false_eq_true, if_false]
      refine Rand.E_congr _ fun p => ?_
      exact Rand.E_congr_leaves (leaves_kernel _ _ _ _ _ _ _ _) fun out ho =>
        lastF_getLastD (F := F) ho x []
    rw [h1]
    have h2 : ∀ (f : Arr1 (ℝ × ℝ) → ℝ≥0∞), ((exFuns stepLik (rows n true)).fwd (split key 3 0) x y0).E f
        = ∫⁻ y1, f ((x, y0), [(x, y1)]) ∂(gaussianReal 0 1) := by
      intro f
      simp only [exFuns, Rand.E_map, Rand.E_sample]
    rw [h2]
    refine lintegral_congr fun y1 => ?_
    show (Csmc.kernel (csmcFuns true (exFuns stepLik (rows n true)) x 0) CsmcResampling.killing n false
      (split key 3 1) (x, [x]) (0, [0]) (y1, [y0]) (0, [1])).E (fun out => lastF F out.1 out.2) = _
    rw [E_kernel_scanning _ _ _ _ _ _ _ _ (Arr1.last ((0, [0]) : Arr1 (Fin (rows n true))))]
    exact E_forwardPass_ref hex.trans hex.lik hex.normal _ _ (x, [x]) (0, [0]) (y1, [y0]) (0, [1])
      rfl rfl rfl (measFun_select (measOut_lastF hF _))
  rw [hval]
  have hin : ∀ y1 : ℝ, ENNReal.ofReal (1 / (rows n true : ℕ)) *
      ENNReal.ofReal (1 / (3 * (rows n true : ℕ))) ^ (rows n true) *
        (ENNReal.ofReal (1 / (3 * (rows n true : ℕ))) * gaussianReal 0 1 (Set.Iic (0 : ℝ)))
      ≤ ∫⁻ y, Cf killingScheme.cond (selectΨ (lastF F)) (S.steps y1 [y0] [0, 1]) [(x, 0)]
          (initSt (stepLik y1) (Function.update y 0 x)) 0 ∂(Measure.pi fun _ => gaussianReal 0 1) := by
    intro y1
    refine le_trans (le_of_eq ?_) (lintegral_mono fun y => Cf_step_ge hj x y1 y
      ⟨Kernel.id, inferInstance, stepLik y1, measurable_stepLik' _⟩ (fun u => Kernel.id_apply u) fun u => rfl)
    rw [lintegral_const_mul' _ _ (ENNReal.mul_ne_top ENNReal.ofReal_ne_top
      (ENNReal.pow_ne_top ENNReal.ofReal_ne_top)), lintegral_const_mul' _ _ ENNReal.ofReal_ne_top]
    congr 2
    have hmp := measurePreserving_eval (fun _ : Fin (rows n true) => gaussianReal 0 1) j
    rw [hmp.lintegral_comp measurable_lowInd]
    simp [lowInd, lintegral_indicator measurableSet_Iic]
  refine le_trans (le_of_eq ?_) (lintegral_mono hin)
  simp

/-- **C15 is false of the code.** In the example the terminal law is the product reference, all model functions are
exact and `stepPost` is the posterior of `x0`, but one call of the kernel with `explicit_final=True` changes
the probability of `x0 ≤ 0`, for every number of particles. -/
theorem C15_explicit_final_counterexample (n : ℕ) [NeZero n] (key : Key) (y0 : ℝ) :
    ReferenceExact (exFuns stepLik (rows n true)) (exS stepLik measurable_stepLik') (gaussianReal 0 1)
        stepPost y0 (0, [1]) 1 (fun _ _ => 0) ∧
      avgBs (rows n true) 1 (fun bs => ∫⁻ x, (gibbsKernel true (exFuns stepLik (rows n true)) false false key x y0
          bs (0, [1])).E (fun out => lowInd out.1) ∂stepPost)
        ≠ avgBs (rows n true) 1 (fun _ => ∫⁻ x, lowInd x ∂stepPost) := by
  refine ⟨stepPost_reference _ y0 0 1, fun hinv => ?_⟩
  let J : Arr1 (Fin (rows n true)) → ℝ → ℝ≥0∞ := fun bs x =>
    (gibbsKernel true (exFuns stepLik (rows n true)) false false key x y0 bs (0, [1])).E
      (fun out => lowInd out.1)
  let ν := gaussianReal 0 1
  let a := avgBs (rows n true) 1 fun bs => ∫⁻ x in Set.Ioi 0, J bs x ∂ν
  let d := avgBs (rows n true) 1 fun bs => ∫⁻ x in Set.Iic 0, J bs x ∂ν
  have hlow : ∀ c1 c2 : ℝ≥0∞, c1 * ∫⁻ x in Set.Ioi 0, lowInd x ∂ν + c2 * ∫⁻ x in Set.Iic 0, lowInd x ∂ν
      = c2 * ν (Set.Iic 0) := by
    intro c1 c2
    have h1 : ∫⁻ x in Set.Ioi 0, lowInd x ∂ν = 0 := by
      rw [setLIntegral_congr_fun (g := fun _ => 0) measurableSet_Ioi]
      · simp
      · intro x hx
        simp [lowInd, Set.mem_Ioi.1 hx]
    have h2 : ∫⁻ x in Set.Iic 0, lowInd x ∂ν = ν (Set.Iic 0) := by
      rw [setLIntegral_congr_fun (g := fun _ => 1) measurableSet_Iic]
      · simp
      · intro x hx
        simp [lowInd, Set.mem_Iic.1 hx]
    rw [h1, h2, mul_zero, zero_add]
  have hgen : ∀ (c1 c2 : ℝ≥0∞), c1 ≠ ∞ → c2 ≠ ∞ → ∀ ρ : ℝ → ℝ≥0∞, (∀ u, ρ u = if 0 < u then c1 else c2) →
      avgBs (rows n true) 1 (fun bs => ∫⁻ x, J bs x ∂(ν.withDensity ρ))
        = avgBs (rows n true) 1 (fun _ => ∫⁻ x, lowInd x ∂(ν.withDensity ρ)) →
      c1 * a + c2 * d = c2 * ν (Set.Iic 0) := by
    intro c1 c2 h1 h2 ρ hρ h
    rw [avgBs_const] at h
    simp only [ν, lintegral_step c1 c2 h1 h2 hρ] at h
    rw [avgBs_add, avgBs_const_mul, avgBs_const_mul] at h
    rw [← hlow c1 c2]
    exact h
  have e1 : ENNReal.ofReal (3 / 2) * a + ENNReal.ofReal (1 / 2) * d = ENNReal.ofReal (1 / 2) * ν (Set.Iic 0) :=
    hgen _ _ ENNReal.ofReal_ne_top ENNReal.ofReal_ne_top (fun u => ENNReal.ofReal (stepDens u))
      (fun u => by unfold stepDens; split_ifs <;> rfl) hinv
  have e2 : ENNReal.ofReal (9 / 4) * a + ENNReal.ofReal (1 / 4) * d = ENNReal.ofReal (1 / 4) * ν (Set.Iic 0) := by
    refine hgen _ _ ENNReal.ofReal_ne_top ENNReal.ofReal_ne_top
      (fun u => ENNReal.ofReal (Real.exp (stepLik y0 u)) * ENNReal.ofReal (Real.exp (stepLik y0 u)))
      (fun u => ?_) ?_
    · rw [exp_stepLik, ← ENNReal.ofReal_mul (stepDens_pos u).le]
      unfold stepDens
      split_ifs <;> norm_num
    · have hr := exFuns_reference measurable_stepLik (a := fun u => stepLik y0 u) (measurable_stepLik' y0)
        (rows n true) y0 0 1
      exact C15_explicit_final_partial (K := 1) (ts := (0, [1])) (exS_jointMeas measurable_stepLik) hr rfl key
        (F := fun x _ => lowInd x) fun _ => measurable_lowInd
  -- the two equations force `a = 0`
  have hν : ν (Set.Iic 0) ≠ ∞ := measure_ne_top _ _
  have hfin : ENNReal.ofReal (1 / 2) * ν (Set.Iic 0) ≠ ∞ := ENNReal.mul_ne_top ENNReal.ofReal_ne_top hν
  have ha : a ≠ ∞ := by
    intro h
    rw [h, ENNReal.mul_top (by simp), top_add] at e1
    exact hfin e1.symm
  have hd : d ≠ ∞ := by
    intro h
    rw [h, ENNReal.mul_top (by simp), add_top] at e1
    exact hfin e1.symm
  have f1 := congrArg ENNReal.toReal e1
  have f2 := congrArg ENNReal.toReal e2
  rw [ENNReal.toReal_add (ENNReal.mul_ne_top ENNReal.ofReal_ne_top ha)
    (ENNReal.mul_ne_top ENNReal.ofReal_ne_top hd)] at f1 f2
  simp only [ENNReal.toReal_mul] at f1 f2
  rw [ENNReal.toReal_ofReal (by norm_num), ENNReal.toReal_ofReal (by norm_num)] at f1 f2
  have ha0 : a.toReal = 0 := by linarith
  have ha0' : a = 0 := (ENNReal.toReal_eq_zero_iff a).1 ha0 |>.resolve_right ha
  -- but `a` is positive
  have hNtop : ((rows n true : ℕ) : ℝ≥0∞)⁻¹ ≠ 0 := ENNReal.inv_ne_zero.2 (ENNReal.natCast_ne_top _)
  have h0 : ∫⁻ x in Set.Ioi 0, J (0, [0]) x ∂ν = 0 := by
    have h1 := ha0'
    simp only [a, avgBs, avgIdx, mul_eq_zero, hNtop, false_or, Finset.sum_eq_zero_iff, Finset.mem_univ,
      true_implies] at h1
    exact h1 0 0
  have hpos : ∀ c : ℝ≥0∞, c ≠ 0 → (∀ x, c ≤ J (0, [0]) x) → ∫⁻ x in Set.Ioi 0, J (0, [0]) x ∂ν ≠ 0 := by
    intro c hc hle h
    have h1 := lintegral_mono (μ := ν.restrict (Set.Ioi 0)) hle
    rw [h] at h1
    simp only [lintegral_const, Measure.restrict_apply MeasurableSet.univ, Set.univ_inter, nonpos_iff_eq_zero,
      mul_eq_zero, hc, false_or] at h1
    have h2 : ν (Set.Ioi (0 : ℝ)) + ν (Set.Iic (0 : ℝ)) = 1 := by
      rw [← Set.compl_Ioi, measure_add_measure_compl measurableSet_Ioi, measure_univ]
    simp only [ν] at h1 h2
    rw [← gaussian_half, h1] at h2
    simp at h2
  have hlowpos : ν (Set.Iic (0 : ℝ)) ≠ 0 := by
    intro h
    have h2 : ν (Set.Ioi (0 : ℝ)) + ν (Set.Iic (0 : ℝ)) = 1 := by
      rw [← Set.compl_Ioi, measure_add_measure_compl measurableSet_Ioi, measure_univ]
    simp only [ν] at h h2
    rw [gaussian_half, h] at h2
    simp at h2
  have hR : (0 : ℝ) < (rows n true : ℕ) := by exact_mod_cast Nat.pos_of_ne_zero (NeZero.ne _)
  have hof : ∀ r : ℝ, 0 < r → ENNReal.ofReal r ≠ 0 := fun r hr => (ENNReal.ofReal_pos.2 hr).ne'
  refine hpos _ ?_ (fun x => gibbs_step_ge key y0 x) h0
  refine mul_ne_zero (mul_ne_zero (hof _ (by positivity)) (pow_ne_zero _ (hof _ (by positivity))))
    (mul_ne_zero (hof _ (by positivity)) hlowpos)

end Props
end Fbs
