import Mathlib.Probability.Distributions.Gaussian.Real
import Verif.Lemmas.GibbsLaw

/-!
# C14: the Gibbs kernel leaves the law of `x0` given `y0` invariant
-/

open MeasureTheory ProbabilityTheory
open scoped ENNReal

namespace Fbs
namespace Props

open Jax Spec Csmc Gibbs

variable {n N : ℕ} {U V Z : Type} [MeasurableSpace U]

/-! ### The particle system pinned at the end of the path -/

/-- The model with all initial particles at `u` and a constant initial potential. -/
noncomputable def pinned (S : StateSpace U V) (u : U) (c : ℝ) : StateSpace U V :=
  { S with
    init := Measure.dirac u
    prob := inferInstance
    logG0 := fun _ _ _ => c
    measG0 := fun _ _ => measurable_const }

theorem steps_pinned (S : StateSpace U V) (u : U) (c : ℝ) : ∀ (v : V) (vs : List V) (ts : List ℝ),
    (pinned S u c).steps v vs ts = S.steps v vs ts
  | _, [], ts => by cases ts <;> rfl
  | v, v' :: vs, t :: ts => by
    simp only [StateSpace.steps, steps_pinned S u c v' vs ts]
    rfl
  | _, _ :: _, [] => rfl

theorem implements_csmcFuns {m : Gibbs.Funs (rows n false) U V Z} {S : StateSpace U V}
    (htr : ∀ xs v t k (F : (Fin (rows n false) → U) → ℝ≥0∞), Measurable F →
      (m.transSampler xs v t k).E F = ∫⁻ x, F x ∂(Measure.pi fun i => S.trans v t (xs i)))
    (hlik : ∀ v xs v' t i, m.lik v xs v' t i = S.logG v v' t (xs i)) (u : U) (t0 : ℝ) :
    Implements (csmcFuns false m u t0) (pinned S u (-Real.log n)) where
  init k r F hF := by
    have h : (csmcFuns false m u t0).initSampler k r = Rand.ret fun _ => u := rfl
    have h' : (Measure.pi fun _ : Fin (rows n false) => (pinned S u (-Real.log n)).init)
        = Measure.dirac fun _ => u := pi_dirac fun _ => u
    rw [h, Rand.E_ret, h', lintegral_dirac' _ hF]
  trans := htr
  lik := hlik
  initLik _ _ _ _ := rfl

/-- All particles at `u`, with equal weights. -/
noncomputable def startSt (N : ℕ) (c : ℝ) (u : U) : St N U := initSt (fun _ => c) fun _ => u

theorem measSt_start [NeZero N] (c : ℝ) {Y : Type} [MeasurableSpace Y] {a : Y → U} (ha : Measurable a) :
    MeasSt 1 (fun z => startSt N c (a z)) :=
  measSt_init measurable_const (measurable_pi_iff.2 fun _ => ha)

omit [MeasurableSpace U] in
theorem startSt_W [NeZero N] (c : ℝ) (u : U) (b : Fin N) : (startSt N c u).W b = 1 / (N : ℝ) := by
  show normalise (fun _ => c) b = _
  rw [normalise_eq]
  have hN : (N : ℝ) ≠ 0 := by exact_mod_cast NeZero.ne N
  simp only [Finset.sum_const, Finset.card_univ, Fintype.card_fin, nsmul_eq_mul]
  field_simp [Real.exp_ne_zero]

theorem E_forwardPass_pinned [NeZero n] {m : Gibbs.Funs (rows n false) U V Z} {S : StateSpace U V}
    (htr : ∀ xs v t k (F : (Fin (rows n false) → U) → ℝ≥0∞), Measurable F →
      (m.transSampler xs v t k).E F = ∫⁻ x, F x ∂(Measure.pi fun i => S.trans v t (xs i)))
    (hlik : ∀ v xs v' t i, m.lik v xs v' t i = S.logG v v' t (xs i))
    {Ψ : St (rows n false) U → Fin (rows n false) → ℝ≥0∞} (key : Key) (t0 : ℝ)
    (us : Arr1 U) (bs : Arr1 (Fin (rows n false))) (vs : Arr1 V) (ts : Arr1 ℝ)
    (hl : us.2.length = vs.2.length) (hb : bs.2.length = vs.2.length) (ht : ts.2.length = vs.2.length)
    (hΨ : MeasFun (1 + vs.2.length) Ψ) :
    (forwardPass (csmcFuns false m us.1 t0) CsmcResampling.killing n key us bs vs ts).E
        (fun out => Ψ (finalSt out) bs.last)
      = Cf killingScheme.cond Ψ (S.steps vs.1 vs.2 ts.toList) (us.2.zip bs.2)
        (startSt (rows n false) (-Real.log n) us.1) bs.1 := by
  obtain ⟨u, l⟩ := us
  obtain ⟨b, bl⟩ := bs
  simp only at hl hb
  have hz : (l.zip bl).length = vs.2.length := by simp [hl, hb]
  have h := E_forwardPass (implements_csmcFuns htr hlik u t0) killingScheme n key ((u, b), l.zip bl) vs ts
    hz.symm (ht.trans hz.symm) (by rw [hz]; exact hΨ)
  have h1 : Arr1.map Prod.fst (((u, b), l.zip bl) : Arr1 (U × Fin (rows n false))) = (u, l) := by
    simp [Arr1.map, List.map_fst_zip, hl, hb]
  have h2 : Arr1.map Prod.snd (((u, b), l.zip bl) : Arr1 (U × Fin (rows n false))) = (b, bl) := by
    simp [Arr1.map, List.map_snd_zip, hl, hb]
  rw [h1, h2] at h
  rw [h, steps_pinned]
  have h' : (Measure.pi fun _ : Fin (rows n false) => (pinned S u (-Real.log n)).init)
      = Measure.dirac fun _ => u := pi_dirac fun _ => u
  have hlen : (S.steps vs.1 vs.2 ts.toList).length = vs.2.length := by
    rw [steps_length]; simp [Arr1.toList, ht]
  rw [h', lintegral_dirac']
  · show Cf _ _ _ _ (initSt (fun _ => -Real.log n) (Function.update (fun _ => u) b u)) b = _
    rw [Function.update_eq_self]
    rfl
  · exact measurable_Cf_fixed killingScheme.meas _ 1 (by rw [hlen]; exact hΨ)
      (measSt_init measurable_const (measurable_update_pi measurable_id measurable_const)) _
      (hz.trans hlen.symm) b

/-! ### The particle system identity -/

theorem Rf_congr_on [NeZero N] (r : (Fin N → ℝ) → (Fin N → Fin N) → ℝ≥0∞) {Ψ Ψ' : St N U → Fin N → ℝ≥0∞}
    {Q : (Fin N → ℝ) → Prop}
    (h : ∀ st : St N U, Weights st.W → Q st.W →
      ∑ b, ENNReal.ofReal (st.W b) * Ψ st b = ∑ b, ENNReal.ofReal (st.W b) * Ψ' st b) :
    ∀ (ss : List (FKStep U)), (∀ s ∈ ss, ∀ x : Fin N → U, Q (normalise fun i => s.g (x i))) →
    ∀ st : St N U, Weights st.W → Q st.W → Rf r Ψ ss st = Rf r Ψ' ss st := by
  intro ss
  induction ss with
  | nil => intro _ st hW hQ; exact h st hW hQ
  | cons s ss ih =>
    intro hs st hW _
    simp only [Rf]
    refine Finset.sum_congr rfl fun A _ => ?_
    congr 2
    exact lintegral_congr fun y => ih (fun s' h' => hs s' (List.mem_cons_of_mem _ h')) _
      (normalise_weights _) (hs s List.mem_cons_self _)

theorem avg_Cf [NeZero N] {Ψ : St N U → Fin N → ℝ≥0∞} (ss : List (FKStep U))
    (hΨ : MeasFun (1 + ss.length) Ψ) (c : ℝ) (u : U) :
    (N : ℝ≥0∞)⁻¹ * ∑ b : Fin N, extInt N ss u
        (fun l => Cf killingScheme.cond Ψ ss l (startSt N c u) b)
      = Rf killingScheme.joint Ψ ss (startSt N c u) := by
  have hst : MeasSt (Z := Unit) 1 (fun _ => startSt N c u) := measSt_start c measurable_const
  rw [← sum_Lf_eq_Rf killingScheme ss 1 hΨ _ hst (normalise_weights _), Finset.mul_sum]
  refine Finset.sum_congr rfl fun b _ => ?_
  have hW : ENNReal.ofReal ((startSt N c u).W b) = (N : ℝ≥0∞)⁻¹ := by
    rw [startSt_W, one_div, ENNReal.ofReal_inv_of_pos, ENNReal.ofReal_natCast]
    exact_mod_cast Nat.pos_of_ne_zero (NeZero.ne N)
  rw [hW]
  congr 1
  exact extInt_Cf killingScheme.meas ss 1 hΨ _ hst b

/-- Value of `F` at the last state of a path. -/
def lastF (F : U → List (Fin N) → ℝ≥0∞) (us : List U) (bs : List (Fin N)) : ℝ≥0∞ :=
  us.getLast?.elim 0 fun x => F x bs

theorem measOut_lastF {F : U → List (Fin N) → ℝ≥0∞} (hF : ∀ bl, Measurable fun x => F x bl) (k : ℕ) :
    MeasOut k (lastF F) := by
  unfold MeasOut lastF
  cases k with
  | zero => simp
  | succ k =>
    have h1 : ∀ p : Fin (k + 1) → U × Fin N, (List.ofFn fun j => (p j).1).getLast? = some (p (Fin.last k)).1 := by
      intro p
      rw [List.getLast?_eq_some_getLast (by simp), List.getLast_ofFn]
      rfl
    simp only [h1, Option.elim_some]
    have h2 : Measurable fun q : U × (Fin (k + 1) → Fin N) => F q.1 (List.ofFn q.2) :=
      measurable_from_prod_countable_left fun b => hF (List.ofFn b)
    exact h2.comp ((measurable_fst.comp (measurable_pi_apply (Fin.last k))).prodMk
      (measurable_pi_iff.2 fun j => measurable_snd.comp (measurable_pi_apply j)))

theorem invariant_step [NeZero N] {Ψ : St N U → Fin N → ℝ≥0∞} (ss : List (FKStep U))
    (hΨ : MeasFun (1 + ss.length) Ψ) (c : ℝ) (u : U) {Q : (Fin N → ℝ) → Prop}
    {F : U → List (Fin N) → ℝ≥0∞} (hF : ∀ bl, Measurable fun x => F x bl)
    (hQ : ∀ s ∈ ss, ∀ x : Fin N → U, Q (normalise fun i => s.g (x i))) (hQ0 : Q fun _ => 1 / (N : ℝ))
    (h : ∀ st : St N U, Weights st.W → Q st.W →
      ∑ b, ENNReal.ofReal (st.W b) * Ψ st b = ∑ b, ENNReal.ofReal (st.W b) * keepΨ (lastF F) st b) :
    (N : ℝ≥0∞)⁻¹ * ∑ b : Fin N, extInt N ss u (fun l => Cf killingScheme.cond Ψ ss l (startSt N c u) b)
      = (N : ℝ≥0∞)⁻¹ * ∑ b : Fin N, extInt N ss u
        (fun l => lastF F (u :: l.map Prod.fst) (b :: l.map Prod.snd)) := by
  have hW : (startSt N c u).W = fun _ => 1 / (N : ℝ) := funext fun b => startSt_W c u b
  rw [avg_Cf ss hΨ, Rf_congr_on _ h ss hQ _ (normalise_weights _) (by rw [hW]; exact hQ0),
    ← avg_Cf ss (measFun_keep (measOut_lastF hF _))]
  congr 1
  refine Finset.sum_congr rfl fun b _ => extInt_congr _ _ fun l hl => ?_
  rw [Cf_keep killingScheme _ _ _ hl _ _ (normalise_weights _) (fun i => normalise_pos _ i)]
  simp [startSt, initSt]

/-! ### Assembly -/

/-- Rows of an array as an infinite sequence. -/
def ext {α : Type} {K : ℕ} (p : Fin (K + 1) → α) (j : ℕ) : α := p ⟨min j K, by omega⟩

theorem measurable_ext {α : Type} [MeasurableSpace α] {K : ℕ} :
    Measurable fun p : Fin (K + 1) → α => ext p :=
  measurable_pi_iff.2 fun _ => measurable_pi_apply _

theorem arr_eq {α : Type} {K : ℕ} (p : Fin (K + 1) → α) :
    arr p = (ext p 0, (List.range K).map fun j => ext p (j + 1)) := by
  unfold arr ext
  refine Prod.ext (by simp) ?_
  apply List.ext_getElem
  · simp
  · intro i h1 h2
    have hi : i < K := by simpa using h1
    simp only [List.getElem_ofFn, List.getElem_map, List.getElem_range]
    congr 1
    ext
    simp
    omega

theorem pathInt_congr : ∀ (ss : List (FKStep U)) (u : U) {f g : List U → ℝ≥0∞},
    (∀ l, l.length = ss.length → f l = g l) → pathInt ss u f = pathInt ss u g
  | [], _, _, _, h => h [] rfl
  | s :: ss, u, f, g, h => by
    simp only [pathInt]
    congr 1
    exact lintegral_congr fun u' => pathInt_congr ss u' fun l hl => h _ (by simp [hl])

theorem avgBs_congr {K : ℕ} {f g : Arr1 (Fin N) → ℝ≥0∞} (h : ∀ bs : Arr1 (Fin N), bs.2.length = K → f bs = g bs) :
    avgBs N K f = avgBs N K g := by
  unfold avgBs
  congr 1
  exact Finset.sum_congr rfl fun b _ => avgIdx_congr _ fun l hl => h (b, l) hl

theorem lintegral_avgBs {Y : Type} [MeasurableSpace Y] (μ : Measure Y) {K : ℕ} {f : Y → Arr1 (Fin N) → ℝ≥0∞}
    (h : ∀ bs : Arr1 (Fin N), bs.2.length = K → Measurable fun y => f y bs) :
    ∫⁻ y, avgBs N K (f y) ∂μ = avgBs N K fun bs => ∫⁻ y, f y bs ∂μ := by
  unfold avgBs
  have hm : ∀ b : Fin N, Measurable fun y => avgIdx N K fun l => f y (b, l) := fun b =>
    measurable_avgIdx K fun l hl => h (b, l) hl
  rw [lintegral_const_mul _ (Finset.measurable_sum _ fun b _ => hm b), lintegral_finsetSum _ fun b _ => hm b]
  congr 1
  exact Finset.sum_congr rfl fun b _ => lintegral_avgIdx μ K fun l hl => h (b, l) hl

theorem avgBs_const [NeZero N] (K : ℕ) (c : ℝ≥0∞) : avgBs N K (fun _ => c) = c :=
  avgIdx_const c (K + 1)

omit [MeasurableSpace U] in
theorem reverse_toList {α : Type} (a : Arr1 α) : a.reverse.toList = a.toList.reverse := by
  obtain ⟨x, l⟩ := a
  unfold Arr1.reverse Arr1.toList
  simp only
  have h : (x :: l).reverse ≠ [] := by simp
  conv_rhs => rw [← List.cons_head_tail h]
  congr 1
  rw [List.head_reverse]
  rfl

variable [MeasurableSpace V]

/-- The remaining part of the Gibbs kernel, as a functional of the two reversed paths and the indices,
leaves the law invariant whenever it acts on the final particle system by a `Ψ` which preserves the
weights. -/
theorem gibbs_core_law {K : ℕ} [NeZero N] {S : StateSpace U V} (hS : S.JointMeas) {ts : Arr1 ℝ} (hts : ts.2.length = K)
    {Λ : Measure (U × (Fin (K + 1) → V))} {I : (Arr1 U → Arr1 V → ℝ≥0∞) → ℝ≥0∞}
    (hΛ : ∀ φ, MeasPaths K φ →
      I φ = ∫⁻ q, pathInt (S.steps (arr q.2).1 (arr q.2).2 ts.toList) q.1 (fun l => φ (q.1, l) (arr q.2)) ∂Λ)
    (c : ℝ) {Ψ : St N U → Fin N → ℝ≥0∞} (hΨ : MeasFun (1 + K) Ψ)
    {Q : (Fin N → ℝ) → Prop}
    (hQ : ∀ v v' t (x : Fin N → U), Q (normalise fun i => S.logG v v' t (x i)))
    (hQ0 : Q fun _ => 1 / (N : ℝ))
    {F : U → List (Fin N) → ℝ≥0∞} (hF : ∀ bl, Measurable fun x => F x bl)
    (h : ∀ st : St N U, Weights st.W → Q st.W →
      ∑ b, ENNReal.ofReal (st.W b) * Ψ st b = ∑ b, ENNReal.ofReal (st.W b) * keepΨ (lastF F) st b)
    {R : Arr1 U → Arr1 V → Arr1 (Fin N) → ℝ≥0∞}
    (hR : ∀ us vs bs, us.2.length = K → vs.2.length = K → bs.2.length = K →
      R us vs bs = Cf killingScheme.cond Ψ (S.steps vs.1 vs.2 ts.toList) (us.2.zip bs.2)
        (startSt N c us.1) bs.1) :
    avgBs N K (fun bs => I fun us vs => R us vs bs) = avgBs N K (fun bs => I fun us _ => lastF F us.toList bs.toList) := by
  have htl : K ≤ ts.toList.length := by simp [Arr1.toList, hts]
  let ss : (Fin (K + 1) → V) → List (FKStep U) := fun v => S.steps (arr v).1 (arr v).2 ts.toList
  have hss : ∀ v, ss v = seqSteps S (ext v) K ts.toList := by
    intro v; simp only [ss, arr_eq]; rfl
  have hlen : ∀ v, (ss v).length = K := by
    intro v
    simp only [ss]
    rw [steps_length]
    · simp [arr]
    · simp [arr, Arr1.toList, hts]
  have hmem : ∀ (vs : List V) (v : V) (l : List ℝ), ∀ s ∈ S.steps v vs l, ∀ x : Fin N → U,
      Q (normalise fun i => s.g (x i)) := by
    intro vs
    induction vs with
    | nil => intro v l s hs; cases l <;> simp [StateSpace.steps] at hs
    | cons v' vs ih =>
      intro v l s hs x
      cases l with
      | nil => simp [StateSpace.steps] at hs
      | cons t l =>
        simp only [StateSpace.steps, List.mem_cons] at hs
        rcases hs with rfl | hs
        · exact hQ v' v t x
        · exact ih v' l s hs x
  -- the value along the backward representation
  let G : (Fin (K + 1) → V) → Arr1 (Fin N) → U → List U → ℝ≥0∞ := fun v bs u l =>
    Cf killingScheme.cond Ψ (ss v) (l.zip bs.2) (startSt N c u) bs.1
  have hG : ∀ bs : Arr1 (Fin N), bs.2.length = K → ∀ (Y : Type) [MeasurableSpace Y]
      (v : Y → Fin (K + 1) → V) (_ : Measurable v) (u : Y → U) (_ : Measurable u) (p : Y → ℕ → U)
      (_ : Measurable p), Measurable fun y => G (v y) bs (u y) ((List.range K).map (p y)) := by
    intro bs hbs Y _ v hv u hu p hp
    simp only [G, hss, zip_range _ bs.2 hbs bs.1]
    exact measurable_Cf_obs killingScheme.meas S hS K ts.toList htl 1 hΨ Y _ (measSt_start _ hu)
      (fun y j => (p y j, bs.2.getD j bs.1))
      (measurable_pi_iff.2 fun j => ((measurable_pi_apply j).comp hp).prodMk measurable_const)
      (fun y => ext (v y)) (measurable_ext.comp hv) bs.1
  have hGp : ∀ bs : Arr1 (Fin N), bs.2.length = K →
      Measurable fun q : U × (Fin (K + 1) → V) => pathInt (ss q.2) q.1 (G q.2 bs q.1) := by
    intro bs hbs
    simp only [hss]
    refine measurable_pathInt_obs S hS K ts.toList htl _ (fun q l => G q.2 bs q.1 l) ?_ _ measurable_fst
      (fun q => ext q.2) (measurable_ext.comp measurable_snd)
    exact hG bs hbs _ _ (measurable_snd.comp measurable_fst) _ (measurable_fst.comp measurable_fst) _
      measurable_snd
  let H : Arr1 (Fin N) → U → List U → ℝ≥0∞ := fun bs u l => lastF F (u :: l) bs.toList
  have hH : ∀ (bs : Arr1 (Fin N)) (Y : Type) [MeasurableSpace Y] (u : Y → U) (_ : Measurable u)
      (p : Y → ℕ → U) (_ : Measurable p), Measurable fun y => H bs (u y) ((List.range K).map (p y)) := by
    intro bs Y _ u hu p hp
    have e : ∀ y, H bs (u y) ((List.range K).map (p y))
        = F (Nat.casesOn K (u y) (p y)) bs.toList := by
      intro y
      simp only [H, lastF]
      cases K with
      | zero => simp
      | succ K => simp [List.range_succ, List.getLast?_append, List.getLast?_cons]
    simp only [e]
    refine (hF bs.toList).comp ?_
    cases K with
    | zero => exact hu
    | succ K => exact (measurable_pi_apply K).comp hp
  have hHp : ∀ bs : Arr1 (Fin N),
      Measurable fun q : U × (Fin (K + 1) → V) => pathInt (ss q.2) q.1 (H bs q.1) := by
    intro bs
    simp only [hss]
    refine measurable_pathInt_obs S hS K ts.toList htl _ (fun q l => H bs q.1 l) ?_ _ measurable_fst
      (fun q => ext q.2) (measurable_ext.comp measurable_snd)
    exact hH bs _ _ (measurable_fst.comp measurable_fst) _ measurable_snd
  have hparam : ∀ (v : Fin (K + 1) → V) (u : U) (b : Fin N), MeasParam (Z := Unit) (ss v).length
      (fun _ l => Cf killingScheme.cond Ψ (ss v) l (startSt N c u) b) := fun v u b =>
    measParam_Cf killingScheme.meas (ss v) 1 (by rw [hlen]; exact hΨ) (measSt_start _ measurable_const) b
  have hparam' : ∀ (v : Fin (K + 1) → V) (u : U) (b : Fin N), MeasParam (Z := Unit) (ss v).length
      (fun _ l => lastF F (u :: l.map Prod.fst) (b :: l.map Prod.snd)) := by
    intro v u b
    have h1 := measFun_keep (measOut_lastF (N := N) hF (1 + (ss v).length))
    have h2 := measParam_Cf (Z := Unit) killingScheme.meas (ss v) 1 h1
      (measSt_start c (measurable_const (a := u))) b
    unfold MeasParam at h2 ⊢
    convert h2 using 1
    funext q
    beta_reduce
    rw [Cf_keep killingScheme _ _ _ (by simp) _ _ (normalise_weights _) (fun i => normalise_pos _ i)]
    simp [startSt, initSt]
  -- left hand side
  have hL : ∀ bs : Arr1 (Fin N), bs.2.length = K →
      (I fun us vs => R us vs bs) = ∫⁻ q, pathInt (ss q.2) q.1 (G q.2 bs q.1) ∂Λ := by
    intro bs hbs
    rw [hΛ (fun us vs => R us vs bs) ?_]
    · refine lintegral_congr fun q => pathInt_congr _ _ fun l hl => ?_
      rw [hlen q.2] at hl
      exact hR (q.1, l) (arr q.2) bs hl (by simp [arr]) hbs
    · unfold MeasPaths
      have e : ∀ q : (Fin (K + 1) → U) × (Fin (K + 1) → V), R (arr q.1) (arr q.2) bs
          = G q.2 bs (ext q.1 0) ((List.range K).map fun j => ext q.1 (j + 1)) := by
        intro q
        rw [hR _ _ bs (by simp [arr]) (by simp [arr]) hbs]
        simp only [G, ss, arr_eq q.1]
      simp only [e]
      exact hG bs hbs _ _ measurable_snd _ ((measurable_pi_apply 0).comp (measurable_ext.comp measurable_fst))
        _ (measurable_tail (measurable_ext.comp measurable_fst))
  have hRt : ∀ bs : Arr1 (Fin N),
      ∫⁻ q, pathInt (ss q.2) q.1 (H bs q.1) ∂Λ = I fun us _ => lastF F us.toList bs.toList := by
    intro bs
    have hφ : MeasPaths (V := V) K (fun us _ => lastF F us.toList bs.toList) := by
      unfold MeasPaths
      have e : ∀ q : (Fin (K + 1) → U) × (Fin (K + 1) → V), lastF F (arr q.1).toList bs.toList
          = H bs (ext q.1 0) ((List.range K).map fun j => ext q.1 (j + 1)) := by
        intro q; simp only [arr_eq q.1]; rfl
      simp only [e]
      exact hH bs _ _ ((measurable_pi_apply 0).comp (measurable_ext.comp measurable_fst))
        _ (measurable_tail (measurable_ext.comp measurable_fst))
    exact (hΛ _ hφ).symm
  rw [avgBs_congr hL, ← lintegral_avgBs Λ hGp]
  rw [show (fun bs : Arr1 (Fin N) => I fun us _ => lastF F us.toList bs.toList) = fun bs =>
    ∫⁻ q, pathInt (ss q.2) q.1 (H bs q.1) ∂Λ from funext fun bs => (hRt bs).symm,
    ← lintegral_avgBs Λ fun bs _ => hHp bs]
  refine lintegral_congr fun q => ?_
  have hi := invariant_step (N := N) (ss q.2) (by rw [hlen]; exact hΨ) c q.1 hF
    (hmem (arr q.2).2 (arr q.2).1 ts.toList) hQ0 h
  have e1 : ∀ b : Fin N, extInt N (ss q.2) q.1
      (fun l => Cf killingScheme.cond Ψ (ss q.2) l (startSt N c q.1) b)
      = avgIdx N K fun bl => pathInt (ss q.2) q.1 (G q.2 (b, bl) q.1) := by
    intro b
    rw [extInt_eq_avgIdx _ _ _ (hparam q.2 q.1 b), hlen]
  have e2 : ∀ b : Fin N, extInt N (ss q.2) q.1
      (fun l => lastF F (q.1 :: l.map Prod.fst) (b :: l.map Prod.snd))
      = avgIdx N K fun bl => pathInt (ss q.2) q.1 (H (b, bl) q.1) := by
    intro b
    rw [extInt_eq_avgIdx _ _ _ (hparam' q.2 q.1 b), hlen]
    refine avgIdx_congr _ fun bl hbl => pathInt_congr _ _ fun l hl => ?_
    rw [hlen] at hl
    simp only [H, Arr1.toList]
    rw [List.map_fst_zip (by omega), List.map_snd_zip (by omega)]
  simp only [e1, e2] at hi
  exact hi

/-- The same for the forward sampler of exact functions, started from `π0`. -/
theorem gibbs_core {K : ℕ} [NeZero N] {m : Gibbs.Funs N U V Z} {S : StateSpace U V} (hS : S.JointMeas)
    {π0 : Measure U} {y0 : V} {ts : Arr1 ℝ} (hm : BackwardExact m S π0 y0 ts K) (hts : ts.2.length = K)
    (key : Key) (c : ℝ) {Ψ : St N U → Fin N → ℝ≥0∞} (hΨ : MeasFun (1 + K) Ψ)
    {Q : (Fin N → ℝ) → Prop}
    (hQ : ∀ v v' t (x : Fin N → U), Q (normalise fun i => S.logG v v' t (x i)))
    (hQ0 : Q fun _ => 1 / (N : ℝ))
    {F : U → List (Fin N) → ℝ≥0∞} (hF : ∀ bl, Measurable fun x => F x bl)
    (h : ∀ st : St N U, Weights st.W → Q st.W →
      ∑ b, ENNReal.ofReal (st.W b) * Ψ st b = ∑ b, ENNReal.ofReal (st.W b) * keepΨ (lastF F) st b)
    {R : Arr1 U → Arr1 V → Arr1 (Fin N) → ℝ≥0∞}
    (hR : ∀ us vs bs, us.2.length = K → vs.2.length = K → bs.2.length = K →
      R us vs bs = Cf killingScheme.cond Ψ (S.steps vs.1 vs.2 ts.toList) (us.2.zip bs.2)
        (startSt N c us.1) bs.1) :
    avgBs N K (fun bs => ∫⁻ x, (m.fwd key x y0).E
        (fun p => R (m.unpack p).1.reverse (m.unpack p).2.reverse bs) ∂π0)
      = avgBs N K (fun bs => ∫⁻ x, F x bs.toList ∂π0) := by
  obtain ⟨Λ, hΛ⟩ := hm.factor
  rw [gibbs_core_law hS hts (fun φ hφ => hΛ key φ hφ) c hΨ hQ hQ0 hF h hR]
  refine avgBs_congr fun bs _ => lintegral_congr fun x => ?_
  rw [← hm.starts key x _ (hF bs.toList)]
  refine Rand.E_congr _ fun p => ?_
  beta_reduce
  rw [reverse_toList]
  simp [lastF, Arr1.toList]

/-! ### The law of the kernel -/

omit [MeasurableSpace U] [MeasurableSpace V] in
theorem leaves_scan {σ ι ο : Type} {P : ο → Prop} {body : σ → ι → Rand (σ × ο)}
    (h : ∀ s i, (body s i).Leaves fun r => P r.2) :
    ∀ (is : List ι) (s : σ), (Rand.scan body s is).Leaves fun r => ∀ o ∈ r.2, P o
  | [], s => by simp [Rand.scan, Rand.Leaves]
  | i :: is, s => by
    refine (h s i).bind fun r hr => (leaves_scan h is r.1).bind fun rs hrs => ?_
    simp only [Rand.pure_eq, Rand.Leaves, List.mem_cons]
    rintro o (rfl | ho)
    · exact hr
    · exact hrs o ho

omit [MeasurableSpace U] [MeasurableSpace V] in
/-- What every output of `forward_pass` looks like. -/
theorem leaves_forwardPass [NeZero N] (m : Csmc.Funs N U V) (res : CondResampling N) (k : ℕ) (key : Key)
    (us : Arr1 U) (bs : Arr1 (Fin N)) (vs : Arr1 V) (ts : Arr1 ℝ) :
    (forwardPass m res k key us bs vs ts).Leaves fun out =>
      Weights (fun i => Real.exp (out.2.1.last i)) ∧ out.1.length = out.2.2.2.length := by
  unfold forwardPass
  refine (Rand.leaves_true _).bind fun x0 _ => ?_
  refine (leaves_scan (P := fun o => ∃ lw, o.1 = normaliseLog lw) (fun s i => ?_) _ _).bind fun r hr => ?_
  · unfold scanBody
    exact (Rand.leaves_true _).bind fun A _ => (Rand.leaves_true _).bind fun y _ => ⟨_, rfl⟩
  · simp only [Rand.pure_eq, Rand.Leaves, List.length_map, and_true]
    have : ∀ (lw0 : Fin N → ℝ), (∃ lw, lw0 = normaliseLog lw) →
        ∃ lw, Arr1.last (lw0, r.2.map fun o => o.1) = normaliseLog lw := by
      intro lw0 h0
      have hmem := List.getLast_mem (List.cons_ne_nil lw0 (r.2.map fun o => o.1))
      rw [List.mem_cons, List.mem_map] at hmem
      unfold Arr1.last
      rcases hmem with h | ⟨o, ho, h⟩
      · rw [h]; exact h0
      · rw [← h]; exact hr o ho
    obtain ⟨lw, hlw⟩ := this _ ⟨_, rfl⟩
    rw [hlw]
    exact normalise_weights lw

omit [MeasurableSpace U] [MeasurableSpace V] in
theorem leaves_kernel [NeZero N] (m : Csmc.Funs N U V) (res : CondResampling N) (k : ℕ) (key : Key)
    (us : Arr1 U) (bs : Arr1 (Fin N)) (vs : Arr1 V) (ts : Arr1 ℝ) :
    (Csmc.kernel m res k false key us bs vs ts).Leaves fun out => out.1 ≠ [] := by
  unfold Csmc.kernel
  refine (Rand.leaves_true _).bind fun o _ => ?_
  simp only [Bool.false_eq_true, if_false]
  unfold backwardScanning
  refine (Rand.leaves_true _).bind fun B _ => ?_
  simp [Rand.Leaves, Arr1.insertReverse]

omit [MeasurableSpace U] in
theorem lastF_getLastD {F : U → List (Fin N) → ℝ≥0∞} {us : List U} (h : us ≠ []) (d : U) (bs : List (Fin N)) :
    F (us.getLastD d) bs = lastF F us bs := by
  unfold lastF
  rw [List.getLastD_eq_getLast?, List.getLast?_eq_some_getLast h]
  rfl

/-- **C14, `explicit_backward=False`.** Let the functions handed to the Gibbs sampler be exact for the law
`π0` of `x0` given `y0`, with a backward model that is jointly measurable.  If `x0 ~ π0` and the indices are independent
and uniform, then after one call of `gibbs_kernel(marg_y=False, explicit_final=False)` the returned `x0` has
the law `π0` again, with independent uniform indices. -/
theorem C14_gibbs_invariant {K : ℕ} [NeZero n] {m : Gibbs.Funs (rows n false) U V Z} {S : StateSpace U V}
    (hS : S.JointMeas) {π0 : Measure U} {y0 : V} {ts : Arr1 ℝ} (hm : BackwardExact m S π0 y0 ts K)
    (hts : ts.2.length = K) (key : Key) {F : U → List (Fin (rows n false)) → ℝ≥0∞}
    (hF : ∀ bl, Measurable fun x => F x bl) :
    avgBs (rows n false) K (fun bs => ∫⁻ x, (gibbsKernel false m false false key x y0 bs ts).E
        (fun out => F out.1 out.2.2.1) ∂π0)
      = avgBs (rows n false) K (fun bs => ∫⁻ x, F x bs.toList ∂π0) := by
  have h := gibbs_core hS hm hts (split key 3 0) (-Real.log n)
    (Ψ := selectΨ (lastF F)) (measFun_select (measOut_lastF hF _)) (Q := fun _ => True) (fun _ _ _ _ => trivial)
    trivial hF (fun st hW _ => select_eq_keep _ st hW)
    (R := fun us vs bs => (Csmc.kernel (csmcFuns false m us.1 ts.1) CsmcResampling.killing n false
      (split key 3 1) us bs vs ts).E fun out => lastF F out.1 out.2) ?_
  · rw [← h]
    refine avgBs_congr fun bs hbs => lintegral_congr fun x => ?_
    simp only [gibbsKernel, gibbsPaths, Rand.E_bind, Rand.pure_eq, Rand.E_ret, Bool.false_eq_true, if_false]
    refine Rand.E_congr _ fun p => ?_
    exact Rand.E_congr_leaves (leaves_kernel _ _ _ _ _ _ _ _) fun out ho => lastF_getLastD ho x _
  · intro us vs bs h1 h2 h3
    rw [E_kernel_scanning _ _ _ _ _ _ _ _ bs.last]
    exact E_forwardPass_pinned hm.trans hm.lik _ _ us bs vs ts (h1.trans h2.symm) (h3.trans h2.symm)
      (hts.trans h2.symm) (by rw [h2]; exact measFun_select (measOut_lastF hF _))

/-! ### `explicit_backward=True` -/

theorem measurable_accP {Y : Type} [MeasurableSpace Y] {d t : Y → ℝ} (hd : Measurable d) (ht : Measurable t) :
    Measurable fun y => accP (d y) (t y) := by
  unfold accP
  exact Measurable.ite (measurableSet_le ht measurable_const) measurable_const
    (Measurable.ite (measurableSet_le hd ht) measurable_const (ht.div hd))

theorem measurable_moveP {Y : Type} [MeasurableSpace Y] {w : Y → Fin N → ℝ} (hw : Measurable w) (k i : Fin N) :
    Measurable fun y => moveP (w y) k i := by
  have h : ∀ j, Measurable fun y => w y j := fun j => (measurable_pi_apply j).comp hw
  have hr : Measurable fun y => restWeights (w y) k i := by
    have e : ∀ y, restWeights (w y) k i
        = if w y k < forceThreshold N then (if i = k then 0 else w y i) / (1 - w y k) else 1 / (N : ℝ) := by
      intro y
      unfold restWeights
      by_cases hlt : w y k < forceThreshold N
      · simp only [if_pos hlt, atSet, Function.update_apply]
      · simp only [if_neg hlt]
    simp only [e]
    refine Measurable.ite (measurableSet_lt (h k) measurable_const) ?_ measurable_const
    refine Measurable.div ?_ (measurable_const.sub (h k))
    split_ifs
    · exact measurable_const
    · exact h i
  unfold moveP
  exact hr.mul (measurable_accP (measurable_const.sub (h i)) (measurable_const.sub (h k)))

/-- The forced move as a functional of the particle system. -/
noncomputable def forceΨ (φ : List U → List (Fin N) → ℝ≥0∞) (st : St N U) (b : Fin N) : ℝ≥0∞ :=
  ∑ i, ENNReal.ofReal (moveP st.W b i) * keepΨ φ st i
    + ENNReal.ofReal (1 - ∑ i, moveP st.W b i) * keepΨ φ st b

omit [MeasurableSpace V] in
theorem measFun_force {k : ℕ} {φ : List U → List (Fin N) → ℝ≥0∞} (hφ : MeasOut k φ) :
    MeasFun k (forceΨ φ) := by
  intro Y _ st hst b
  have hk : ∀ i, Measurable fun z => keepΨ φ (st z) i := fun i => measurable_path hφ hst i
  unfold forceΨ
  refine (Finset.measurable_sum _ fun i _ =>
    (ENNReal.measurable_ofReal.comp (measurable_moveP hst.W b i)).mul (hk i)).add ?_
  exact (ENNReal.measurable_ofReal.comp
    (measurable_const.sub (Finset.measurable_sum _ fun i _ => measurable_moveP hst.W b i))).mul (hk b)

omit [MeasurableSpace U] [MeasurableSpace V] in
theorem force_eq_keep [NeZero N] (φ : List U → List (Fin N) → ℝ≥0∞) (st : St N U) (hW : Weights st.W)
    (hr : Regular st.W) :
    ∑ b, ENNReal.ofReal (st.W b) * forceΨ φ st b = ∑ b, ENNReal.ofReal (st.W b) * keepΨ φ st b := by
  rw [← C12_force_move_invariant hW hr [] (keepΨ φ st)]
  refine Finset.sum_congr rfl fun b _ => ?_
  rw [E_forceMove hW]
  rfl

/-- Equal weights are away from the degenerate branch. -/
theorem regular_uniform (N : ℕ) : Regular fun _ : Fin N => 1 / (N : ℝ) := by
  intro i
  rcases Nat.lt_or_ge N 2 with h | h
  · right
    have : N = 1 := by have := i.pos; omega
    subst this
    norm_num
  · left
    have h1 : (1 : ℝ) / N ≤ 1 / 2 := by
      apply one_div_le_one_div_of_le (by norm_num)
      exact_mod_cast h
    have h2 := le_max_right (1 - Real.exp (-(N : ℝ))) (1 - 1e-12)
    unfold forceThreshold
    refine lt_of_le_of_lt h1 (lt_of_lt_of_le ?_ h2)
    norm_num

omit [MeasurableSpace U] [MeasurableSpace V] in
theorem trace_getLast (x0 : Fin N → U) (os : List ((Fin N → Fin N) × (Fin N → U))) (i : Fin N) :
    (trace x0 os i).getLast? = some (Arr1.last (x0, os.map Prod.snd) i, i) := by
  induction os using List.reverseRecOn with
  | nil => rfl
  | append_singleton os o ih =>
    obtain ⟨A, x⟩ := o
    rw [trace_snoc]
    simp [Arr1.last]

theorem avgIdx_eq_sum (N : ℕ) : ∀ (k : ℕ) (f : List (Fin N) → ℝ≥0∞),
    avgIdx N k f = ((N : ℝ≥0∞)⁻¹) ^ k * ∑ b : Fin k → Fin N, f (List.ofFn b)
  | 0, f => by simp [avgIdx]
  | k + 1, f => by
    simp only [avgIdx, avgIdx_eq_sum N k]
    rw [← Finset.mul_sum, ← mul_assoc, ← pow_succ']
    congr 1
    rw [← Fintype.sum_prod_type' (fun (b : Fin N) (c : Fin k → Fin N) => f (b :: List.ofFn c))]
    refine Fintype.sum_equiv (Fin.consEquiv fun _ => Fin N) _ _ fun p => ?_
    simp [List.ofFn_succ, Fin.consEquiv]

theorem E_randints [NeZero N] (key : Key) (k : ℕ) (f : List (Fin N) → ℝ≥0∞) :
    (randints key k N).E (fun b => f (List.ofFn b)) = avgIdx N k f := by
  unfold randints
  rw [Rand.E_sample, avgIdx_eq_sum, lintegral_fintype, Finset.mul_sum]
  refine Finset.sum_congr rfl fun b _ => ?_
  have hs : IsFiniteMeasure ((N : ℝ≥0∞)⁻¹ • (Measure.count : Measure (Fin N))) := by
    refine ⟨?_⟩
    simp [lt_top_iff_ne_top]
  have hsing : ({b} : Set (Fin k → Fin N)) = Set.univ.pi fun i => {b i} := by
    ext c; simp [funext_iff]
  rw [hsing, Measure.pi_pi]
  simp [mul_comm]

/-- **C14, `explicit_backward=True`.** The same with the forced move and a fresh forward path, when no weight
computed from the likelihood falls in the range that `force_move` treats as numerically one. -/
theorem C14_gibbs_explicit_backward {K : ℕ} [NeZero n] {m : Gibbs.Funs (rows n false) U V Z} {S : StateSpace U V}
    (hS : S.JointMeas) {π0 : Measure U} {y0 : V} {ts : Arr1 ℝ} (hm : BackwardExact m S π0 y0 ts K)
    (hts : ts.2.length = K)
    (hreg : ∀ v v' t (x : Fin (rows n false) → U), Regular (normalise fun i => S.logG v v' t (x i)))
    (key : Key) {F : U → List (Fin (rows n false)) → ℝ≥0∞} (hF : ∀ bl, Measurable fun x => F x bl) :
    avgBs (rows n false) K (fun bs => ∫⁻ x, (gibbsKernel false m false true key x y0 bs ts).E
        (fun out => F out.1 out.2.2.1) ∂π0)
      = avgBs (rows n false) K (fun bs => ∫⁻ x, F x bs.toList ∂π0) := by
  let G : ℕ → U → List (Fin (rows n false)) → ℝ≥0∞ := fun k x _ => avgIdx (rows n false) (k + 1) (F x)
  have hG : ∀ k bl, Measurable fun x => G k x bl := fun _ _ => measurable_avgIdx _ fun l _ => hF l
  have hright : avgBs (rows n false) K (fun bs => ∫⁻ x, F x bs.toList ∂π0)
      = avgBs (rows n false) K (fun bs => ∫⁻ x, G K x bs.toList ∂π0) := by
    rw [show (fun bs : Arr1 (Fin (rows n false)) => ∫⁻ x, G K x bs.toList ∂π0)
      = fun _ => ∫⁻ x, avgBs (rows n false) K (fun bs => F x bs.toList) ∂π0 from rfl, avgBs_const,
      lintegral_avgBs π0 fun bs _ => hF bs.toList]
  have h := gibbs_core hS hm hts (split key 3 0) (-Real.log n)
    (Ψ := forceΨ (lastF (G K))) (measFun_force (measOut_lastF (hG K) _)) (Q := Regular) hreg
    (regular_uniform _) (hG K) (fun st hW hr => force_eq_keep _ st hW hr)
    (R := fun us vs bs => (forwardPass (csmcFuns false m us.1 ts.1) CsmcResampling.killing n
      (split (split key 3 1) 4 0) us bs vs ts).E
        fun out => forceΨ (lastF (G us.2.length)) (finalSt out) bs.last) ?_
  · rw [hright, ← h]
    refine avgBs_congr fun bs hbs => lintegral_congr fun x => ?_
    simp only [gibbsKernel, gibbsPaths, Rand.E_bind, Rand.pure_eq, Rand.E_ret, Bool.false_eq_true, if_false,
      if_true]
    refine Rand.E_congr _ fun p => Rand.E_congr_leaves (leaves_forwardPass _ _ _ _ _ _ _ _) ?_
    rintro out ⟨hW, hlen⟩
    generalize (m.unpack p).1.reverse.2.length = L
    have hin : ∀ (x' : U) (k1 k2 : Key), (m.fwd k1 x' y0).E (fun path => (randints k2 (L + 1) n).E
        (fun b => F (((m.unpack path).1.toList.reverse).getLastD x)
          ((List.ofFn b).map (Fin.castLE (le_rows n false))))) = G L x' [] := by
      intro x' k1 k2
      rw [← hm.starts k1 x' _ (hG L [])]
      refine Rand.E_congr _ fun path => ?_
      have e1 : ((m.unpack path).1.toList.reverse).getLastD x = (m.unpack path).1.1 := by
        simp [Arr1.toList]
      rw [e1]
      have e2 : ∀ b : Fin (L + 1) → Fin n, (List.ofFn b).map (Fin.castLE (le_rows n false)) = List.ofFn b := by
        intro b
        rw [List.map_ofFn]
        rfl
      simp only [e2]
      exact E_randints (N := rows n false) k2 (L + 1) (F (m.unpack path).1.1)
    simp only [hin]
    have hlast : ∀ i, G L (out.2.2.last i) [] = keepΨ (lastF (G L)) (finalSt out) i := by
      intro i
      have h1 := trace_getLast out.2.2.1 (out.1.zip out.2.2.2) i
      rw [List.map_snd_zip hlen.ge] at h1
      show _ = lastF (G L) ((trace out.2.2.1 (out.1.zip out.2.2.2) i).map Prod.fst) _
      unfold lastF
      rw [List.getLast?_map, h1]
      rfl
    rw [E_forceMove hW _ _ (fun i => G L (out.2.2.last i) [])]
    simp only [hlast]
    rfl
  · intro us vs bs h1 h2 h3
    rw [h1]
    exact E_forwardPass_pinned hm.trans hm.lik _ _ us bs vs ts (h1.trans h2.symm) (h3.trans h2.symm)
      (hts.trans h2.symm) (by rw [h2]; exact measFun_force (measOut_lastF (hG K) _))

/-! ### The hypotheses can be met

Prior `N(0,1)` for `x`, likelihood `y0 | x` proportional to `exp(g y0 x)`, one noising step which keeps `x`
and replaces `y` by standard normal noise. -/

/-- The backward model: `x` stays, `y0` is weighted by its likelihood. -/
noncomputable def exS (g : ℝ → ℝ → ℝ) (hg : ∀ v, Measurable (g v)) : StateSpace ℝ ℝ where
  init := gaussianReal 0 1
  prob := inferInstance
  trans _ _ := Kernel.id
  markov _ _ := inferInstance
  logG v _ _ u := g v u
  measG v _ _ := hg v
  logG0 _ _ _ := 0
  measG0 _ _ := measurable_const

/-- The functions of the example. -/
noncomputable def exFuns (g : ℝ → ℝ → ℝ) (N : ℕ) : Gibbs.Funs N ℝ ℝ (ℝ × ℝ) where
  fwd k x y := (fun y1 => ((x, y), [(x, y1)])) <$> Rand.sample k Set.univ (gaussianReal 0 1)
  unpack p := (p.map Prod.fst, p.map Prod.snd)
  bridge _ y y' _ := pure (y, [y'])
  normal k _ := Rand.sample k Set.univ (Measure.pi fun _ => gaussianReal 0 1)
  transSampler xs _ _ _ := pure xs
  transLogpdf _ _ _ _ := fun _ => 0
  lik v xs _ _ := fun i => g v (xs i)

theorem exS_jointMeas {g : ℝ → ℝ → ℝ} (hg : Measurable fun p : ℝ × ℝ => g p.1 p.2) :
    (exS g fun _ => hg.comp measurable_prodMk_left).JointMeas := by
  refine ⟨fun t => ?_, fun t => ?_⟩
  · exact (Kernel.id (α := ℝ)).measurable.comp measurable_snd
  · show Measurable fun p : ℝ × ℝ × ℝ => g p.1 p.2.2
    have h : Measurable fun p : ℝ × ℝ × ℝ => (p.1, p.2.2) := by fun_prop
    exact hg.comp h

theorem exFuns_exact {g : ℝ → ℝ → ℝ} (hg : Measurable fun p : ℝ × ℝ => g p.1 p.2) (N : ℕ) (y0 t0 t1 : ℝ) :
    BackwardExact (exFuns g N) (exS g fun _ => hg.comp measurable_prodMk_left)
      ((gaussianReal 0 1).withDensity fun u => ENNReal.ofReal (Real.exp (g y0 u))) y0 (t0, [t1]) 1 where
  trans xs v t k F hF := by
    have h : (Measure.pi fun i => (exS g fun _ => hg.comp measurable_prodMk_left).trans v t (xs i)) = Measure.dirac xs := by
      have : ∀ i, (exS g fun _ => hg.comp measurable_prodMk_left).trans v t (xs i) = Measure.dirac (xs i) := fun i => Kernel.id_apply _
      simp only [this]
      exact pi_dirac xs
    rw [h, lintegral_dirac' _ hF]
    rfl
  lik _ _ _ _ _ := rfl
  starts key x F hF := by
    simp [exFuns, Rand.E_map, Rand.E_sample, Arr1.map]
  factor := by
    refine ⟨((gaussianReal 0 1).prod (gaussianReal 0 1)).map fun p => (p.1, ![p.2, y0]), fun key φ hφ => ?_⟩
    have hmap : Measurable fun p : ℝ × ℝ => ((p.1, ![p.2, y0]) : ℝ × (Fin 2 → ℝ)) := by
      refine measurable_fst.prodMk (measurable_pi_iff.2 fun i => ?_)
      fin_cases i
      · exact measurable_snd
      · exact measurable_const
    have hd : Measurable fun u : ℝ => ENNReal.ofReal (Real.exp (g y0 u)) :=
      ENNReal.measurable_ofReal.comp (Real.measurable_exp.comp (hg.comp measurable_prodMk_left))
    have h2 : Measurable fun p : (ℝ × ℝ) × (Fin 2 → ℝ) =>
        ((![p.1.1, p.1.2], p.2) : (Fin 2 → ℝ) × (Fin 2 → ℝ)) := by
      refine (measurable_pi_iff.2 fun i => ?_).prodMk measurable_snd
      fin_cases i <;> simp <;> fun_prop
    have hf2 : Measurable fun p : (ℝ × ℝ) × (Fin 2 → ℝ) => φ (p.1.1, [p.1.2]) (arr p.2) := Measurable.comp hφ h2
    have hf : Measurable fun q : ℝ × (Fin 2 → ℝ) => φ (q.1, [q.1]) (arr q.2) := by
      have h : Measurable fun q : ℝ × (Fin 2 → ℝ) => ((q.1, q.1), q.2) := by fun_prop
      exact hf2.comp h
    have hf1 : Measurable fun p : ℝ × ℝ => φ (p.1, [p.1]) (p.2, [y0]) := hf.comp hmap
    have hstep : ∀ q : ℝ × (Fin 2 → ℝ), pathInt ((exS g fun _ => hg.comp measurable_prodMk_left).steps
        (arr q.2).1 (arr q.2).2 (Arr1.toList ((t0, [t1]) : Arr1 ℝ))) q.1 (fun l => φ (q.1, l) (arr q.2))
          = ENNReal.ofReal (Real.exp (g (q.2 1) q.1)) * φ (q.1, [q.1]) (arr q.2) := by
      intro q
      have : Measurable fun u' => φ (q.1, [u']) (arr q.2) := by
        have h : Measurable fun u' : ℝ => ((q.1, u'), q.2) := by fun_prop
        exact hf2.comp h
      show ENNReal.ofReal (Real.exp (g (q.2 1) q.1)) * ∫⁻ u', φ (q.1, [u']) (arr q.2) ∂(Kernel.id q.1) = _
      rw [Kernel.id_apply, lintegral_dirac' _ this]
    have hR : Measurable fun q : ℝ × (Fin 2 → ℝ) =>
        ENNReal.ofReal (Real.exp (g (q.2 1) q.1)) * φ (q.1, [q.1]) (arr q.2) := by
      have h : Measurable fun q : ℝ × (Fin 2 → ℝ) => (q.2 1, q.1) := by fun_prop
      exact (ENNReal.measurable_ofReal.comp (Real.measurable_exp.comp (hg.comp h))).mul hf
    have hL : ∀ x, ((exFuns g N).fwd key x y0).E
        (fun p => φ ((exFuns g N).unpack p).1.reverse ((exFuns g N).unpack p).2.reverse)
          = ∫⁻ y1, φ (x, [x]) (y1, [y0]) ∂(gaussianReal 0 1) := by
      intro x
      simp only [exFuns, Rand.E_map, Rand.E_sample]
      rfl
    simp only [hL, hstep]
    rw [lintegral_withDensity_eq_lintegral_mul _ hd hf1.lintegral_prod_right', lintegral_map hR hmap]
    have hR' := hR.comp hmap
    refine Eq.trans ?_ (lintegral_prod _ hR'.aemeasurable).symm
    refine lintegral_congr fun x => ?_
    have hx : Measurable fun y1 : ℝ => φ (x, [x]) (y1, [y0]) := hf1.comp measurable_prodMk_left
    exact (lintegral_const_mul (ENNReal.ofReal (Real.exp (g y0 x))) hx).symm

theorem regular_of_bounded {N : ℕ} {lw : Fin N → ℝ} (h : ∀ i, |lw i| ≤ 1) : Regular (normalise lw) := by
  intro k
  have : NeZero N := ⟨fun h0 => by subst h0; exact k.elim0⟩
  have hw := normalise_weights lw
  by_cases hk : ∃ j, j ≠ k
  · left
    obtain ⟨j, hj⟩ := hk
    have h1 : normalise lw k ≤ 9 * normalise lw j := by
      rw [normalise_eq, normalise_eq, ← mul_div_assoc]
      refine div_le_div_of_nonneg_right ?_ (Finset.sum_nonneg fun _ _ => (Real.exp_pos _).le)
      have h9 : Real.exp 2 ≤ 9 := by
        have := Real.exp_one_lt_d9
        have h0 := Real.exp_pos 1
        rw [show (2 : ℝ) = 1 + 1 by norm_num, Real.exp_add]
        nlinarith
      have h2 : lw k ≤ 2 + lw j := by
        have := (abs_le.1 (h k)).2
        have := (abs_le.1 (h j)).1
        linarith
      calc Real.exp (lw k) ≤ Real.exp (2 + lw j) := Real.exp_le_exp.2 h2
        _ = Real.exp 2 * Real.exp (lw j) := Real.exp_add _ _
        _ ≤ 9 * Real.exp (lw j) := mul_le_mul_of_nonneg_right h9 (Real.exp_pos _).le
    have h2 : normalise lw k + normalise lw j ≤ 1 := by
      rw [← hw.sum_one]
      have := Finset.sum_le_sum_of_subset_of_nonneg (Finset.subset_univ {k, j})
        (fun i _ _ => hw.nonneg i)
      rwa [Finset.sum_pair hj.symm] at this
    refine lt_of_lt_of_le ?_ (le_max_right _ _)
    norm_num
    linarith
  · right
    push Not at hk
    rw [← hw.sum_one]
    exact (Finset.sum_eq_single k (fun j _ h => absurd (hk j) h) (by simp)).symm

section
variable (key : Key) {F : ℝ → List (Fin (rows 5 false)) → ℝ≥0∞} (hF : ∀ bl, Measurable fun x => F x bl)
include hF

/-- Normal likelihood. -/
example :
    avgBs (rows 5 false) 1 (fun bs => ∫⁻ x, (gibbsKernel false (exFuns (fun v u => -(v - u) ^ 2 / 2) (rows 5 false))
        false false key x 2 bs (0, [1])).E (fun out => F out.1 out.2.2.1)
          ∂((gaussianReal 0 1).withDensity fun u => ENNReal.ofReal (Real.exp (-(2 - u) ^ 2 / 2))))
      = avgBs (rows 5 false) 1 (fun bs => ∫⁻ x, F x bs.toList
          ∂((gaussianReal 0 1).withDensity fun u => ENNReal.ofReal (Real.exp (-(2 - u) ^ 2 / 2)))) :=
  C14_gibbs_invariant (exS_jointMeas (g := fun v u => -(v - u) ^ 2 / 2) (by fun_prop))
    (exFuns_exact (g := fun v u => -(v - u) ^ 2 / 2) (by fun_prop) _ 2 0 1) rfl key hF

/-- A likelihood bounded away from zero. -/
example :
    avgBs (rows 5 false) 1 (fun bs => ∫⁻ x, (gibbsKernel false (exFuns (fun v u => Real.cos (v - u)) (rows 5 false))
        false true key x 2 bs (0, [1])).E (fun out => F out.1 out.2.2.1)
          ∂((gaussianReal 0 1).withDensity fun u => ENNReal.ofReal (Real.exp (Real.cos (2 - u)))))
      = avgBs (rows 5 false) 1 (fun bs => ∫⁻ x, F x bs.toList
          ∂((gaussianReal 0 1).withDensity fun u => ENNReal.ofReal (Real.exp (Real.cos (2 - u))))) :=
  C14_gibbs_explicit_backward (exS_jointMeas (g := fun v u => Real.cos (v - u)) (by fun_prop))
    (exFuns_exact (g := fun v u => Real.cos (v - u)) (by fun_prop) _ 2 0 1) rfl
    (fun v v' t x => regular_of_bounded fun i => Real.abs_cos_le_one _) key hF

end

end Props
end Fbs
