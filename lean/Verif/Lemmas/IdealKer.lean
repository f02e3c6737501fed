import Verif.Lemmas.IdealOrder
import Verif.Props.IdealGibbs
import Verif.Props.Reversible

/-! The ideal Gibbs call as a Markov kernel, and its lag-one products against those of the conditional sampler. -/

open MeasureTheory ProbabilityTheory
open scoped ENNReal

namespace Fbs
namespace Props

open Jax Spec Csmc Gibbs Chains

variable {n N : ℕ} {U V Z : Type} [MeasurableSpace U]

/-! ### Completing the square -/

theorem square_le {A D X : ℝ≥0∞} (hD0 : D ≠ 0) (hDt : D ≠ ∞) (h : ∀ t : ℝ≥0∞, t ≠ ∞ → t * A + t * A ≤ X + t * (t * D)) :
    A * (A * D⁻¹) ≤ X := by
  by_cases hA : A = ∞
  · have h1 := h 1 ENNReal.one_ne_top
    rw [hA, one_mul, one_mul, one_mul, top_add, top_le_iff, ENNReal.add_eq_top] at h1
    rw [h1.resolve_right hDt]
    exact le_top
  · have ht : A * D⁻¹ ≠ ∞ := ENNReal.mul_ne_top hA (ENNReal.inv_ne_top.2 hD0)
    have h1 := h _ ht
    rw [mul_assoc A D⁻¹ D, ENNReal.inv_mul_cancel hD0 hDt, mul_one,
      ENNReal.add_le_add_iff_right (ENNReal.mul_ne_top ht hA)] at h1
    rwa [mul_comm]

/-! ### The functional of the particle system -/

theorem Rf_eq [NeZero N] {Ψ : St N U → Fin N → ℝ≥0∞} (ss : List (FKStep U)) (hΨ : MeasFun (1 + ss.length) Ψ) (st : St N U)
    (hst : MeasSt (Z := Unit) 1 fun _ => st) (hW : Weights st.W) :
    Rf killingScheme.joint Ψ ss st
      = ∑ b, ENNReal.ofReal (st.W b) * extInt N ss (st.x b) fun l => Cf killingScheme.cond Ψ ss l st b := by
  rw [← sum_Lf_eq_Rf killingScheme ss 1 hΨ st hst hW]
  exact Finset.sum_congr rfl fun b _ => by rw [extInt_Cf killingScheme.meas ss 1 hΨ st hst b]

theorem Rf_add [NeZero N] {Ψ Ψ' : St N U → Fin N → ℝ≥0∞} (ss : List (FKStep U)) (hΨ : MeasFun (1 + ss.length) Ψ)
    (hΨ' : MeasFun (1 + ss.length) Ψ') (st : St N U) (hst : MeasSt (Z := Unit) 1 fun _ => st) (hW : Weights st.W) :
    Rf killingScheme.joint (fun st b => Ψ st b + Ψ' st b) ss st = Rf killingScheme.joint Ψ ss st + Rf killingScheme.joint Ψ' ss st := by
  rw [Rf_eq ss (measFun_add hΨ hΨ') st hst hW, Rf_eq ss hΨ st hst hW, Rf_eq ss hΨ' st hst hW, ← Finset.sum_add_distrib]
  refine Finset.sum_congr rfl fun b _ => ?_
  rw [← mul_add]
  congr 1
  have h := extInt_sum (N := N) Finset.univ (fun _ : Bool => 1) ss (st.x b)
    (fun i l => Cf killingScheme.cond (bif i then Ψ else Ψ') ss l st b) (fun i => by
      cases i
      · exact measParam_Cf killingScheme.meas ss 1 hΨ' hst b
      · exact measParam_Cf killingScheme.meas ss 1 hΨ hst b)
  simp only [Fintype.univ_bool, Finset.mem_singleton, Bool.true_eq_false, not_false_eq_true, Finset.sum_insert,
    Finset.sum_singleton, one_mul, cond_true, cond_false] at h
  rw [← h]
  exact extInt_congr ss _ fun l hl => Cf_add killingScheme.meas ss l 1 st b hl hst hΨ

/-- Integrals of functions of the states alone do not see the indices. -/
theorem extInt_states [NeZero N] (F : U → ℝ≥0∞) (ss : List (FKStep U)) (u : U) :
    extInt N ss u (fun l => F ((l.map Prod.fst).getLastD u)) = pathInt ss u fun l => F (l.getLastD u) := by
  have hN : (N : ℝ≥0∞) ≠ 0 := by exact_mod_cast NeZero.ne N
  induction ss generalizing u with
  | nil => rfl
  | cons s ss ih =>
    simp only [extInt, pathInt, List.map_cons, List.getLastD_cons, ih, Finset.sum_const, Finset.card_univ, Fintype.card_fin,
      nsmul_eq_mul]
    simp only [← mul_assoc, ENNReal.inv_mul_cancel hN (ENNReal.natCast_ne_top N), one_mul]

/-- The unbiased estimate of the weighted mean of a function of the end point. -/
theorem Rf_keep_const [NeZero N] {f : U → ℝ≥0∞} (hf : Measurable f) (t : ℝ≥0∞) (ss : List (FKStep U)) (st : St N U)
    (hst : MeasSt (Z := Unit) 1 fun _ => st) (hW : Weights st.W) (hpos : ∀ i, 0 < st.W i) (hP : ∀ b, st.P b = [(st.x b, b)]) :
    Rf killingScheme.joint (pairΨ (lastF fun x _ => f x) (moveΨ false fun _ => t)) ss st
      = t * ∑ b, ENNReal.ofReal (st.W b) * pathInt ss (st.x b) fun l => f (l.getLastD (st.x b)) := by
  have hmv : MeasFun (N := N) (U := U) (1 + ss.length) (moveΨ false fun _ => t) := measFun_move false measurable_const
  rw [Rf_eq ss (measFun_pair (measOut_lastF (fun _ => hf) _) hmv) st hst hW, Finset.mul_sum]
  refine Finset.sum_congr rfl fun b _ => ?_
  rw [mul_left_comm t, ← pathInt_const_mul t hf, ← extInt_states (N := N) fun x => t * f x]
  congr 1
  refine extInt_congr ss _ fun l hl => ?_
  have hc : Cf killingScheme.cond (moveΨ false fun _ => t) ss l st b = t :=
    Cf_const killingScheme t ss l st b hW (fun a => by rw [hP]; simp) fun st b hW hP => move_const false t st b hW hP
  refine (Cf_keep_mul killingScheme (lastF fun x _ => f x) ss l 1 st b hl hst hmv hW hpos).trans ?_
  rw [hc, hP, mul_comm, List.singleton_append, List.map_cons]
  simp only [lastF, elim_last]

/-- Completing the square inside the functional of the particle system. -/
theorem Rf_square [NeZero N] {f : U → ℝ≥0∞} (hf : Measurable f) (t : ℝ≥0∞) (ss : List (FKStep U)) (st : St N U)
    (hst : MeasSt (Z := Unit) 1 fun _ => st) (hW : Weights st.W) (hpos : ∀ i, 0 < st.W i) (hP : ∀ b, st.P b = [(st.x b, b)]) :
    (t * ∑ b, ENNReal.ofReal (st.W b) * pathInt ss (st.x b) fun l => f (l.getLastD (st.x b)))
        + (t * ∑ b, ENNReal.ofReal (st.W b) * pathInt ss (st.x b) fun l => f (l.getLastD (st.x b)))
      ≤ Rf killingScheme.joint (pairΨ (lastF fun x _ => f x) (moveΨ false f)) ss st
        + t * (t * ∑ b, ENNReal.ofReal (st.W b) * pathInt ss (st.x b) fun _ => 1) := by
  have hmk : ∀ {f g : U → ℝ≥0∞}, Measurable f → Measurable g →
      MeasFun (N := N) (1 + ss.length) (pairΨ (lastF fun x _ => f x) (moveΨ false g)) := fun hf hg =>
    measFun_pair (measOut_lastF (fun _ => hf) _) (measFun_move false hg)
  have h1 := Rf_keep_const hf t ss st hst hW hpos hP
  have h2 := Rf_keep_const (f := fun _ => t) measurable_const t ss st hst hW hpos hP
  have e : ∀ b, pathInt ss (st.x b) (fun _ => t) = t * pathInt ss (st.x b) fun _ => 1 := fun b => by
    have := pathInt_const_mul t (F := fun _ : U => 1) measurable_const ss (st.x b)
    simpa using this
  simp only [e, mul_left_comm _ t, ← Finset.mul_sum] at h2
  rw [← h1, ← h2, ← Rf_add ss (hmk hf measurable_const) (hmk hf measurable_const) st hst hW,
    ← Rf_add ss (hmk hf hf) (hmk measurable_const measurable_const) st hst hW]
  refine le_trans (le_of_eq (Rf_congr _ (fun st hW => ?_) _ _ hW))
    (Rf_mono_on _ (Q := fun _ => True) (fun st hW _ => sum_pair_pos f (fun _ => t) st hW) _ (fun _ _ _ => trivial) _ hW trivial)
  simp only [mul_add, Finset.sum_add_distrib]
  rw [sum_pair_move false (fun _ => t) f st hW (by simp)]

/-! ### The ideal kernel -/

theorem pathInt_last_tsum {F : ℕ → U → ℝ≥0∞} (hF : ∀ i, Measurable (F i)) : ∀ (ss : List (FKStep U)) (u : U),
    pathInt ss u (fun l => ∑' i, F i (l.getLastD u)) = ∑' i, pathInt ss u fun l => F i (l.getLastD u)
  | [], _ => rfl
  | s :: ss, u => by
    simp only [pathInt, List.getLastD_cons]
    rw [lintegral_congr fun u' => pathInt_last_tsum hF ss u',
      lintegral_tsum fun i => (measurable_pathInt_last (hF i) ss).aemeasurable, ENNReal.tsum_mul_left]

theorem pinMean_last (ss : List (FKStep U)) (u : U) (F : U → ℝ≥0∞) :
    pinMean ss u (fun us => us.getLast?.elim 0 F) = pathInt ss u (fun l => F (l.getLastD u)) * (pathInt ss u fun _ => 1)⁻¹ := by
  simp only [pinMean, elim_last]

theorem refMean_last (ν : Measure U) (g0 : U → ℝ) (ss : List (FKStep U)) (F : U → ℝ≥0∞) :
    refMean ν g0 ss (fun us => us.getLast?.elim 0 F)
      = (∫⁻ u, ENNReal.ofReal (Real.exp (g0 u)) * pathInt ss u (fun l => F (l.getLastD u)) ∂ν) *
        (∫⁻ u, ENNReal.ofReal (Real.exp (g0 u)) * pathInt ss u (fun _ => 1) ∂ν)⁻¹ := by
  simp only [refMean, elim_last]

section

variable [MeasurableSpace V] {S : StateSpace U V} {ts : Arr1 ℝ} {K : ℕ}

theorem measPaths_pinMean (hS : S.JointMeas) (hts : ts.2.length = K) {F : U → ℝ≥0∞} (hF : Measurable F) :
    MeasPaths K fun us vs => pinMean (S.steps vs.1 vs.2 ts.toList) us.1 fun us => us.getLast?.elim 0 F := by
  have hm : Measurable fun q : (Fin (K + 1) → U) × (Fin (K + 1) → V) => (q.1 0, q.2) :=
    ((measurable_pi_apply 0).comp measurable_fst).prodMk measurable_snd
  unfold MeasPaths
  simp only [pinMean_last]
  exact ((measurable_lastPath hS hts hF).comp hm).mul
    ((measurable_lastPath hS hts (F := fun _ => 1) measurable_const).comp hm).inv

/-- The ideal call with `explicit_final=False` is a Markov kernel. -/
theorem idealPinned_ker {ef : Bool} {m : Gibbs.Funs (rows n ef) U V Z} (hS : S.JointMeas) {β : ℝ}
    (hβ : ∀ v v' t u, |S.logG v v' t u| ≤ β) {y0 : V} {margY : Bool} (hts : ts.2.length = K) (hpk : PathsKer m margY y0 ts K) :
    ∃ P : Kernel U U, IsMarkovKernel P ∧ ∀ key x F, Measurable F → idealPinned m S margY key x y0 ts F = ∫⁻ u, F u ∂(P x) := by
  obtain ⟨κ, hκ, hp⟩ := hpk
  have hT : ∀ key x F, Measurable F → idealPinned m S margY key x y0 ts F
      = ∫⁻ q, pinMean (S.steps (arr q.2).1 (arr q.2).2 ts.toList) (arr q.1).1 (fun us => us.getLast?.elim 0 F) ∂(κ x) :=
    fun key x F hF => hp key x (fun us vs => pinMean (S.steps vs.1 vs.2 ts.toList) us.1 fun us => us.getLast?.elim 0 F)
      (measPaths_pinMean hS hts hF)
  obtain ⟨P, hP, h⟩ := ker_of_paths (κ := κ) (T := fun x F => idealPinned m S margY [] x y0 ts F)
    (Φ := fun F us vs => pinMean (S.steps vs.1 vs.2 ts.toList) us.1 fun us => us.getLast?.elim 0 F) (hT [])
    (fun F hF => measPaths_pinMean hS hts hF)
    (fun F hF q => by simp only [pinMean_last, pathInt_last_tsum hF, ENNReal.tsum_mul_right])
    (fun a F hF q => by simp only [pinMean_last, pathInt_const_mul a hF, mul_assoc])
    (fun x => by
      rw [hT [] x _ measurable_const]
      have e : ∀ q : (Fin (K + 1) → U) × (Fin (K + 1) → V), pinMean (S.steps (arr q.2).1 (arr q.2).2 ts.toList) (arr q.1).1
          (fun us => us.getLast?.elim 0 fun _ => 1) = 1 := fun q => by
        have h := pathInt_one_ne (steps_abs hβ (arr q.2).2 ts.toList (arr q.2).1) (arr q.1).1
        rw [pinMean_last, ENNReal.mul_inv_cancel h.1 h.2]
      rw [lintegral_congr e]
      simp)
  exact ⟨P, hP, fun key x F hF => by rw [hT key x F hF, ← hT [] x F hF]; exact h x F hF⟩

/-- Lag-one products of the ideal chain: both states are drawn from the same conditional law. -/
theorem idealPinned_lag {m : Gibbs.Funs (rows n false) U V Z} (hS : S.JointMeas) {π0 : Measure U} {y0 : V}
    (hm : BackwardExact m S π0 y0 ts K) (hpk : PathsKer m false y0 ts K) (hts : ts.2.length = K)
    {Λ : Measure (U × (Fin (K + 1) → V))} (hΛ : ∀ key φ, MeasPaths K φ →
      ∫⁻ x, (m.fwd key x y0).E (fun p => φ (m.unpack p).1.reverse (m.unpack p).2.reverse) ∂π0
        = ∫⁻ q, pathInt (S.steps (arr q.2).1 (arr q.2).2 ts.toList) q.1 (fun l => φ (q.1, l) (arr q.2)) ∂Λ) (key : Key)
    {f g : U → ℝ≥0∞} (hf : Measurable f) (hg : Measurable g) :
    ∫⁻ x, f x * idealPinned m S false key x y0 ts g ∂π0
      = ∫⁻ q, pathInt (S.steps (arr q.2).1 (arr q.2).2 ts.toList) q.1 (fun l => f (l.getLastD q.1)) *
          (pathInt (S.steps (arr q.2).1 (arr q.2).2 ts.toList) q.1 (fun l => g (l.getLastD q.1)) *
            (pathInt (S.steps (arr q.2).1 (arr q.2).2 ts.toList) q.1 fun _ => 1)⁻¹) ∂Λ := by
  have hφ := measPaths_pinMean hS hts hg
  have hmp : MeasPaths K fun us vs => lastF (N := 1) (fun x _ => f x) us.toList [] *
      pinMean (S.steps vs.1 vs.2 ts.toList) us.1 fun us => us.getLast?.elim 0 g := by
    unfold MeasPaths at hφ ⊢
    simp only [lastF_arr]
    exact (hf.comp ((measurable_pi_apply (Fin.last K)).comp measurable_fst)).mul hφ
  have e : ∀ x, f x * idealPinned m S false key x y0 ts g = (m.fwd (split key 3 0) x y0).E fun p =>
      lastF (N := 1) (fun x _ => f x) (m.unpack p).1.reverse.toList [] *
        pinMean (S.steps (m.unpack p).2.reverse.1 (m.unpack p).2.reverse.2 ts.toList) (m.unpack p).1.reverse.1
          fun us => us.getLast?.elim 0 g := fun x => by
    unfold idealPinned
    rw [mul_paths (N := 1) hm.starts hpk hf hφ key x []]
    simp only [gibbsPaths, Rand.E_bind, Rand.pure_eq, Rand.E_ret, Bool.false_eq_true, if_false]
  rw [lintegral_congr e, hΛ (split key 3 0) _ hmp]
  refine lintegral_congr fun q => ?_
  simp only [lastF, Arr1.toList, elim_last, pinMean_last]
  simp only [mul_comm _ (_ * _)]
  rw [pathInt_const_mul _ hf]

/-- One call of the kernel is more correlated with the old state than an exact draw, `explicit_final=False`. -/
theorem idealPinned_le {m : Gibbs.Funs (rows n false) U V Z} [NeZero n] (hS : S.JointMeas) {π0 : Measure U} {y0 : V}
    (hm : BackwardExact m S π0 y0 ts K) (hsh : PathShape m K) (hpk : PathsKer m false y0 ts K) (hts : ts.2.length = K)
    {β : ℝ} (hβ : ∀ v v' t u, |S.logG v v' t u| ≤ β) (key : Key) {bs : Arr1 (Fin (rows n false))} (hb : bs.2.length = K)
    {f : U → ℝ≥0∞} (hf : Measurable f) :
    ∫⁻ x, f x * idealPinned m S false key x y0 ts f ∂π0
      ≤ ∫⁻ x, f x * (gibbsKernel false m false false key x y0 bs ts).E (fun out => f out.1) ∂π0 := by
  obtain ⟨Λ, hΛ⟩ := hm.factor
  have h0 : Measurable fun _ : U => (0 : ℝ≥0∞) := measurable_const
  have h1 := gibbs_pair_of hS hm hsh hpk hts false hΛ key bs hb hf hf h0 h0
  simp only [zero_mul, lintegral_zero, add_zero] at h1
  rw [idealPinned_lag hS hm hpk hts hΛ key hf hf, h1]
  refine lintegral_mono fun q => ?_
  set ss := S.steps (arr q.2).1 (arr q.2).2 ts.toList
  have hne := pathInt_one_ne (steps_abs hβ (arr q.2).2 ts.toList (arr q.2).1) q.1
  have hW : Weights (startSt (rows n false) (-Real.log n) q.1).W := normalise_weights _
  have hsum : ∑ b, ENNReal.ofReal ((startSt (rows n false) (-Real.log n) q.1).W b) = 1 := by
    rw [← ENNReal.ofReal_sum_of_nonneg fun b _ => hW.nonneg b, hW.sum_one, ENNReal.ofReal_one]
  refine le_trans (square_le hne.1 hne.2 fun t _ => ?_)
    (Rf_mono_on _ (Q := fun _ => True) (Ψ := pairΨ (lastF fun x _ => f x) (moveΨ false f))
      (fun st _ _ => Finset.sum_le_sum fun b _ => mul_le_mul' le_rfl le_self_add) ss (fun _ _ _ => trivial) _
      (normalise_weights _) trivial)
  have h := Rf_square hf t ss (startSt (rows n false) (-Real.log n) q.1) (measSt_start _ measurable_const)
    (normalise_weights _) (fun i => normalise_pos _ i) fun b => rfl
  have hx : ∀ b, (startSt (rows n false) (-Real.log n) q.1).x b = q.1 := fun _ => rfl
  simp only [hx, ← Finset.sum_mul, hsum, one_mul] at h
  exact h

/-! ### `explicit_final=True` -/

theorem measurable_obsWeight (hS : S.JointMeas) {Y : Type} [MeasurableSpace Y] {v : Y → Fin (K + 1) → V} (hv : Measurable v)
    {x : Y → U} (hx : Measurable x) :
    Measurable fun y => S.logG (arr (v y)).1 ((arr (v y)).2.headD (arr (v y)).1) ts.1 (x y) := by
  have h1 : Measurable fun y => (arr (v y)).1 := (measurable_pi_apply 0).comp hv
  have h2 : Measurable fun y => (arr (v y)).2.headD (arr (v y)).1 := by
    cases K with
    | zero => simpa [arr] using h1
    | succ K =>
      have h3 : Measurable fun y => v y 1 := (measurable_pi_apply 1).comp hv
      simpa [arr] using h3
  exact (hS.2 ts.1).comp (h1.prodMk (h2.prodMk hx))

/-- The unnormalised law of the end point given the observation path. -/
noncomputable def refEnd (S : StateSpace U V) (ν : Measure U) (ts : Arr1 ℝ) (vs : Arr1 V) (F : U → ℝ≥0∞) : ℝ≥0∞ :=
  ∫⁻ u, ENNReal.ofReal (Real.exp (S.logG vs.1 (vs.2.headD vs.1) ts.1 u)) *
    pathInt (S.steps vs.1 vs.2 ts.toList) u (fun l => F (l.getLastD u)) ∂ν

theorem measurable_refEnd (hS : S.JointMeas) {ν : Measure U} [IsProbabilityMeasure ν] (hts : ts.2.length = K) {F : U → ℝ≥0∞}
    (hF : Measurable F) : Measurable fun v : Fin (K + 1) → V => refEnd S ν ts (arr v) F := by
  unfold refEnd
  refine Measurable.lintegral_prod_right' (f := fun z : (Fin (K + 1) → V) × U =>
    ENNReal.ofReal (Real.exp (S.logG (arr z.1).1 ((arr z.1).2.headD (arr z.1).1) ts.1 z.2)) *
      pathInt (S.steps (arr z.1).1 (arr z.1).2 ts.toList) z.2 (fun l => F (l.getLastD z.2))) ?_
  exact (ENNReal.measurable_ofReal.comp (Real.measurable_exp.comp (measurable_obsWeight hS measurable_fst measurable_snd))).mul
    ((measurable_lastPath hS hts hF).comp (measurable_snd.prodMk measurable_fst))

omit [MeasurableSpace V] in
theorem measurable_obs_pathInt {F : U → ℝ≥0∞} (hF : Measurable F) (vs : Arr1 V) (ts : Arr1 ℝ) :
    Measurable fun u => ENNReal.ofReal (Real.exp (S.logG vs.1 (vs.2.headD vs.1) ts.1 u)) *
      pathInt (S.steps vs.1 vs.2 ts.toList) u (fun l => F (l.getLastD u)) :=
  (ENNReal.measurable_ofReal.comp (Real.measurable_exp.comp (S.measG _ _ _))).mul (measurable_pathInt_last hF _)

omit [MeasurableSpace V] in
theorem refEnd_tsum {ν : Measure U} {F : ℕ → U → ℝ≥0∞} (hF : ∀ i, Measurable (F i)) (vs : Arr1 V) :
    refEnd S ν ts vs (fun x => ∑' i, F i x) = ∑' i, refEnd S ν ts vs (F i) := by
  unfold refEnd
  rw [← lintegral_tsum fun i => (measurable_obs_pathInt (hF i) vs ts).aemeasurable]
  exact lintegral_congr fun u => by rw [pathInt_last_tsum hF, ENNReal.tsum_mul_left]

omit [MeasurableSpace V] in
theorem refEnd_const_mul {ν : Measure U} (a : ℝ≥0∞) {F : U → ℝ≥0∞} (hF : Measurable F) (vs : Arr1 V) :
    refEnd S ν ts vs (fun x => a * F x) = a * refEnd S ν ts vs F := by
  unfold refEnd
  rw [← lintegral_const_mul _ (measurable_obs_pathInt hF vs ts)]
  exact lintegral_congr fun u => by rw [pathInt_const_mul a hF, mul_left_comm]

omit [MeasurableSpace V] in
theorem refEnd_one_ne {ν : Measure U} [IsProbabilityMeasure ν] {β : ℝ} (hβ : ∀ v v' t u, |S.logG v v' t u| ≤ β) (vs : Arr1 V) :
    refEnd S ν ts vs (fun _ => 1) ≠ 0 ∧ refEnd S ν ts vs (fun _ => 1) ≠ ∞ := by
  have hb := steps_abs hβ vs.2 ts.toList vs.1
  constructor
  · refine ne_of_gt (lt_of_lt_of_le ?_ (lintegral_mono fun u => mul_le_mul' (ENNReal.ofReal_le_ofReal
      (Real.exp_le_exp.2 (neg_le_of_abs_le (hβ vs.1 (vs.2.headD vs.1) ts.1 u)))) (le_pathInt_one _ hb u)))
    simp only [lintegral_const, measure_univ, mul_one]
    exact ENNReal.mul_pos (by simpa using Real.exp_pos _) (pow_ne_zero _ (by simpa using Real.exp_pos _))
  · refine ne_top_of_le_ne_top ?_ (lintegral_mono fun u => mul_le_mul' (ENNReal.ofReal_le_ofReal
      (Real.exp_le_exp.2 (le_of_abs_le (hβ vs.1 (vs.2.headD vs.1) ts.1 u)))) (pathInt_one_le _ hb u))
    simp only [lintegral_const, measure_univ, mul_one]
    exact ENNReal.mul_ne_top ENNReal.ofReal_ne_top (ENNReal.pow_ne_top ENNReal.ofReal_ne_top)

omit [MeasurableSpace V] in
theorem refMean_refEnd (ν : Measure U) (vs : Arr1 V) (F : U → ℝ≥0∞) :
    refMean ν (S.logG vs.1 (vs.2.headD vs.1) ts.1) (S.steps vs.1 vs.2 ts.toList) (fun us => us.getLast?.elim 0 F)
      = refEnd S ν ts vs F * (refEnd S ν ts vs fun _ => 1)⁻¹ := refMean_last _ _ _ _

theorem measPaths_refMean (hS : S.JointMeas) {ν : Measure U} [IsProbabilityMeasure ν] (hts : ts.2.length = K) {F : U → ℝ≥0∞}
    (hF : Measurable F) : MeasPaths (U := U) K fun _ vs =>
      refMean ν (S.logG vs.1 (vs.2.headD vs.1) ts.1) (S.steps vs.1 vs.2 ts.toList) fun us => us.getLast?.elim 0 F := by
  unfold MeasPaths
  simp only [refMean_refEnd]
  exact ((measurable_refEnd hS hts hF).comp measurable_snd).mul
    ((measurable_refEnd hS hts (F := fun _ => 1) measurable_const).comp measurable_snd).inv

/-- The ideal call with `explicit_final=True` is a Markov kernel. -/
theorem idealRef_ker {ef : Bool} {m : Gibbs.Funs (rows n ef) U V Z} (hS : S.JointMeas) {β : ℝ}
    (hβ : ∀ v v' t u, |S.logG v v' t u| ≤ β) {ν : Measure U} [IsProbabilityMeasure ν] {y0 : V} {margY : Bool}
    (hts : ts.2.length = K) (hpk : PathsKer m margY y0 ts K) :
    ∃ P : Kernel U U, IsMarkovKernel P ∧ ∀ key x F, Measurable F → idealRef m S ν margY key x y0 ts F = ∫⁻ u, F u ∂(P x) := by
  obtain ⟨κ, hκ, hp⟩ := hpk
  let Φ : (U → ℝ≥0∞) → Arr1 U → Arr1 V → ℝ≥0∞ := fun F _ vs =>
    refMean ν (S.logG vs.1 (vs.2.headD vs.1) ts.1) (S.steps vs.1 vs.2 ts.toList) fun us => us.getLast?.elim 0 F
  have hT : ∀ key x F, Measurable F → idealRef m S ν margY key x y0 ts F = ∫⁻ q, Φ F (arr q.1) (arr q.2) ∂(κ x) :=
    fun key x F hF => hp key x (Φ F) (measPaths_refMean hS hts hF)
  obtain ⟨P, hP, h⟩ := ker_of_paths (κ := κ) (T := fun x F => idealRef m S ν margY [] x y0 ts F) (Φ := Φ) (hT [])
    (fun F hF => measPaths_refMean hS hts hF)
    (fun F hF q => by simp only [Φ, refMean_refEnd, refEnd_tsum hF, ENNReal.tsum_mul_right])
    (fun a F hF q => by simp only [Φ, refMean_refEnd, refEnd_const_mul a hF, mul_assoc])
    (fun x => by
      rw [hT [] x _ measurable_const]
      have e : ∀ q : (Fin (K + 1) → U) × (Fin (K + 1) → V), Φ (fun _ => 1) (arr q.1) (arr q.2) = 1 := fun q => by
        have h := refEnd_one_ne (ν := ν) (ts := ts) hβ (arr q.2)
        simp only [Φ]
        rw [refMean_refEnd, ENNReal.mul_inv_cancel h.1 h.2]
      rw [lintegral_congr e]
      simp)
  exact ⟨P, hP, fun key x F hF => by rw [hT key x F hF, ← hT [] x F hF]; exact h x F hF⟩

/-- Lag-one products of the ideal chain, `explicit_final=True`. -/
theorem idealRef_lag {m : Gibbs.Funs (rows n true) U V Z} (hS : S.JointMeas) {ν : Measure U} [IsProbabilityMeasure ν]
    {π0 : Measure U} {y0 : V}
    (hm : ReferenceExact m S ν π0 y0 ts K fun v u => S.logG (arr v).1 ((arr v).2.headD (arr v).1) ts.1 u)
    (hpk : PathsKer m false y0 ts K) (hts : ts.2.length = K)
    {Λ : Measure (Fin (K + 1) → V)} (hΛ : ∀ key φ, MeasPaths K φ →
      ∫⁻ x, (m.fwd key x y0).E (fun p => φ (m.unpack p).1.reverse (m.unpack p).2.reverse) ∂π0
        = ∫⁻ v, ∫⁻ u, ENNReal.ofReal (Real.exp (S.logG (arr v).1 ((arr v).2.headD (arr v).1) ts.1 u)) *
          pathInt (S.steps (arr v).1 (arr v).2 ts.toList) u (fun l => φ (u, l) (arr v)) ∂ν ∂Λ) (key : Key)
    {f g : U → ℝ≥0∞} (hf : Measurable f) (hg : Measurable g) :
    ∫⁻ x, f x * idealRef m S ν false key x y0 ts g ∂π0
      = ∫⁻ v, refEnd S ν ts (arr v) f * (refEnd S ν ts (arr v) g * (refEnd S ν ts (arr v) fun _ => 1)⁻¹) ∂Λ := by
  have hφ := measPaths_refMean (ts := ts) hS (ν := ν) hts hg
  have hmp : MeasPaths K fun us vs => lastF (N := 1) (fun x _ => f x) us.toList [] *
      refMean ν (S.logG vs.1 (vs.2.headD vs.1) ts.1) (S.steps vs.1 vs.2 ts.toList) fun us => us.getLast?.elim 0 g := by
    unfold MeasPaths at hφ ⊢
    simp only [lastF_arr]
    exact (hf.comp ((measurable_pi_apply (Fin.last K)).comp measurable_fst)).mul hφ
  have e : ∀ x, f x * idealRef m S ν false key x y0 ts g = (m.fwd (split key 3 0) x y0).E fun p =>
      lastF (N := 1) (fun x _ => f x) (m.unpack p).1.reverse.toList [] *
        refMean ν (S.logG (m.unpack p).2.reverse.1 ((m.unpack p).2.reverse.2.headD (m.unpack p).2.reverse.1) ts.1)
          (S.steps (m.unpack p).2.reverse.1 (m.unpack p).2.reverse.2 ts.toList) fun us => us.getLast?.elim 0 g := fun x => by
    unfold idealRef
    rw [mul_paths (N := 1) hm.starts hpk hf hφ key x []]
    simp only [gibbsPaths, Rand.E_bind, Rand.pure_eq, Rand.E_ret, Bool.false_eq_true, if_false]
  rw [lintegral_congr e, hΛ (split key 3 0) _ hmp]
  refine lintegral_congr fun v => ?_
  simp only [refMean_refEnd]
  generalize refEnd S ν ts (arr v) g * (refEnd S ν ts (arr v) fun _ => 1)⁻¹ = c
  rw [mul_comm, ← refEnd_const_mul c hf]
  unfold refEnd
  refine lintegral_congr fun u => ?_
  congr 1
  refine pathInt_congr _ _ fun l _ => ?_
  rw [mul_comm]
  congr 1
  exact elim_last f u l

omit [MeasurableSpace V] in
/-- The weights of the initial particles, times their normalising constant. -/
theorem init_sum [NeZero N] (F : U → ℝ≥0∞) (vs : Arr1 V) (y : Fin N → U) :
    (N : ℝ≥0∞)⁻¹ * ENNReal.ofReal (∑ i, Real.exp (S.logG vs.1 (vs.2.headD vs.1) ts.1 (y i))) *
        ∑ b, ENNReal.ofReal ((initSt (S.logG vs.1 (vs.2.headD vs.1) ts.1) y).W b) *
          pathInt (S.steps vs.1 vs.2 ts.toList) (y b) (fun l => F (l.getLastD (y b)))
      = (N : ℝ≥0∞)⁻¹ * ∑ b, ENNReal.ofReal (Real.exp (S.logG vs.1 (vs.2.headD vs.1) ts.1 (y b))) *
          pathInt (S.steps vs.1 vs.2 ts.toList) (y b) (fun l => F (l.getLastD (y b))) := by
  rw [mul_assoc, Finset.mul_sum]
  congr 1
  refine Finset.sum_congr rfl fun b _ => ?_
  rw [← mul_assoc, ← ofReal_normalise_mul (fun i => S.logG vs.1 (vs.2.headD vs.1) ts.1 (y i)) b]
  rfl

omit [MeasurableSpace V] in
theorem measurable_init [NeZero N] {F : U → ℝ≥0∞} (hF : Measurable F) (vs : Arr1 V) :
    Measurable fun y : Fin N → U => (N : ℝ≥0∞)⁻¹ * ENNReal.ofReal (∑ i, Real.exp (S.logG vs.1 (vs.2.headD vs.1) ts.1 (y i))) *
        ∑ b, ENNReal.ofReal ((initSt (S.logG vs.1 (vs.2.headD vs.1) ts.1) y).W b) *
          pathInt (S.steps vs.1 vs.2 ts.toList) (y b) (fun l => F (l.getLastD (y b))) := by
  simp only [init_sum]
  exact (Finset.measurable_fun_sum _ fun b _ => (measurable_obs_pathInt (S := S) hF vs ts).comp (measurable_pi_apply b)).const_mul _

omit [MeasurableSpace V] in
/-- The average over the initial particles of the weighted mean is the weighted mean. -/
theorem lintegral_init [NeZero N] (ν : Measure U) [IsProbabilityMeasure ν] {F : U → ℝ≥0∞} (hF : Measurable F) (vs : Arr1 V) :
    ∫⁻ y, (N : ℝ≥0∞)⁻¹ * ENNReal.ofReal (∑ i, Real.exp (S.logG vs.1 (vs.2.headD vs.1) ts.1 (y i))) *
        ∑ b, ENNReal.ofReal ((initSt (S.logG vs.1 (vs.2.headD vs.1) ts.1) y).W b) *
          pathInt (S.steps vs.1 vs.2 ts.toList) (y b) (fun l => F (l.getLastD (y b))) ∂(Measure.pi fun _ : Fin N => ν)
      = refEnd S ν ts vs F := by
  have hN : (N : ℝ≥0∞) ≠ 0 := by exact_mod_cast NeZero.ne N
  have hm := measurable_obs_pathInt (S := S) hF vs ts
  have hmb : ∀ b : Fin N, Measurable fun y : Fin N → U => ENNReal.ofReal (Real.exp (S.logG vs.1 (vs.2.headD vs.1) ts.1 (y b))) *
      pathInt (S.steps vs.1 vs.2 ts.toList) (y b) (fun l => F (l.getLastD (y b))) := fun b => hm.comp (measurable_pi_apply b)
  rw [lintegral_congr (init_sum F vs), lintegral_const_mul _ (Finset.measurable_fun_sum _ fun b _ => hmb b),
    lintegral_finsetSum _ fun b _ => hmb b]
  have e2 : ∀ b : Fin N, ∫⁻ y, ENNReal.ofReal (Real.exp (S.logG vs.1 (vs.2.headD vs.1) ts.1 (y b))) *
      pathInt (S.steps vs.1 vs.2 ts.toList) (y b) (fun l => F (l.getLastD (y b))) ∂(Measure.pi fun _ : Fin N => ν)
        = refEnd S ν ts vs F := fun b => (measurePreserving_eval (fun _ : Fin N => ν) b).lintegral_comp hm
  simp only [e2, Finset.sum_const, Finset.card_univ, Fintype.card_fin, nsmul_eq_mul]
  rw [← mul_assoc, ENNReal.inv_mul_cancel hN (ENNReal.natCast_ne_top N), one_mul]

/-- One call of the kernel is more correlated with the old state than an exact draw, `explicit_final=True`. -/
theorem idealRef_le {m : Gibbs.Funs (rows n true) U V Z} [NeZero n] (hS : S.JointMeas) {ν : Measure U} [IsProbabilityMeasure ν]
    {π0 : Measure U} {y0 : V}
    (hm : ReferenceExact m S ν π0 y0 ts K fun v u => S.logG (arr v).1 ((arr v).2.headD (arr v).1) ts.1 u)
    (hsh : PathShape m K) (hpk : PathsKer m false y0 ts K) (hts : ts.2.length = K)
    {β : ℝ} (hβ : ∀ v v' t u, |S.logG v v' t u| ≤ β) (key : Key) {bs : Arr1 (Fin (rows n true))} (hb : bs.2.length = K)
    {f : U → ℝ≥0∞} (hf : Measurable f) :
    ∫⁻ x, f x * idealRef m S ν false key x y0 ts f ∂π0
      ≤ ∫⁻ x, f x * (gibbsKernel true m false false key x y0 bs ts).E (fun out => f out.1) ∂π0 := by
  obtain ⟨Λ, hΛ⟩ := hm.factor
  have h0 : Measurable fun _ : U => (0 : ℝ≥0∞) := measurable_const
  have h1 := gibbs_final_pair_of hS hm hsh hpk hts false hΛ key bs hb hf hf h0 h0
  simp only [zero_mul, lintegral_zero, add_zero] at h1
  rw [idealRef_lag hS hm hpk hts hΛ key hf hf, h1]
  refine lintegral_mono fun v => ?_
  have hne := refEnd_one_ne (ν := ν) (ts := ts) hβ (arr v)
  refine le_trans (square_le hne.1 hne.2 fun t ht => ?_) (lintegral_mono fun y => mul_le_mul' le_rfl
    (Rf_mono_on _ (Q := fun _ => True) (Ψ := pairΨ (lastF fun x _ => f x) (moveΨ false f))
      (fun st _ _ => Finset.sum_le_sum fun b _ => mul_le_mul' le_rfl le_self_add) _ (fun _ _ _ => trivial) _
      (normalise_weights _) trivial))
  have hS1 : ∀ {F : U → ℝ≥0∞}, Measurable F → Measurable fun y : Fin (rows n true) → U => ((rows n true : ℕ) : ℝ≥0∞)⁻¹ *
      ENNReal.ofReal (∑ i, Real.exp (S.logG (arr v).1 ((arr v).2.headD (arr v).1) ts.1 (y i))) *
        ∑ b, ENNReal.ofReal ((initSt (S.logG (arr v).1 ((arr v).2.headD (arr v).1) ts.1) y).W b) *
          pathInt (S.steps (arr v).1 (arr v).2 ts.toList) (y b) (fun l => F (l.getLastD (y b))) := fun hF =>
    measurable_init hF (arr v)
  rw [← lintegral_init (N := rows n true) ν hf (arr v), ← lintegral_init (N := rows n true) (F := fun _ => 1) ν measurable_const (arr v),
    ← lintegral_const_mul _ (hS1 hf), ← lintegral_const_mul _ (hS1 (F := fun _ => 1) measurable_const),
    ← lintegral_const_mul _ ((hS1 (F := fun _ => 1) measurable_const).const_mul t), ← lintegral_add_left ((hS1 hf).const_mul t),
    ← lintegral_add_right _ (((hS1 (F := fun _ => 1) measurable_const).const_mul t).const_mul t)]
  refine lintegral_mono fun y => ?_
  have hini : MeasSt 1 fun _ : Unit => initSt (S.logG (arr v).1 ((arr v).2.headD (arr v).1) ts.1) y :=
    measSt_init (S.measG _ _ _) measurable_const
  have h := Rf_square hf t (S.steps (arr v).1 (arr v).2 ts.toList)
    (initSt (S.logG (arr v).1 ((arr v).2.headD (arr v).1) ts.1) y) hini (normalise_weights _) (fun i => normalise_pos _ i)
    fun b => rfl
  have h' := mul_le_mul' (le_refl (((rows n true : ℕ) : ℝ≥0∞)⁻¹ *
      ENNReal.ofReal (∑ i, Real.exp (S.logG (arr v).1 ((arr v).2.headD (arr v).1) ts.1 (y i))))) h
  rw [mul_add, mul_add] at h'
  simp only [mul_left_comm _ t] at h' ⊢
  exact h'

end

end Props
end Fbs
