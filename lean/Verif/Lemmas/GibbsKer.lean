import Verif.Lemmas.Functional
import Verif.Lemmas.Ker
import Verif.Props.Ergodic

/-! The law of the state returned by one call of the Gibbs kernel is a Markov kernel. -/

open MeasureTheory ProbabilityTheory
open scoped ENNReal

namespace Fbs
namespace Props

open Jax Spec Csmc Gibbs

variable {n N : ℕ} {U V Z : Type} [MeasurableSpace U]

theorem measSt_const {Y : Type} [MeasurableSpace Y] {k : ℕ} {st : St N U} (h : MeasSt k fun _ : Unit => st) :
    MeasSt k fun _ : Y => st :=
  h.comp (f := fun _ : Y => ()) measurable_const

theorem Cf_tsum [NeZero N] {c : (Fin N → ℝ) → Fin N → Fin N → (Fin N → Fin N) → ℝ≥0∞}
    (hc : ∀ i j A, Measurable fun w => c w i j A) {Ψ : ℕ → St N U → Fin N → ℝ≥0∞} : ∀ (ss : List (FKStep U))
    (l : List (U × Fin N)) (k : ℕ) (st : St N U) (b : Fin N), l.length = ss.length → MeasSt k (fun _ : Unit => st) →
    (∀ i, MeasFun (k + ss.length) (Ψ i)) →
    Cf c (fun st b => ∑' i, Ψ i st b) ss l st b = ∑' i, Cf c (Ψ i) ss l st b
  | [], [], _, _, _, _, _, _ => by simp only [Cf]
  | s :: ss, (u', b') :: l, k, st, b, hl, hst, hΨ => by
    have hlen : l.length = ss.length := by simpa using hl
    have hΨ' : ∀ i, MeasFun (k + 1 + ss.length) (Ψ i) := fun i => by
      have := hΨ i
      rwa [List.length_cons, show k + (ss.length + 1) = k + 1 + ss.length by omega] at this
    have hn : ∀ A, MeasSt (k + 1) fun y : Fin N → U => next s st A (Function.update y b' u') := fun A =>
      (measSt_const hst).next s A (measurable_update_pi measurable_id measurable_const)
    simp only [Cf]
    rw [Summable.tsum_finsetSum fun _ _ => ENNReal.summable]
    refine Finset.sum_congr rfl fun A _ => ?_
    rw [ENNReal.tsum_mul_left, ← lintegral_tsum fun i => (measurable_Cf_fixed hc ss (k + 1) (hΨ' i) (hn A) l hlen b').aemeasurable]
    congr 1
    exact lintegral_congr fun y => Cf_tsum hc ss l (k + 1) _ b' hlen ((hn A).comp (f := fun _ : Unit => y) measurable_const) hΨ'
  | [], _ :: _, _, _, _, hl, _, _ => by simp at hl
  | _ :: _, [], _, _, _, hl, _, _ => by simp at hl

theorem Cf_const_mul [NeZero N] {c : (Fin N → ℝ) → Fin N → Fin N → (Fin N → Fin N) → ℝ≥0∞}
    (hc : ∀ i j A, Measurable fun w => c w i j A) (a : ℝ≥0∞) {Ψ : St N U → Fin N → ℝ≥0∞} : ∀ (ss : List (FKStep U))
    (l : List (U × Fin N)) (k : ℕ) (st : St N U) (b : Fin N), l.length = ss.length → MeasSt k (fun _ : Unit => st) →
    MeasFun (k + ss.length) Ψ →
    Cf c (fun st b => a * Ψ st b) ss l st b = a * Cf c Ψ ss l st b
  | [], [], _, _, _, _, _, _ => by simp only [Cf]
  | s :: ss, (u', b') :: l, k, st, b, hl, hst, hΨ => by
    have hlen : l.length = ss.length := by simpa using hl
    have hΨ' : MeasFun (k + 1 + ss.length) Ψ := by
      rwa [List.length_cons, show k + (ss.length + 1) = k + 1 + ss.length by omega] at hΨ
    have hn : ∀ A, MeasSt (k + 1) fun y : Fin N → U => next s st A (Function.update y b' u') := fun A =>
      (measSt_const hst).next s A (measurable_update_pi measurable_id measurable_const)
    simp only [Cf]
    rw [Finset.mul_sum]
    refine Finset.sum_congr rfl fun A _ => ?_
    rw [← mul_left_comm, ← lintegral_const_mul _ (measurable_Cf_fixed hc ss (k + 1) hΨ' (hn A) l hlen b')]
    congr 1
    exact lintegral_congr fun y =>
      Cf_const_mul hc a ss l (k + 1) _ b' hlen ((hn A).comp (f := fun _ : Unit => y) measurable_const) hΨ'
  | [], _ :: _, _, _, _, hl, _, _ => by simp at hl
  | _ :: _, [], _, _, _, hl, _, _ => by simp at hl

omit [MeasurableSpace U] in
theorem lastF_tsum (F : ℕ → U → ℝ≥0∞) (us : List U) (bs : List (Fin N)) :
    lastF (fun x _ => ∑' i, F i x) us bs = ∑' i, lastF (fun x _ => F i x) us bs := by
  unfold lastF
  cases us.getLast? <;> simp

omit [MeasurableSpace U] in
theorem lastF_const_mul (a : ℝ≥0∞) (F : U → ℝ≥0∞) (us : List U) (bs : List (Fin N)) :
    lastF (fun x _ => a * F x) us bs = a * lastF (fun x _ => F x) us bs := by
  unfold lastF
  cases us.getLast? <;> simp

omit [MeasurableSpace U] in
theorem move_tsum (eb : Bool) (F : ℕ → U → ℝ≥0∞) :
    (moveΨ eb (fun x => ∑' i, F i x) : St N U → Fin N → ℝ≥0∞) = fun st b => ∑' i, moveΨ eb (F i) st b := by
  funext st b
  unfold moveΨ
  cases eb
  · simp only [Bool.false_eq_true, if_false, selectΨ, lastF_tsum]
    rw [Summable.tsum_finsetSum fun _ _ => ENNReal.summable]
    simp only [ENNReal.tsum_mul_left]
  · simp only [if_true, forceΨ, keepΨ, lastF_tsum]
    rw [ENNReal.tsum_add, Summable.tsum_finsetSum fun _ _ => ENNReal.summable]
    simp only [ENNReal.tsum_mul_left]

omit [MeasurableSpace U] in
theorem move_const_mul (eb : Bool) (a : ℝ≥0∞) (F : U → ℝ≥0∞) :
    (moveΨ eb (fun x => a * F x) : St N U → Fin N → ℝ≥0∞) = fun st b => a * moveΨ eb F st b := by
  funext st b
  unfold moveΨ
  cases eb
  · simp only [Bool.false_eq_true, if_false, selectΨ, lastF_const_mul, Finset.mul_sum]
    exact Finset.sum_congr rfl fun _ _ => mul_left_comm _ _ _
  · simp only [if_true, forceΨ, keepΨ, lastF_const_mul, mul_add, Finset.mul_sum]
    exact congrArg₂ _ (Finset.sum_congr rfl fun _ _ => mul_left_comm _ _ _) (mul_left_comm _ _ _)

section

variable [MeasurableSpace V]

/-- The law of the two reversed paths drawn by the Gibbs kernel is a Markov kernel in the state. -/
def PathsKer {N : ℕ} {ef : Bool} (m : Gibbs.Funs (rows N ef) U V Z) (margY : Bool) (y0 : V) (ts : Arr1 ℝ) (K : ℕ) : Prop :=
  ∃ κ : Kernel U ((Fin (K + 1) → U) × (Fin (K + 1) → V)), IsMarkovKernel κ ∧ ∀ key x φ, MeasPaths K φ →
    (gibbsPaths m margY key x y0 ts).E (fun q => φ q.1 q.2) = ∫⁻ q, φ (arr q.1) (arr q.2) ∂(κ x)

theorem PathsKer.law {ef : Bool} {m : Gibbs.Funs (rows n ef) U V Z} {margY : Bool} {y0 : V} {ts : Arr1 ℝ} {K : ℕ}
    (h : PathsKer m margY y0 ts K) : PathsLaw m margY y0 ts K := by
  obtain ⟨κ, hκ, h⟩ := h
  refine ⟨fun key x c => ?_, fun key φ hφ => ?_⟩
  · rw [h key x (fun _ _ => c) measurable_const]
    simp
  · simp only [h key _ φ hφ]
    exact Measurable.lintegral_kernel hφ

/-- A functional given by a Markov kernel of paths. -/
theorem ker_of_paths {K : ℕ} {κ : Kernel U ((Fin (K + 1) → U) × (Fin (K + 1) → V))}
    {T : U → (U → ℝ≥0∞) → ℝ≥0∞} {Φ : (U → ℝ≥0∞) → Arr1 U → Arr1 V → ℝ≥0∞}
    (hT : ∀ x F, Measurable F → T x F = ∫⁻ q, Φ F (arr q.1) (arr q.2) ∂(κ x))
    (hΦ : ∀ F, Measurable F → MeasPaths K (Φ F))
    (hts : ∀ F : ℕ → U → ℝ≥0∞, (∀ i, Measurable (F i)) → ∀ q : (Fin (K + 1) → U) × (Fin (K + 1) → V),
      Φ (fun x => ∑' i, F i x) (arr q.1) (arr q.2) = ∑' i, Φ (F i) (arr q.1) (arr q.2))
    (hc : ∀ (a : ℝ≥0∞) F, Measurable F → ∀ q : (Fin (K + 1) → U) × (Fin (K + 1) → V),
      Φ (fun x => a * F x) (arr q.1) (arr q.2) = a * Φ F (arr q.1) (arr q.2))
    (h1 : ∀ x, T x (fun _ => 1) = 1) :
    ∃ η : Kernel U U, IsMarkovKernel η ∧ ∀ x F, Measurable F → T x F = ∫⁻ u, F u ∂(η x) := by
  have hex : ∀ x, ∃ μ : Measure U, ∀ F, Measurable F → T x F = ∫⁻ u, F u ∂μ := by
    intro x
    refine exists_measure_of_functional (fun F hF => ?_) fun a F hF => ?_
    · have hm : Measurable fun x => ∑' i, F i x := by
        simp_rw [ENNReal.tsum_eq_iSup_sum]
        exact .iSup fun s => s.measurable_fun_sum fun i _ => hF i
      rw [hT x _ hm, lintegral_congr (hts F hF),
        lintegral_tsum fun i => (hΦ _ (hF i)).aemeasurable]
      exact tsum_congr fun i => (hT x _ (hF i)).symm
    · rw [hT x _ (hF.const_mul a), hT x _ hF, lintegral_congr (hc a F hF), lintegral_const_mul _ (hΦ F hF)]
  choose μ hμ using hex
  refine ⟨⟨μ, ?_⟩, ⟨fun x => ⟨?_⟩⟩, hμ⟩
  · refine Measure.measurable_of_measurable_coe _ fun s hs => ?_
    have e : ∀ x, μ x s = ∫⁻ q, Φ (s.indicator 1) (arr q.1) (arr q.2) ∂(κ x) := fun x => by
      rw [← hT x _ (measurable_one.indicator hs), hμ x _ (measurable_one.indicator hs), lintegral_indicator_one hs]
    simp only [e]
    exact (hΦ _ (measurable_one.indicator hs)).lintegral_kernel
  · have := hμ x (fun _ => 1) measurable_const
    rw [h1, lintegral_one] at this
    exact this.symm

/-- The Markov kernel of one call, `explicit_final=False`. -/
theorem gibbs_ker {K : ℕ} [NeZero n] {m : Gibbs.Funs (rows n false) U V Z} {S : StateSpace U V} (hS : S.JointMeas) {y0 : V}
    (htr : ∀ xs v t k (F : (Fin (rows n false) → U) → ℝ≥0∞), Measurable F →
      (m.transSampler xs v t k).E F = ∫⁻ x, F x ∂(Measure.pi fun i => S.trans v t (xs i)))
    (hlik : ∀ v xs v' t i, m.lik v xs v' t i = S.logG v v' t (xs i))
    (hst : ∀ key x (F : U → ℝ≥0∞), Measurable F → (m.fwd key x y0).E (fun p => F (m.unpack p).1.1) = F x)
    (hsh : PathShape m K) (margY eb : Bool) {ts : Arr1 ℝ} (hts : ts.2.length = K) (hpk : PathsKer m margY y0 ts K) :
    ∃ η : Kernel U U, IsMarkovKernel η ∧ ∀ key x (bs : Arr1 (Fin (rows n false))), bs.2.length = K → ∀ F, Measurable F →
      (gibbsKernel false m margY eb key x y0 bs ts).E (fun out => F out.1) = ∫⁻ u, F u ∂(η x) := by
  let b0 : Arr1 (Fin (rows n false)) := (0, List.replicate K 0)
  have hb0 : b0.2.length = K := by simp [b0]
  have hpl := hpk.law
  obtain ⟨κ, hκ, hp⟩ := hpk
  let Φ : (U → ℝ≥0∞) → Arr1 U → Arr1 V → ℝ≥0∞ := fun F us vs => Cf killingScheme.cond (moveΨ eb F)
    (S.steps vs.1 vs.2 ts.toList) (us.2.zip b0.2) (startSt (rows n false) (-Real.log n) us.1) b0.1
  have hΦ : ∀ F, Measurable F → MeasPaths K (Φ F) := fun F hF =>
    measPaths_pinned hS (measFun_move (N := rows n false) eb hF) (-Real.log n) hts hb0
  have hlen : ∀ q : (Fin (K + 1) → U) × (Fin (K + 1) → V), ((arr q.1).2.zip b0.2).length
      = (S.steps (arr q.2).1 (arr q.2).2 ts.toList).length := fun q => by
    rw [Csmc.steps_length _ _ _ _ (by simp [Arr1.toList, hts, arr])]
    simp [arr, b0]
  have hT : ∀ key x F, Measurable F → (gibbsKernel false m margY eb key x y0 b0 ts).E (fun out => F out.1)
      = ∫⁻ q, Φ F (arr q.1) (arr q.2) ∂(κ x) := fun key x F hF => by
    rw [E_gibbs_x0 hst margY eb key x b0 ts hF, ← hp key x (Φ F) (hΦ F hF)]
    refine Rand.E_congr_leaves (leaves_gibbsPaths margY key x y0 ts hsh) fun q hq => ?_
    obtain ⟨hu, hv⟩ := hq
    exact E_forwardPass_pinned htr hlik _ ts.1 q.1 b0 q.2 ts (hu.trans hv.symm) (hb0.trans hv.symm) (hts.trans hv.symm)
      (by rw [hv]; exact measFun_move eb hF)
  obtain ⟨η, hη, h⟩ := ker_of_paths (κ := κ)
    (T := fun x F => (gibbsKernel false m margY eb [] x y0 b0 ts).E (fun out => F out.1)) (Φ := Φ) (hT []) hΦ
    (fun F hF q => by
      simp only [Φ, move_tsum]
      exact Cf_tsum killingScheme.meas _ _ 1 _ _ (hlen q) (measSt_start _ measurable_const) fun i => measFun_move eb (hF i))
    (fun a F hF q => by
      simp only [Φ, move_const_mul]
      exact Cf_const_mul killingScheme.meas a _ _ 1 _ _ (hlen q) (measSt_start _ measurable_const) (measFun_move eb hF))
    (fun x => kernel_const htr hlik hst hsh margY eb hts hpl [] x hb0 1)
  refine ⟨η, hη, fun key x bs hb F hF => ?_⟩
  rw [C58_gibbs_index_free htr hlik hst hsh margY eb key x hb0 hb hts hF, hT key x F hF, ← hT [] x F hF]
  exact h x F hF

/-- The Markov kernel of one call, `explicit_final=True`. -/
theorem gibbs_final_ker {K : ℕ} [NeZero n] {m : Gibbs.Funs (rows n true) U V Z} {S : StateSpace U V} (hS : S.JointMeas)
    {ν : Measure U} [IsProbabilityMeasure ν] {y0 : V}
    (htr : ∀ xs v t k (F : (Fin (rows n true) → U) → ℝ≥0∞), Measurable F →
      (m.transSampler xs v t k).E F = ∫⁻ x, F x ∂(Measure.pi fun i => S.trans v t (xs i)))
    (hlik : ∀ v xs v' t i, m.lik v xs v' t i = S.logG v v' t (xs i))
    (hn : ∀ k r (F : (Fin (rows n true) → U) → ℝ≥0∞), Measurable F →
      (m.normal k r).E F = ∫⁻ x, F x ∂(Measure.pi fun _ => ν))
    (hst : ∀ key x (F : U → ℝ≥0∞), Measurable F → (m.fwd key x y0).E (fun p => F (m.unpack p).1.1) = F x)
    (hsh : PathShape m K) (margY eb : Bool) {ts : Arr1 ℝ} (hts : ts.2.length = K) (hpk : PathsKer m margY y0 ts K) :
    ∃ η : Kernel U U, IsMarkovKernel η ∧ ∀ key x (bs : Arr1 (Fin (rows n true))), bs.2.length = K → ∀ F, Measurable F →
      (gibbsKernel true m margY eb key x y0 bs ts).E (fun out => F out.1) = ∫⁻ u, F u ∂(η x) := by
  let b0 : Arr1 (Fin (rows n true)) := (0, List.replicate K 0)
  have hb0 : b0.2.length = K := by simp [b0]
  have hpl := hpk.law
  obtain ⟨κ, hκ, hp⟩ := hpk
  let Φ : (U → ℝ≥0∞) → Arr1 U → Arr1 V → ℝ≥0∞ := fun F us vs => ∫⁻ y, Cf killingScheme.cond (moveΨ eb F)
    (S.steps vs.1 vs.2 ts.toList) (us.2.zip b0.2)
    (initSt (S.logG vs.1 (vs.2.headD vs.1) ts.1) (Function.update y b0.1 us.1)) b0.1 ∂(Measure.pi fun _ => ν)
  have hΦ : ∀ F, Measurable F → MeasPaths K (Φ F) := fun F hF =>
    measPaths_ref hS (measFun_move (N := rows n true) eb hF) ν hts hb0
  have hlen : ∀ q : (Fin (K + 1) → U) × (Fin (K + 1) → V), ((arr q.1).2.zip b0.2).length
      = (S.steps (arr q.2).1 (arr q.2).2 ts.toList).length := fun q => by
    rw [Csmc.steps_length _ _ _ _ (by simp [Arr1.toList, hts, arr])]
    simp [arr, b0]
  have hT : ∀ key x F, Measurable F → (gibbsKernel true m margY eb key x y0 b0 ts).E (fun out => F out.1)
      = ∫⁻ q, Φ F (arr q.1) (arr q.2) ∂(κ x) := fun key x F hF => by
    rw [E_gibbs_x0 hst margY eb key x b0 ts hF, ← hp key x (Φ F) (hΦ F hF)]
    refine Rand.E_congr_leaves (leaves_gibbsPaths margY key x y0 ts hsh) fun q hq => ?_
    obtain ⟨hu, hv⟩ := hq
    exact E_forwardPass_ref htr hlik hn _ ts.1 q.1 b0 q.2 ts (hu.trans hv.symm) (hb0.trans hv.symm) (hts.trans hv.symm)
      (by rw [hv]; exact measFun_move eb hF)
  have hini : ∀ (q : (Fin (K + 1) → U) × (Fin (K + 1) → V)), MeasSt 1 fun y : Fin (rows n true) → U =>
      initSt (S.logG (arr q.2).1 ((arr q.2).2.headD (arr q.2).1) ts.1) (Function.update y b0.1 (arr q.1).1) := fun q =>
    measSt_init (S.measG _ _ _) (measurable_update_pi measurable_id measurable_const)
  have hCm : ∀ (F : U → ℝ≥0∞), Measurable F → ∀ q : (Fin (K + 1) → U) × (Fin (K + 1) → V),
      Measurable fun y : Fin (rows n true) → U => Cf killingScheme.cond (moveΨ eb F)
        (S.steps (arr q.2).1 (arr q.2).2 ts.toList) ((arr q.1).2.zip b0.2)
        (initSt (S.logG (arr q.2).1 ((arr q.2).2.headD (arr q.2).1) ts.1) (Function.update y b0.1 (arr q.1).1)) b0.1 :=
    fun F hF q => measurable_Cf_fixed killingScheme.meas _ 1 (measFun_move eb hF) (hini q) _ (hlen q) _
  obtain ⟨η, hη, h⟩ := ker_of_paths (κ := κ)
    (T := fun x F => (gibbsKernel true m margY eb [] x y0 b0 ts).E (fun out => F out.1)) (Φ := Φ) (hT []) hΦ
    (fun F hF q => by
      simp only [Φ, move_tsum]
      rw [← lintegral_tsum fun i => (hCm _ (hF i) q).aemeasurable]
      refine lintegral_congr fun y => ?_
      exact Cf_tsum killingScheme.meas _ _ 1 _ _ (hlen q) ((hini q).comp (f := fun _ : Unit => y) measurable_const)
        fun i => measFun_move eb (hF i))
    (fun a F hF q => by
      simp only [Φ, move_const_mul]
      rw [← lintegral_const_mul _ (hCm _ hF q)]
      refine lintegral_congr fun y => ?_
      exact Cf_const_mul killingScheme.meas a _ _ 1 _ _ (hlen q) ((hini q).comp (f := fun _ : Unit => y) measurable_const)
        (measFun_move eb hF))
    (fun x => kernel_final_const htr hlik hn hst hsh margY eb hts hpl [] x hb0 1)
  refine ⟨η, hη, fun key x bs hb F hF => ?_⟩
  rw [C58_gibbs_final_index_free htr hlik hn hst hsh margY eb key x hb0 hb hts hF, hT key x F hF, ← hT [] x F hF]
  exact h x F hF

end

end Props
end Fbs
