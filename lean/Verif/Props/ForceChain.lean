import Verif.Props.ForcePeskun
import Verif.Lemmas.IdealKer

/-!
# C108: the chain of `gibbs_kernel` with the forced move against the one without
-/

open MeasureTheory ProbabilityTheory
open scoped ENNReal

namespace Fbs
namespace Props

open Jax Spec Csmc Gibbs Chains

/-- Twice the product and the squared jumps add up to twice the second moment, for a step of the index which leaves the weights
invariant. -/
theorem index_dirichlet {M : ℕ} {w : Fin M → ℝ≥0∞} {q : Fin M → Fin M → ℝ≥0∞} (h1 : ∀ k, ∑ i, q k i = 1)
    (F : Fin M → ℝ≥0∞) (hinv : ∑ k, w k * ∑ i, q k i * (F i * F i) = ∑ k, w k * (F k * F k)) :
    ∑ k, w k * (F k * ∑ i, q k i * F i) + ∑ k, w k * (F k * ∑ i, q k i * F i) + ∑ k, w k * ∑ i, q k i * sqDiff (F k) (F i)
      = ∑ k, w k * (F k * F k) + ∑ k, w k * (F k * F k) := by
  have e : ∀ k, w k * (F k * ∑ i, q k i * F i) + w k * (F k * ∑ i, q k i * F i) + w k * ∑ i, q k i * sqDiff (F k) (F i)
      = w k * (F k * F k) + w k * ∑ i, q k i * (F i * F i) := fun k => by
    have e2 : ∀ i, F k * (q k i * F i) + F k * (q k i * F i) + q k i * sqDiff (F k) (F i)
        = q k i * (F k * F k) + q k i * (F i * F i) := fun i => by
      rw [← mul_add (q k i), ← sqDiff_add]
      ring
    have e3 : F k * ∑ i, q k i * F i + F k * ∑ i, q k i * F i + ∑ i, q k i * sqDiff (F k) (F i)
        = F k * F k + ∑ i, q k i * (F i * F i) := by
      rw [Finset.mul_sum, ← Finset.sum_add_distrib, ← Finset.sum_add_distrib, Finset.sum_congr rfl fun i _ => e2 i,
        Finset.sum_add_distrib, ← Finset.sum_mul, h1 k, one_mul]
    rw [← mul_add (w k), ← mul_add (w k), e3, mul_add]
  rw [← Finset.sum_add_distrib, ← Finset.sum_add_distrib, Finset.sum_congr rfl fun k _ => e k, Finset.sum_add_distrib, hinv]

/-- **C108, the index.**  Started in the weights, the forced move makes the old and the new index no more correlated than independent
ones are, for every non-negative function of the index. -/
theorem C108_index {M : ℕ} [NeZero M] {w : Fin M → ℝ} (hw : Weights w) (hr : Regular w) (key : Key) (F : Fin M → ℝ≥0∞) :
    ∑ k, ENNReal.ofReal (w k) * (F k * (forceMove key w k).E (fun r => F r.1))
      ≤ (∑ k, ENNReal.ofReal (w k) * F k) * ∑ k, ENNReal.ofReal (w k) * F k := by
  set W : Fin M → ℝ≥0∞ := fun k => ENNReal.ofReal (w k) with hW
  have hW1 : ∑ k, W k = 1 := by
    rw [hW, ← ENNReal.ofReal_sum_of_nonneg fun i _ => hw.nonneg i, hw.sum_one, ENNReal.ofReal_one]
  let q : Fin M → Fin M → ℝ≥0∞ := fun k i => ENNReal.ofReal (moveP w k i) + if i = k then ENNReal.ofReal (1 - ∑ i, moveP w k i) else 0
  have hq : ∀ k (G : Fin M → ℝ≥0∞), (forceMove key w k).E (fun r => G r.1) = ∑ i, q k i * G i := fun k G => by
    rw [E_forceMove hw]
    simp only [q, add_mul, Finset.sum_add_distrib, ite_mul, zero_mul, Finset.sum_ite_eq', Finset.mem_univ, if_true]
  have hq1 : ∀ k, ∑ i, q k i = 1 := fun k => by
    have h := hq k fun _ => 1
    simp only [mul_one] at h
    rw [← h, E_forceMove hw key k fun _ => 1]
    simp only [mul_one]
    rw [← ENNReal.ofReal_sum_of_nonneg fun i _ => moveP_nonneg hw k i,
      ← ENNReal.ofReal_add (Finset.sum_nonneg fun i _ => moveP_nonneg hw k i) (by linarith [sum_moveP_le hw k])]
    simp
  have hinv : ∑ k, W k * ∑ i, q k i * (F i * F i) = ∑ k, W k * (F k * F k) := by
    have h := C12_force_move_reversible hw hr key fun _ i => F i * F i
    simp only [hq _ fun i => F i * F i] at h
    rw [h]
    refine Finset.sum_congr rfl fun k _ => ?_
    rw [hq k fun _ => F k * F k, ← Finset.sum_mul, hq1 k, one_mul]
  have hd : ∑ k, W k * ∑ i, W i * sqDiff (F k) (F i) ≤ ∑ k, W k * ∑ i, q k i * sqDiff (F k) (F i) := by
    refine Finset.sum_le_sum fun k _ => mul_le_mul_right ?_ _
    have h := C96_jump hw hr key key k (fun i => sqDiff (F k) (F i)) (sqDiff_self _)
    rw [hq k fun i => sqDiff (F k) (F i), E_choice hw.nonneg (Weights.total_pos hw)] at h
    simpa only [cat_normalised hw] using h
  have hc : ∑ k, W k * ∑ i, W i * (F i * F i) = ∑ k, W k * (F k * F k) := by
    rw [← Finset.sum_mul, hW1, one_mul]
  have d1 := index_dirichlet hq1 F hinv
  have d2 := index_dirichlet (w := W) (q := fun _ i => W i) (fun _ => hW1) F hc
  have hgoal : ∑ k, W k * (F k * ∑ i, W i * F i) = (∑ k, W k * F k) * ∑ k, W k * F k := by
    rw [Finset.sum_mul]
    exact Finset.sum_congr rfl fun k _ => (mul_assoc _ _ _).symm
  simp only [hq _ F]
  rw [← hgoal]
  by_cases hfin : ∑ k, W k * (F k * F k) = ∞
  · obtain ⟨k, -, hk⟩ := ENNReal.sum_eq_top.1 hfin
    have hk0 : W k ≠ 0 := fun h => by simp [h] at hk
    have hFk : F k = ∞ := by
      by_contra h
      exact absurd hk (ENNReal.mul_ne_top ENNReal.ofReal_ne_top (ENNReal.mul_ne_top h h))
    have : ∑ k, W k * F k = ∞ := ENNReal.sum_eq_top.2 ⟨k, Finset.mem_univ k, by rw [hFk, ENNReal.mul_top hk0]⟩
    rw [hgoal, this]
    simp
  · set a := ∑ k, W k * (F k * ∑ i, q k i * F i)
    set b := ∑ k, W k * (F k * ∑ i, W i * F i)
    set D := ∑ k, W k * ∑ i, W i * sqDiff (F k) (F i)
    have hD : D ≠ ∞ := ne_top_of_le_ne_top (ENNReal.add_ne_top.2 ⟨hfin, hfin⟩) (d2 ▸ le_add_self)
    have h : a + a + D ≤ b + b + D := (add_le_add le_rfl hd).trans (d1.trans d2.symm).le
    have h' := (ENNReal.add_le_add_iff_right hD).1 h
    rw [← two_mul, ← two_mul] at h'
    exact (ENNReal.mul_le_mul_iff_right (by simp) (by simp)).1 h'

section

variable {n : ℕ} {U V Z : Type} [MeasurableSpace U] [MeasurableSpace V]
variable [NeZero n] {S : StateSpace U V} {π0 : Measure U} {y0 : V} {ts : Arr1 ℝ} {K : ℕ}

omit [MeasurableSpace U] in
theorem sum_force_le {N : ℕ} [NeZero N] (f : U → ℝ≥0∞) (st : St N U) (hW : Weights st.W) (hr : Regular st.W) :
    ∑ b, ENNReal.ofReal (st.W b) * pairΨ (lastF fun x _ => f x) (moveΨ true f) st b
      ≤ ∑ b, ENNReal.ofReal (st.W b) * pairΨ (lastF fun x _ => f x) (moveΨ false f) st b := by
  have h := C108_index hW hr [] (keepΨ (lastF fun x _ => f x) st)
  simp only [E_forceMove hW [] _ (keepΨ (lastF fun x _ => f x) st)] at h
  rw [← sum_pair_select (lastF fun x _ => f x) (lastF fun x _ => f x) st hW] at h
  exact h

/-- **C108, one call, `explicit_final=False`.**  In stationarity the old and the new state of `gibbs_kernel` are no more correlated
with `explicit_backward=True` than with `explicit_backward=False`. -/
theorem C108_gibbs_correlation {m : Gibbs.Funs (rows n false) U V Z} (hS : S.JointMeas) (hm : BackwardExact m S π0 y0 ts K)
    (hsh : PathShape m K) (hpk : PathsKer m false y0 ts K) (hts : ts.2.length = K)
    (hreg : ∀ v v' t (x : Fin (rows n false) → U), Regular (normalise fun i => S.logG v v' t (x i)))
    (key key' : Key) {bs bs' : Arr1 (Fin (rows n false))} (hb : bs.2.length = K) (hb' : bs'.2.length = K)
    {f : U → ℝ≥0∞} (hf : Measurable f) :
    ∫⁻ x, f x * (gibbsKernel false m false true key x y0 bs ts).E (fun out => f out.1) ∂π0
      ≤ ∫⁻ x, f x * (gibbsKernel false m false false key' x y0 bs' ts).E (fun out => f out.1) ∂π0 := by
  obtain ⟨Λ, hΛ⟩ := hm.factor
  have h0 : Measurable fun _ : U => (0 : ℝ≥0∞) := measurable_const
  have h1 := gibbs_pair_of hS hm hsh hpk hts true hΛ key bs hb hf hf h0 hf
  have h2 := gibbs_pair_of hS hm hsh hpk hts false hΛ key' bs' hb' hf hf h0 hf
  simp only [zero_mul, lintegral_zero, add_zero] at h1 h2
  rw [h1, h2]
  refine lintegral_mono fun q => Rf_mono_on _ (Q := Regular) (fun st hW hQ => ?_) _ (steps_mem (Q := Regular) hreg _ _ _) _
    (normalise_weights _) ?_
  · have e : ∀ eb b, pairΨ (lastF fun _ _ => 0) (moveΨ eb f) st b = 0 := fun eb b => by
      simp only [pairΨ, keepΨ, lastF]
      cases ((st.P b).map Prod.fst).getLast? <;> simp
    simp only [e, add_zero]
    exact sum_force_le f st hW hQ
  · rw [show (startSt (rows n false) (-Real.log n) q.1).W = fun _ => 1 / ((rows n false : ℕ) : ℝ) from
      funext fun b => startSt_W _ _ b]
    exact regular_uniform _

/-- **C108, one call, `explicit_final=True`.** -/
theorem C108_gibbs_final_correlation {m : Gibbs.Funs (rows n true) U V Z} (hS : S.JointMeas) {ν : Measure U}
    [IsProbabilityMeasure ν] (hm : ReferenceExact m S ν π0 y0 ts K fun v u => S.logG (arr v).1 ((arr v).2.headD (arr v).1) ts.1 u)
    (hsh : PathShape m K) (hpk : PathsKer m false y0 ts K) (hts : ts.2.length = K)
    (hreg : ∀ v v' t (x : Fin (rows n true) → U), Regular (normalise fun i => S.logG v v' t (x i)))
    (key key' : Key) {bs bs' : Arr1 (Fin (rows n true))} (hb : bs.2.length = K) (hb' : bs'.2.length = K)
    {f : U → ℝ≥0∞} (hf : Measurable f) :
    ∫⁻ x, f x * (gibbsKernel true m false true key x y0 bs ts).E (fun out => f out.1) ∂π0
      ≤ ∫⁻ x, f x * (gibbsKernel true m false false key' x y0 bs' ts).E (fun out => f out.1) ∂π0 := by
  obtain ⟨Λ, hΛ⟩ := hm.factor
  have h0 : Measurable fun _ : U => (0 : ℝ≥0∞) := measurable_const
  have h1 := gibbs_final_pair_of hS hm hsh hpk hts true hΛ key bs hb hf hf h0 hf
  have h2 := gibbs_final_pair_of hS hm hsh hpk hts false hΛ key' bs' hb' hf hf h0 hf
  simp only [zero_mul, lintegral_zero, add_zero] at h1 h2
  rw [h1, h2]
  refine lintegral_mono fun v => lintegral_mono fun y => mul_le_mul_right (Rf_mono_on _ (Q := Regular) (fun st hW hQ => ?_) _
    (steps_mem (Q := Regular) hreg _ _ _) _ (normalise_weights _) (hreg _ _ _ _)) _
  have e : ∀ eb b, pairΨ (lastF fun _ _ => 0) (moveΨ eb f) st b = 0 := fun eb b => by
    simp only [pairΨ, keepΨ, lastF]
    cases ((st.P b).map Prod.fst).getLast? <;> simp
  simp only [e, add_zero]
  exact sum_force_le f st hW hQ

/-- **C108, all lags, `explicit_final=False`.**  Start both chains in the conditional law `π0` and let `A k`, `B k` be the expected
products of the values of `f` at the start and `k` iterations later, with and without the forced move.  Then
`∑ r^k A k ≤ ∑ r^k B k` for every `r < 1`. -/
theorem C108_gibbs_discounted [IsFiniteMeasure π0] {m : Gibbs.Funs (rows n false) U V Z} (hS : S.JointMeas)
    (hm : BackwardExact m S π0 y0 ts K) (hsh : PathShape m K) (hpk : PathsKer m false y0 ts K) (hts : ts.2.length = K)
    (hreg : ∀ v v' t (x : Fin (rows n false) → U), Regular (normalise fun i => S.logG v v' t (x i)))
    (key key' : Key) {bs bs' : Arr1 (Fin (rows n false))} (hb : bs.2.length = K) (hb' : bs'.2.length = K)
    {f : U → ℝ≥0∞} (hf : Measurable f) (h2 : ∫⁻ x, f x * f x ∂π0 ≠ ∞) (A B : ℕ → ℝ≥0∞)
    (hA : ∀ k, A k = ∫⁻ x, f x * (gibbsLoop false m false true y0 ts k key x bs).E (fun out => f out.1) ∂π0)
    (hB : ∀ k, B k = ∫⁻ x, f x * (gibbsLoop false m false false y0 ts k key' x bs').E (fun out => f out.1) ∂π0)
    {r : ℝ≥0∞} (hr : r < 1) : ∑' k, r ^ k * A k ≤ ∑' k, r ^ k * B k := by
  have hb0 : ((0, List.replicate K 0) : Arr1 (Fin (rows n false))).2.length = K := by simp
  have h := fun eb => gibbs_ker hS hm.trans hm.lik hm.starts hsh false eb hts hpk
  obtain ⟨κ, hκM, hκ⟩ := h true
  obtain ⟨η, hηM, hη⟩ := h false
  have hκr : Rev κ π0 := fun f g hf hg => by
    rw [← revKer hκ (key := []) hg hb0, ← revKer hκ (key := []) hf hb0]
    exact C103_gibbs_reversible hS hm hsh hpk hts true (fun _ => hreg) [] hb0 hf hg
  have hηr : Rev η π0 := fun f g hf hg => by
    rw [← revKer hη (key := []) hg hb0, ← revKer hη (key := []) hf hb0]
    exact C103_gibbs_reversible hS hm hsh hpk hts false (by simp) [] hb0 hf hg
  have eA : ∀ k, A k = lagProd κ π0 f f k := fun k => by rw [hA k, loop_lag (gibbs_runs hsh false true hts hκ) hf key hb k]
  have eB : ∀ k, B k = lagProd η π0 f f k := fun k => by rw [hB k, loop_lag (gibbs_runs hsh false false hts hη) hf key' hb' k]
  simp only [eA, eB]
  refine discounted_le (p := id) hκr hηr measurable_id (fun _ _ => rfl) (fun f hf _ => ?_) hf h2 hr
  show lagProd κ π0 f f 1 ≤ lagProd η π0 f f 1
  rw [← revKer hκ (key := []) hf hb0, ← revKer hη (key := []) hf hb0]
  exact C108_gibbs_correlation hS hm hsh hpk hts hreg [] [] hb0 hb0 hf

/-- **C108, all lags, `explicit_final=True`.** -/
theorem C108_gibbs_final_discounted [IsFiniteMeasure π0] {m : Gibbs.Funs (rows n true) U V Z} (hS : S.JointMeas) {ν : Measure U}
    [IsProbabilityMeasure ν] (hm : ReferenceExact m S ν π0 y0 ts K fun v u => S.logG (arr v).1 ((arr v).2.headD (arr v).1) ts.1 u)
    (hsh : PathShape m K) (hpk : PathsKer m false y0 ts K) (hts : ts.2.length = K)
    (hreg : ∀ v v' t (x : Fin (rows n true) → U), Regular (normalise fun i => S.logG v v' t (x i)))
    (key key' : Key) {bs bs' : Arr1 (Fin (rows n true))} (hb : bs.2.length = K) (hb' : bs'.2.length = K)
    {f : U → ℝ≥0∞} (hf : Measurable f) (h2 : ∫⁻ x, f x * f x ∂π0 ≠ ∞) (A B : ℕ → ℝ≥0∞)
    (hA : ∀ k, A k = ∫⁻ x, f x * (gibbsLoop true m false true y0 ts k key x bs).E (fun out => f out.1) ∂π0)
    (hB : ∀ k, B k = ∫⁻ x, f x * (gibbsLoop true m false false y0 ts k key' x bs').E (fun out => f out.1) ∂π0)
    {r : ℝ≥0∞} (hr : r < 1) : ∑' k, r ^ k * A k ≤ ∑' k, r ^ k * B k := by
  have hb0 : ((0, List.replicate K 0) : Arr1 (Fin (rows n true))).2.length = K := by simp
  have h := fun eb => gibbs_final_ker hS hm.trans hm.lik hm.normal hm.starts hsh false eb hts hpk
  obtain ⟨κ, hκM, hκ⟩ := h true
  obtain ⟨η, hηM, hη⟩ := h false
  have hκr : Rev κ π0 := fun f g hf hg => by
    rw [← revKer hκ (key := []) hg hb0, ← revKer hκ (key := []) hf hb0]
    exact C103_gibbs_final_reversible hS hm hsh hpk hts true (fun _ => hreg) [] hb0 hf hg
  have hηr : Rev η π0 := fun f g hf hg => by
    rw [← revKer hη (key := []) hg hb0, ← revKer hη (key := []) hf hb0]
    exact C103_gibbs_final_reversible hS hm hsh hpk hts false (by simp) [] hb0 hf hg
  have eA : ∀ k, A k = lagProd κ π0 f f k := fun k => by rw [hA k, loop_lag (gibbs_runs hsh false true hts hκ) hf key hb k]
  have eB : ∀ k, B k = lagProd η π0 f f k := fun k => by rw [hB k, loop_lag (gibbs_runs hsh false false hts hη) hf key' hb' k]
  simp only [eA, eB]
  refine discounted_le (p := id) hκr hηr measurable_id (fun _ _ => rfl) (fun f hf _ => ?_) hf h2 hr
  show lagProd κ π0 f f 1 ≤ lagProd η π0 f f 1
  rw [← revKer hκ (key := []) hf hb0, ← revKer hη (key := []) hf hb0]
  exact C108_gibbs_final_correlation hS hm hsh hpk hts hreg [] [] hb0 hb0 hf

end

/-! ### Examples -/

section Example

/-- Three particles. -/
example (key : Key) (F : Fin 3 → ℝ≥0∞) :
    ∑ k, ENNReal.ofReal (![(1/10 : ℝ), 3/10, 6/10] k) * (F k * (forceMove key ![(1/10 : ℝ), 3/10, 6/10] k).E (fun r => F r.1))
      ≤ (∑ k, ENNReal.ofReal (![(1/10 : ℝ), 3/10, 6/10] k) * F k) * ∑ k, ENNReal.ofReal (![(1/10 : ℝ), 3/10, 6/10] k) * F k :=
  C108_index ⟨fun i => by fin_cases i <;> norm_num, by simp [Fin.sum_univ_three]; norm_num⟩
    (fun i => Or.inl (lt_of_lt_of_le (show (_ : ℝ) < 1 - 1e-12 by fin_cases i <;> norm_num) (le_max_right _ _))) key F

/-- Five particles, the event `x > 0`. -/
example (key : Key) (b c : Fin (rows 5 false)) (A B : ℕ → ℝ≥0∞)
    (hA : ∀ k, A k = ∫⁻ x, (Set.Ioi (0 : ℝ)).indicator 1 x * (gibbsLoop false (freshFuns (fun v _ => Real.cos v) (rows 5 false))
      false true 2 (0, [1]) k key x (b, [c])).E (fun out => (Set.Ioi (0 : ℝ)).indicator 1 out.1)
        ∂(ENNReal.ofReal (Real.exp (Real.cos 2)) • gaussianReal 0 1))
    (hB : ∀ k, B k = ∫⁻ x, (Set.Ioi (0 : ℝ)).indicator 1 x * (gibbsLoop false (freshFuns (fun v _ => Real.cos v) (rows 5 false))
      false false 2 (0, [1]) k key x (b, [c])).E (fun out => (Set.Ioi (0 : ℝ)).indicator 1 out.1)
        ∂(ENNReal.ofReal (Real.exp (Real.cos 2)) • gaussianReal 0 1)) :
    ∑' k, 2⁻¹ ^ k * A k ≤ ∑' k, 2⁻¹ ^ k * B k := by
  have : IsFiniteMeasure (ENNReal.ofReal (Real.exp (Real.cos 2)) • gaussianReal 0 1) :=
    Measure.smul_finite _ ENNReal.ofReal_ne_top
  exact C108_gibbs_discounted (freshS_jointMeas (g := fun v _ => Real.cos v) (by fun_prop))
    (freshFuns_exact Real.measurable_cos _ 2 0 1) (freshFuns_shape _ _) (freshFuns_pathsKer _ _ _ _) rfl
    (fun v v' t x => regular_of_bounded fun i => Real.abs_cos_le_one _) key key rfl rfl (measurable_one.indicator measurableSet_Ioi)
    (ne_top_of_le_ne_top (measure_ne_top _ Set.univ) (by
      rw [← lintegral_one]
      refine lintegral_mono fun x => ?_
      by_cases h : x ∈ Set.Ioi (0 : ℝ) <;> simp [h])) A B hA hB (by simp)

/-- Both ends drawn, with potentials that depend on the state. -/
example (key : Key) (b c : Fin (rows 5 true)) (A B : ℕ → ℝ≥0∞) (π0 : Measure ℝ)
    (hπ : π0 = (gaussianReal 0 1).withDensity fun u => ENNReal.ofReal (Real.exp (Real.cos u)) * ENNReal.ofReal (Real.exp (Real.cos u)))
    (hA : ∀ k, A k = ∫⁻ x, (Set.Ioi (0 : ℝ)).indicator 1 x * (gibbsLoop true (exFuns (fun _ u => Real.cos u) (rows 5 true))
      false true 2 (0, [1]) k key x (b, [c])).E (fun out => (Set.Ioi (0 : ℝ)).indicator 1 out.1) ∂π0)
    (hB : ∀ k, B k = ∫⁻ x, (Set.Ioi (0 : ℝ)).indicator 1 x * (gibbsLoop true (exFuns (fun _ u => Real.cos u) (rows 5 true))
      false false 2 (0, [1]) k key x (b, [c])).E (fun out => (Set.Ioi (0 : ℝ)).indicator 1 out.1) ∂π0) :
    ∑' k, 2⁻¹ ^ k * A k ≤ ∑' k, 2⁻¹ ^ k * B k := by
  have hg : Measurable fun p : ℝ × ℝ => Real.cos p.2 := by fun_prop
  have hm := exFuns_reference (g := fun _ u => Real.cos u) hg Real.measurable_cos (rows 5 true) 2 0 1
  subst hπ
  have : IsFiniteMeasure ((gaussianReal 0 1).withDensity fun u =>
    ENNReal.ofReal (Real.exp (Real.cos u)) * ENNReal.ofReal (Real.exp (Real.cos u))) := by
    simpa using exTarget_finite 1
  exact C108_gibbs_final_discounted (exS_jointMeas (g := fun _ u => Real.cos u) hg) hm (exFuns_shape _ _)
    (exFuns_pathsKer _ _ _ _) rfl (fun v v' t x => regular_of_bounded fun i => Real.abs_cos_le_one _) key key rfl rfl
    (measurable_one.indicator measurableSet_Ioi)
    (ne_top_of_le_ne_top (measure_ne_top _ Set.univ) (by
      rw [← lintegral_one]
      refine lintegral_mono fun x => ?_
      by_cases h : x ∈ Set.Ioi (0 : ℝ) <;> simp [h])) A B hA hB (by simp)

end Example

end Props
end Fbs
