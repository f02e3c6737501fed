import Verif.Lemmas.Girsanov
import Verif.Lemmas.EmGauss
import Verif.Spec.Paths

/-!
# C87: what an error of the drift or of the score costs in the law of the samples
-/

open MeasureTheory ProbabilityTheory InformationTheory
open scoped ENNReal NNReal

namespace Fbs
namespace Spec

variable {ι : Type} [Fintype ι]

/-- The cost of replacing the drift `b` by `b'` along the path `p` on the grid `t :: ts`:
`∑ₖ |tₖ₊₁ - tₖ| / (2 g(tₖ)²) |b(pₖ, tₖ) - b'(pₖ, tₖ)|²`. -/
noncomputable def driftCost (b b' : (ι → ℝ) → ℝ → (ι → ℝ)) (disp : ℝ → ℝ) : ℝ → List ℝ → List (ι → ℝ) → ℝ
  | t, t' :: ts, x :: p =>
    |t' - t| / (2 * disp t ^ 2) * ∑ i, (b x t i - b' x t i) ^ 2 + driftCost b b' disp t' ts p
  | _, _, _ => 0

/-- The cost of replacing the score `s` by `s'` along the reverse-time path `p` on the grid `t :: ts` ending at `T`:
`∑ₖ |tₖ₊₁ - tₖ| g(T - tₖ)² / 2 |s(pₖ, T - tₖ) - s'(pₖ, T - tₖ)|²`. -/
noncomputable def scoreCost (s s' : (ι → ℝ) → ℝ → (ι → ℝ)) (disp : ℝ → ℝ) (T : ℝ) : ℝ → List ℝ → List (ι → ℝ) → ℝ
  | t, t' :: ts, x :: p =>
    |t' - t| * disp (T - t) ^ 2 / 2 * ∑ i, (s x (T - t) i - s' x (T - t) i) ^ 2 + scoreCost s s' disp T t' ts p
  | _, _, _ => 0

/-- `∑ₖ |tₖ₊₁ - tₖ| g(T - tₖ)²`, the Riemann sum of the squared dispersion. -/
noncomputable def dispMass (disp : ℝ → ℝ) (T : ℝ) : ℝ → List ℝ → ℝ
  | t, t' :: ts => |t' - t| * disp (T - t) ^ 2 + dispMass disp T t' ts
  | _, [] => 0

end Spec

namespace Props

open Jax Simulators Spec Girsanov

variable {ι : Type} [Fintype ι] (drift : (ι → ℝ) → ℝ → (ι → ℝ)) (disp : ℝ → ℝ)

/-- Expectation over the noise of a function of the states after the start. -/
noncomputable def pathE (n : ℕ) : List (ℝ × ℝ) → (ι → ℝ) → (List (ι → ℝ) → ℝ≥0∞) → ℝ≥0∞
  | [], _, φ => φ []
  | (t, t') :: is, x, φ => ∫⁻ w, pathE n is (emStep drift disp n x t t' (List.ofFn w))
      (fun l => φ (emStep drift disp n x t t' (List.ofFn w) :: l)) ∂(Measure.pi fun _ : Fin n => stdNormal ι)

theorem E_scan_path (n : ℕ) : ∀ (keys : List Key) (is : List (ℝ × ℝ)), keys.length = is.length →
    ∀ (x : ι → ℝ) (φ : List (ι → ℝ) → ℝ≥0∞),
    (Rand.scan (emBody drift disp n id) x (keys.zip is)).E (fun r => φ r.2) = pathE drift disp n is x φ
  | [], [], _, x, φ => rfl
  | k :: keys, (t, t') :: is, h, x, φ => by
    have ih := E_scan_path n keys is (by simpa using h)
    simp only [List.zip_cons_cons, Rand.scan, emBody, Rand.E_bind, Rand.pure_eq, Rand.E_ret, normalRows, Rand.E_map,
      Rand.E_sample, pathE, id]
    exact lintegral_congr fun w => ih _ fun l => φ (_ :: l)

theorem E_eulerPath (key : Key) (x0 : ι → ℝ) (ts : Arr1 ℝ) (n : ℕ) (φ : List (ι → ℝ) → ℝ≥0∞) :
    (eulerPath key x0 ts drift disp n).E (fun p => φ p.toList) =
      pathE drift disp n (ts.init.zip ts.2) x0 fun l => φ (x0 :: l) := by
  simp only [eulerPath, Rand.E_bind, Rand.pure_eq, Rand.E_ret]
  exact E_scan_path drift disp n _ _ (by simp [splitAll, Arr1.init]) x0 fun l => φ (x0 :: l)

theorem pathE_append (n : ℕ) : ∀ (is js : List (ℝ × ℝ)) (x : ι → ℝ) (φ : List (ι → ℝ) → ℝ≥0∞),
    pathE drift disp n (is ++ js) x φ = pathE drift disp n is x fun l =>
      pathE drift disp n js (Arr1.last (x, l)) fun l' => φ (l ++ l')
  | [], _, x, φ => by simp [pathE, Arr1.last]
  | (t, t') :: is, js, x, φ => by
    refine lintegral_congr fun w => ?_
    refine (pathE_append n is js _ _).trans ?_
    simp only [arr1_last_cons, List.cons_append]

theorem pathE_congr (n : ℕ) : ∀ (is : List (ℝ × ℝ)) (x : ι → ℝ) {φ φ' : List (ι → ℝ) → ℝ≥0∞},
    (∀ l, l.length = is.length → φ l = φ' l) → pathE drift disp n is x φ = pathE drift disp n is x φ'
  | [], _, _, _, h => h [] rfl
  | _ :: is, _, _, _, h => lintegral_congr fun _ => pathE_congr n is _ fun l hl => h _ (by simp [hl])

variable (T : ℕ → ℝ)

/-- Mean of the step from grid time `k`. -/
noncomputable def emMeanAt (k : ℕ) (x : ι → ℝ) : ι → ℝ := fun i => x i + drift x (T k) i * |T (k + 1) - T k|

/-- Variance of the step from grid time `k`. -/
noncomputable def emVarAt (k : ℕ) : ℝ≥0 := (disp (T k) ^ 2 * |T (k + 1) - T k|).toNNReal

omit [Fintype ι] in
theorem measurable_emMeanAt {drift : (ι → ℝ) → ℝ → (ι → ℝ)} (hd : ∀ t, Measurable fun x => drift x t) (k : ℕ) :
    Measurable (emMeanAt drift T k) := by
  refine measurable_pi_iff.2 fun i => ?_
  have h2 : Measurable fun x => drift x (T k) i := (measurable_pi_apply i).comp (hd _)
  exact (measurable_pi_apply i).add (h2.mul_const _)

/-- One step under the integral. -/
theorem lintegral_emStep_pi (x : ι → ℝ) (k : ℕ) {f : (ι → ℝ) → ℝ≥0∞} (hf : Measurable f) :
    ∫⁻ w, f (emStep drift disp 1 x (T k) (T (k + 1)) (List.ofFn w)) ∂(Measure.pi fun _ : Fin 1 => stdNormal ι) =
      ∫⁻ y, f y ∂(gaussProd (emMeanAt drift T k x) (emVarAt disp T k)) := by
  have hmp : MeasurePreserving (fun w : Fin 1 → ι → ℝ => w 0) (Measure.pi fun _ : Fin 1 => stdNormal ι) (stdNormal ι) :=
    measurePreserving_eval (fun _ : Fin 1 => stdNormal ι) 0
  set c := disp (T k) * Real.sqrt |T (k + 1) - T k| with hc
  have hg := gaussProd_map (0 : ι → ℝ) 1 (emMeanAt drift T k x) c
  have e1 : (c ^ 2).toNNReal * 1 = emVarAt disp T k := by
    rw [mul_one, emVarAt, hc, mul_pow, Real.sq_sqrt (abs_nonneg _)]
  simp only [Pi.zero_apply, mul_zero, add_zero, e1] at hg
  have hcm : Measurable fun (z : ι → ℝ) i => emMeanAt drift T k x i + c * z i :=
    measurable_pi_iff.2 fun i => Measurable.add measurable_const (measurable_const.mul (measurable_pi_apply i))
  rw [show gaussProd (emMeanAt drift T k x) (emVarAt disp T k) = _ from hg.symm, lintegral_map hf hcm,
    ← stdNormal_eq]
  refine Eq.trans ?_ (hmp.lintegral_comp (hf.comp hcm))
  refine lintegral_congr fun w => ?_
  rw [emStep_unit]
  rfl

/-- **The law of the path of the program.** -/
theorem lintegral_pathE {drift : (ι → ℝ) → ℝ → (ι → ℝ)} (hd : ∀ t, Measurable fun x => drift x t)
    (μ : Measure (ι → ℝ)) [IsProbabilityMeasure μ] : ∀ (K : ℕ) {φ : List (ι → ℝ) → ℝ≥0∞}, MeasList (K + 1) φ →
    ∫⁻ x, pathE drift disp 1 ((List.range K).map fun k => (T k, T (k + 1))) x (fun l => φ (x :: l)) ∂μ =
      ∫⁻ q, φ (List.ofFn q) ∂(pathLaw μ (emMeanAt drift T) (measurable_emMeanAt T hd) (emVarAt disp T) K)
  | 0, φ, hφ => by
    have hc : Measurable fun (x : ι → ℝ) (_ : Fin 1) => x := measurable_pi_iff.2 fun _ => measurable_id
    rw [pathLaw, lintegral_map hφ hc]
    simp [pathE]
  | K + 1, φ, hφ => by
    have hφ2 : Measurable fun p : (Fin (K + 1) → ι → ℝ) × (ι → ℝ) => φ (List.ofFn p.1 ++ [p.2]) := by
      have h : Measurable fun p : (Fin (K + 1) → ι → ℝ) × (ι → ℝ) => φ (List.ofFn (snocM ι K p)) :=
        hφ.comp (measurable_snocM (ι := ι) K)
      simpa only [ofFn_snocM] using h
    set ψ : List (ι → ℝ) → ℝ≥0∞ := fun l => ∫⁻ y, φ (l ++ [y])
      ∂(gaussProd (emMeanAt drift T K (l.getLastD 0)) (emVarAt disp T K)) with hψ
    have hlast : ∀ q : Fin (K + 1) → ι → ℝ, (List.ofFn q).getLastD 0 = q (Fin.last K) := fun q => by
      rw [List.ofFn_succ', List.concat_eq_append]
      simp
    have hψm : MeasList (K + 1) ψ := by
      have h := hφ2.lintegral_kernel_prod_right' (κ := gker (emVarAt disp T K)
        (fun q : Fin (K + 1) → ι → ℝ => emMeanAt drift T K (q (Fin.last K)))
        (measurable_mean _ (measurable_emMeanAt T hd) K))
      show Measurable fun q : Fin (K + 1) → ι → ℝ => ψ (List.ofFn q)
      simp only [hψ, hlast]
      exact h
    rw [lintegral_pathLaw_succ _ _ _ _ K hφ, List.range_succ, List.map_append]
    have ih := lintegral_pathE hd μ K hψm
    have e2 : ∀ q : Fin (K + 1) → ι → ℝ, (∫⁻ y, φ (List.ofFn (snocM ι K (q, y)))
        ∂(gaussProd (emMeanAt drift T K (q (Fin.last K))) (emVarAt disp T K))) = ψ (List.ofFn q) := fun q => by
      simp only [hψ, hlast, ofFn_snocM]
    simp only [e2]
    rw [← ih]
    refine lintegral_congr fun x => ?_
    rw [pathE_append]
    refine pathE_congr drift disp 1 _ x fun l hl => ?_
    have hl' : l.length = K := by simpa using hl
    have hm2 : Measurable fun y : ι → ℝ => φ (x :: (l ++ [y])) := by
      have h := hφ2.comp (measurable_prodMk_left (x := fun i : Fin (K + 1) => (x :: l).getD i 0))
      have e3 : List.ofFn (fun i : Fin (K + 1) => (x :: l).getD i 0) = x :: l := by
        subst hl'
        refine List.ext_getElem (by simp) fun i h1 h2 => ?_
        simp only [List.getElem_ofFn]
        rw [List.getD_eq_getElem _ _ h2]
      simpa only [Function.comp_def, e3, List.cons_append] using h
    show ∫⁻ w, φ (x :: (l ++ [emStep drift disp 1 (Arr1.last (x, l)) (T K) (T (K + 1)) (List.ofFn w)]))
      ∂(Measure.pi fun _ : Fin 1 => stdNormal ι) = _
    rw [lintegral_emStep_pi drift disp T _ K hm2]
    have e4 : (x :: l).getLastD 0 = Arr1.last (x, l) := by
      rw [Arr1.last, List.getLastD_eq_getLast?, List.getLast?_eq_getLast_of_ne_nil (List.cons_ne_nil _ _)]
      rfl
    simp only [hψ, e4, List.cons_append]

/-! ### The grid -/

/-- Grid time `k`. -/
def gridAt (ts : Arr1 ℝ) (k : ℕ) : ℝ := ts.toList.getD k 0

theorem zip_grid (t : ℝ) (l : List ℝ) : (Arr1.init (t, l)).zip l =
    (List.range l.length).map fun k => ((t :: l).getD k 0, (t :: l).getD (k + 1) 0) := by
  refine List.ext_getElem (by simp [Arr1.init]) fun i h1 h2 => ?_
  have hi : i < l.length := by simpa using h2
  simp only [List.getElem_zip, List.getElem_map, List.getElem_range, Arr1.init, List.getElem_dropLast]
  rw [List.getD_eq_getElem _ _ (by simp; omega), List.getD_eq_getElem _ _ (by simp; omega)]
  simp

theorem driftCost_ofFn (b b' : (ι → ℝ) → ℝ → (ι → ℝ)) : ∀ (l : List ℝ) (t : ℝ) (q : Fin (l.length + 1) → ι → ℝ),
    driftCost b b' disp t l (List.ofFn q) = ∑ k : Fin l.length,
      |(t :: l).getD (k + 1) 0 - (t :: l).getD k 0| / (2 * disp ((t :: l).getD k 0) ^ 2) *
        ∑ i, (b (q k.castSucc) ((t :: l).getD k 0) i - b' (q k.castSucc) ((t :: l).getD k 0) i) ^ 2
  | [], t, q => by simp [driftCost]
  | t' :: l, t, q => by
    have ih := driftCost_ofFn b b' l t' fun k => q k.succ
    rw [List.ofFn_succ, driftCost]
    refine (congrArg (_ + ·) ih).trans ?_
    refine Eq.trans ?_ (Fin.sum_univ_succ (n := l.length) _).symm
    rfl

/-! ### C87 -/

variable {drift}

/-- The program against the law of its path. -/
theorem lintegral_eulerPath (hd : ∀ t, Measurable fun x => drift x t) (μ : Measure (ι → ℝ)) [IsProbabilityMeasure μ]
    (key : Key) (ts : Arr1 ℝ) {φ : List (ι → ℝ) → ℝ≥0∞} (hφ : MeasList (ts.2.length + 1) φ) :
    ∫⁻ x, (eulerPath key x ts drift disp 1).E (fun p => φ p.toList) ∂μ =
      ∫⁻ q, φ (List.ofFn q) ∂(pathLaw μ (emMeanAt drift (gridAt ts)) (measurable_emMeanAt _ hd) (emVarAt disp (gridAt ts))
        ts.2.length) := by
  rw [← lintegral_pathE disp (gridAt ts) hd μ ts.2.length hφ]
  refine lintegral_congr fun x => ?_
  rw [E_eulerPath, show ts.init.zip ts.2 = _ from zip_grid ts.1 ts.2]
  rfl

/-- **C87, Girsanov's formula for the program.**  Two runs of `euler_maruyama` with the same dispersion, which does not vanish on
the grid, and drifts `b`, `b'`, from starts with laws `μ`, `μ'`: the relative entropy of the laws of the whole paths is that
of the starts plus the mean cost of the difference of the drifts along the path with drift `b`. -/
theorem C87_girsanov {b b' : (ι → ℝ) → ℝ → (ι → ℝ)} (hb : ∀ t, Measurable fun x => b x t)
    (hb' : ∀ t, Measurable fun x => b' x t) {ts : Arr1 ℝ} (hg : ∀ t ∈ ts.init, disp t ≠ 0)
    (hne : ∀ i ∈ ts.init.zip ts.2, i.1 ≠ i.2) (μ μ' : Measure (ι → ℝ)) [IsProbabilityMeasure μ] [IsProbabilityMeasure μ']
    (key key' : Key) :
    ∃ P P' : Measure (Fin (ts.2.length + 1) → ι → ℝ), IsProbabilityMeasure P ∧ IsProbabilityMeasure P' ∧
      (∀ φ, MeasList (ts.2.length + 1) φ →
        ∫⁻ x, (eulerPath key x ts b disp 1).E (fun p => φ p.toList) ∂μ = ∫⁻ q, φ (List.ofFn q) ∂P) ∧
      (∀ φ, MeasList (ts.2.length + 1) φ →
        ∫⁻ x, (eulerPath key' x ts b' disp 1).E (fun p => φ p.toList) ∂μ' = ∫⁻ q, φ (List.ofFn q) ∂P') ∧
      klDiv P P' = klDiv μ μ' + ∫⁻ x, (eulerPath key x ts b disp 1).E
        (fun p => ENNReal.ofReal (driftCost b b' disp ts.1 ts.2 p.toList)) ∂μ := by
  set T := gridAt ts with hT
  have hz : ts.init.zip ts.2 = (List.range ts.2.length).map fun k => (T k, T (k + 1)) := zip_grid ts.1 ts.2
  have hmem : ∀ k < ts.2.length, (T k, T (k + 1)) ∈ ts.init.zip ts.2 := fun k hk => by
    rw [hz]; exact List.mem_map.2 ⟨k, List.mem_range.2 hk, rfl⟩
  have hv0 : ∀ k < ts.2.length, 0 < disp (T k) ^ 2 * |T (k + 1) - T k| := fun k hk => by
    have h1 := hg _ (List.of_mem_zip (hmem k hk)).1
    have h2 := hne _ (hmem k hk)
    have h3 : 0 < |T (k + 1) - T k| := abs_pos.2 (sub_ne_zero.2 (Ne.symm h2))
    positivity
  have hv : ∀ k < ts.2.length, emVarAt disp T k ≠ 0 := fun k hk => (Real.toNNReal_pos.2 (hv0 k hk)).ne'
  refine ⟨pathLaw μ (emMeanAt b T) (measurable_emMeanAt _ hb) (emVarAt disp T) ts.2.length,
    pathLaw μ' (emMeanAt b' T) (measurable_emMeanAt _ hb') (emVarAt disp T) ts.2.length, isProb_pathLaw .., isProb_pathLaw ..,
    fun φ hφ => lintegral_eulerPath disp hb μ key ts hφ, fun φ hφ => lintegral_eulerPath disp hb' μ' key' ts hφ, ?_⟩
  rw [klDiv_pathLaw _ _ _ _ _ _ _ _ hv]
  congr 1
  have hterm : ∀ (k : Fin ts.2.length) (x : ι → ℝ),
      ∑ i, (emMeanAt b T k x i - emMeanAt b' T k x i) ^ 2 / (2 * emVarAt disp T k) =
        |T (k + 1) - T k| / (2 * disp (T k) ^ 2) * ∑ i, (b x (T k) i - b' x (T k) i) ^ 2 := by
    intro k x
    rw [Finset.mul_sum]
    refine Finset.sum_congr rfl fun i _ => ?_
    have h0 := hv0 k k.2
    rw [emVarAt, Real.coe_toNNReal _ h0.le]
    have h1 := hg _ (List.of_mem_zip (hmem k k.2)).1
    have h3 : |T (k + 1) - T k| ≠ 0 := abs_ne_zero.2 (sub_ne_zero.2 (Ne.symm (hne _ (hmem k k.2))))
    simp only [emMeanAt]
    field_simp
    ring
  have hcost : ∀ q : Fin (ts.2.length + 1) → ι → ℝ, ENNReal.ofReal (driftCost b b' disp ts.1 ts.2 (List.ofFn q)) =
      ∑ k : Fin ts.2.length, ENNReal.ofReal (∑ i, (emMeanAt b T k (q k.castSucc) i - emMeanAt b' T k (q k.castSucc) i) ^ 2 /
        (2 * emVarAt disp T k)) := by
    intro q
    rw [driftCost_ofFn, ENNReal.ofReal_sum_of_nonneg fun k _ => by positivity]
    exact Finset.sum_congr rfl fun k _ => by rw [hterm]; rfl
  have hmeas : MeasList (ts.2.length + 1) fun l => ENNReal.ofReal (driftCost b b' disp ts.1 ts.2 l) := by
    show Measurable fun q : Fin (ts.2.length + 1) → ι → ℝ => ENNReal.ofReal (driftCost b b' disp ts.1 ts.2 (List.ofFn q))
    simp only [hcost]
    refine Finset.measurable_sum _ fun k _ => ?_
    have e1 : ∀ i, Measurable fun q : Fin (ts.2.length + 1) → ι → ℝ => emMeanAt b T k (q k.castSucc) i := fun i =>
      (measurable_pi_apply i).comp ((measurable_emMeanAt T hb k).comp (measurable_pi_apply _))
    have e2 : ∀ i, Measurable fun q : Fin (ts.2.length + 1) → ι → ℝ => emMeanAt b' T k (q k.castSucc) i := fun i =>
      (measurable_pi_apply i).comp ((measurable_emMeanAt T hb' k).comp (measurable_pi_apply _))
    exact (Finset.measurable_sum _ fun i _ => (((e1 i).sub (e2 i)).pow_const 2).div_const _).ennreal_ofReal
  rw [lintegral_eulerPath disp hb μ key ts hmeas]
  exact lintegral_congr fun q => (hcost q).symm

/-- Pinsker for test functions with values in `[0, 1]`. -/
theorem pinsker_lintegral {α : Type*} [MeasurableSpace α] {P P' : Measure α} [IsProbabilityMeasure P]
    [IsProbabilityMeasure P'] (h : klDiv P P' ≠ ∞) {φ : α → ℝ≥0∞} (hφ : Measurable φ) (h1 : ∀ x, φ x ≤ 1) :
    |(∫⁻ x, φ x ∂P).toReal - (∫⁻ x, φ x ∂P').toReal| ≤ Real.sqrt ((klDiv P P').toReal / 2) := by
  have hlt : ∀ x, φ x < ∞ := fun x => (h1 x).trans_lt ENNReal.one_lt_top
  rw [← integral_toReal hφ.aemeasurable (Filter.Eventually.of_forall hlt),
    ← integral_toReal hφ.aemeasurable (Filter.Eventually.of_forall hlt)]
  exact Pinsker.pinsker P P' h hφ.ennreal_toReal (fun _ => ENNReal.toReal_nonneg) fun x =>
    ENNReal.toReal_le_of_le_ofReal one_pos.le (by simpa using h1 x)

/-- **C87, paths.**  The probabilities of every event of the path (and the means of every test function with values in `[0, 1]`)
under the two runs differ by at most `√(B / 2)`, where `B` is the relative entropy of the starts plus the mean cost. -/
theorem C87_path {b b' : (ι → ℝ) → ℝ → (ι → ℝ)} (hb : ∀ t, Measurable fun x => b x t)
    (hb' : ∀ t, Measurable fun x => b' x t) {ts : Arr1 ℝ} (hg : ∀ t ∈ ts.init, disp t ≠ 0)
    (hne : ∀ i ∈ ts.init.zip ts.2, i.1 ≠ i.2) (μ μ' : Measure (ι → ℝ)) [IsProbabilityMeasure μ] [IsProbabilityMeasure μ']
    (key key' : Key) {B : ℝ≥0∞} (hB : B = klDiv μ μ' + ∫⁻ x, (eulerPath key x ts b disp 1).E
        (fun p => ENNReal.ofReal (driftCost b b' disp ts.1 ts.2 p.toList)) ∂μ) (hBt : B ≠ ∞)
    {φ : List (ι → ℝ) → ℝ≥0∞} (hφ : MeasList (ts.2.length + 1) φ) (h1 : ∀ p, φ p ≤ 1) :
    |(∫⁻ x, (eulerPath key x ts b disp 1).E (fun p => φ p.toList) ∂μ).toReal -
      (∫⁻ x, (eulerPath key' x ts b' disp 1).E (fun p => φ p.toList) ∂μ').toReal| ≤ Real.sqrt (B.toReal / 2) := by
  obtain ⟨P, P', _, _, hP, hP', hk⟩ := C87_girsanov disp hb hb' hg hne μ μ' key key'
  rw [hP φ hφ, hP' φ hφ, hB, ← hk]
  exact pinsker_lintegral (by rw [hk, ← hB]; exact hBt) hφ fun q => h1 _

theorem eulerLast_of_path (key : Key) (x : ι → ℝ) (ts : Arr1 ℝ) (b : (ι → ℝ) → ℝ → (ι → ℝ)) (f : (ι → ℝ) → ℝ≥0∞) :
    (eulerLast key x ts b disp 1).E f = (eulerPath key x ts b disp 1).E fun p => f (p.toList.getLastD 0) := by
  rw [← C33_last, Rand.E_map]
  refine congrArg _ (funext fun p => congrArg f ?_)
  rw [Arr1.last, List.getLastD_eq_getLast?, Arr1.toList, List.getLast?_eq_getLast_of_ne_nil (List.cons_ne_nil _ _)]
  rfl

omit [Fintype ι] in
theorem measList_last (K : ℕ) {f : (ι → ℝ) → ℝ≥0∞} (hf : Measurable f) : MeasList (K + 1) fun l => f (l.getLastD 0) := by
  have hlast : ∀ q : Fin (K + 1) → ι → ℝ, (List.ofFn q).getLastD 0 = q (Fin.last K) := fun q => by
    rw [List.ofFn_succ', List.concat_eq_append]
    simp
  show Measurable fun q : Fin (K + 1) → ι → ℝ => f ((List.ofFn q).getLastD 0)
  simp only [hlast]
  exact hf.comp (measurable_pi_apply _)

/-- **C87, samples.**  The same for the value returned by `euler_maruyama(return_path=False)`. -/
theorem C87_last {b b' : (ι → ℝ) → ℝ → (ι → ℝ)} (hb : ∀ t, Measurable fun x => b x t)
    (hb' : ∀ t, Measurable fun x => b' x t) {ts : Arr1 ℝ} (hg : ∀ t ∈ ts.init, disp t ≠ 0)
    (hne : ∀ i ∈ ts.init.zip ts.2, i.1 ≠ i.2) (μ μ' : Measure (ι → ℝ)) [IsProbabilityMeasure μ] [IsProbabilityMeasure μ']
    (key key' : Key) {B : ℝ≥0∞} (hB : B = klDiv μ μ' + ∫⁻ x, (eulerPath key x ts b disp 1).E
        (fun p => ENNReal.ofReal (driftCost b b' disp ts.1 ts.2 p.toList)) ∂μ) (hBt : B ≠ ∞)
    {f : (ι → ℝ) → ℝ≥0∞} (hf : Measurable f) (h1 : ∀ x, f x ≤ 1) :
    |(∫⁻ x, (eulerLast key x ts b disp 1).E f ∂μ).toReal - (∫⁻ x, (eulerLast key' x ts b' disp 1).E f ∂μ').toReal| ≤
      Real.sqrt (B.toReal / 2) := by
  simp only [eulerLast_of_path]
  exact C87_path disp hb hb' hg hne μ μ' key key' hB hBt (measList_last _ hf) fun p => h1 _

/-- **C87, the cost is what separates the laws.**  Two runs from the same start law have the same law of the path if and only if
the mean cost vanishes. -/
theorem C87_same_law {b b' : (ι → ℝ) → ℝ → (ι → ℝ)} (hb : ∀ t, Measurable fun x => b x t)
    (hb' : ∀ t, Measurable fun x => b' x t) {ts : Arr1 ℝ} (hg : ∀ t ∈ ts.init, disp t ≠ 0)
    (hne : ∀ i ∈ ts.init.zip ts.2, i.1 ≠ i.2) (μ : Measure (ι → ℝ)) [IsProbabilityMeasure μ] (key key' : Key) :
    (∀ φ, MeasList (ts.2.length + 1) φ → ∫⁻ x, (eulerPath key x ts b disp 1).E (fun p => φ p.toList) ∂μ =
        ∫⁻ x, (eulerPath key' x ts b' disp 1).E (fun p => φ p.toList) ∂μ) ↔
      ∫⁻ x, (eulerPath key x ts b disp 1).E (fun p => ENNReal.ofReal (driftCost b b' disp ts.1 ts.2 p.toList)) ∂μ = 0 := by
  obtain ⟨P, P', _, _, hP, hP', hk⟩ := C87_girsanov disp hb hb' hg hne μ μ key key'
  rw [klDiv_self, zero_add] at hk
  rw [← hk, klDiv_eq_zero_iff]
  constructor
  · intro h
    have h2 : ∀ g : (Fin (ts.2.length + 1) → ι → ℝ) → ℝ≥0∞, Measurable g → ∫⁻ q, g q ∂P = ∫⁻ q, g q ∂P' := by
      intro g hgm
      have e : ∀ q : Fin (ts.2.length + 1) → ι → ℝ, (fun i : Fin (ts.2.length + 1) => (List.ofFn q).getD i 0) = q :=
        fun q => funext fun i => by
          rw [List.getD_eq_getElem _ _ (by rw [List.length_ofFn]; exact i.2), List.getElem_ofFn]
      have hm : MeasList (ts.2.length + 1) fun l => g fun i : Fin (ts.2.length + 1) => l.getD i 0 := by
        show Measurable fun q : Fin (ts.2.length + 1) → ι → ℝ => g fun i : Fin (ts.2.length + 1) => (List.ofFn q).getD i 0
        simpa only [e] using hgm
      have h3 := h _ hm
      rw [hP _ hm, hP' _ hm] at h3
      simpa only [e] using h3
    exact Measure.ext_of_lintegral _ fun g hgm => h2 g hgm
  · intro h φ hφ
    rw [hP φ hφ, hP' φ hφ, h]

omit [Fintype ι] in
theorem measurable_reverseDrift_of {s f : (ι → ℝ) → ℝ → (ι → ℝ)} (hs : ∀ t, Measurable fun x => s x t)
    (hf : ∀ t, Measurable fun x => f x t) (T t : ℝ) : Measurable fun x => reverseDrift T s f disp x t := by
  refine measurable_pi_iff.2 fun i => ?_
  have h1 : Measurable fun x => f x (T - t) i := (measurable_pi_apply i).comp (hf _)
  have h2 : Measurable fun x => s x (T - t) i := (measurable_pi_apply i).comp (hs _)
  exact h1.neg.add (h2.const_mul _)

theorem scoreCost_eq (s s' f : (ι → ℝ) → ℝ → (ι → ℝ)) (T : ℝ) : ∀ (ts : List ℝ) (t : ℝ) (p : List (ι → ℝ)),
    (∀ t' ∈ Arr1.init (t, ts), disp (T - t') ≠ 0) →
    driftCost (reverseDrift T s f disp) (reverseDrift T s' f disp) (reverseDispersion T disp) t ts p =
      scoreCost s s' disp T t ts p
  | [], t, p, _ => by simp [driftCost, scoreCost]
  | t' :: ts, t, [], _ => by simp [driftCost, scoreCost]
  | t' :: ts, t, x :: p, h => by
    have hi : Arr1.init (t, t' :: ts) = t :: Arr1.init (t', ts) := by
      simp [Arr1.init]
    rw [hi] at h
    have h0 := h t (by simp)
    rw [driftCost, scoreCost, scoreCost_eq s s' f T ts t' p fun t'' h'' => h t'' (by simp [h''])]
    congr 1
    simp only [reverseDrift, reverseDispersion, Finset.mul_sum]
    refine Finset.sum_congr rfl fun i _ => ?_
    field_simp
    ring

/-- **C87, scores.**  Sampling with `reverse_simulator` from the law `μ` with the score `s` and from `μ'` with an approximation `s'`:
the probabilities of every event differ by at most `√(B / 2)`, with `B` the relative entropy of the start laws plus the mean of
`∑ₖ |tₖ₊₁ - tₖ| g(T - tₖ)² / 2 |s - s'|²` along the run with `s`. -/
theorem C87_score {s s' f : (ι → ℝ) → ℝ → (ι → ℝ)} (hs : ∀ t, Measurable fun x => s x t)
    (hs' : ∀ t, Measurable fun x => s' x t) (hf : ∀ t, Measurable fun x => f x t) {ts : Arr1 ℝ}
    (hg : ∀ t ∈ ts.init, disp (ts.last - t) ≠ 0) (hne : ∀ i ∈ ts.init.zip ts.2, i.1 ≠ i.2) (μ μ' : Measure (ι → ℝ))
    [IsProbabilityMeasure μ] [IsProbabilityMeasure μ'] (key key' : Key) {B : ℝ≥0∞} (hB : B = klDiv μ μ' +
      ∫⁻ x, (eulerPath key x ts (reverseDrift ts.last s f disp) (reverseDispersion ts.last disp) 1).E
        (fun p => ENNReal.ofReal (scoreCost s s' disp ts.last ts.1 ts.2 p.toList)) ∂μ) (hBt : B ≠ ∞)
    {g : Except String (ι → ℝ) → ℝ≥0∞} (hgm : Measurable fun x => g (.ok x)) (h1 : ∀ x, g x ≤ 1) :
    |(∫⁻ x, (reverseSimulator key x ts s f disp 1 "euler-maruyama").E g ∂μ).toReal -
      (∫⁻ x, (reverseSimulator key' x ts s' f disp 1 "euler-maruyama").E g ∂μ').toReal| ≤ Real.sqrt (B.toReal / 2) := by
  simp only [reverseSimulator, if_true, Rand.E_map]
  refine C87_last (reverseDispersion ts.last disp) (measurable_reverseDrift_of disp hs hf _) (measurable_reverseDrift_of disp hs' hf _)
    hg hne μ μ' key key' ?_ hBt hgm fun x => h1 _
  rw [hB]
  congr 1
  refine lintegral_congr fun x => congrArg _ (funext fun p => ?_)
  rw [scoreCost_eq disp s s' f ts.last ts.2 ts.1 p.toList hg]

theorem dispMass_nonneg (T : ℝ) : ∀ (ts : List ℝ) (t : ℝ), 0 ≤ dispMass disp T t ts
  | [], _ => le_rfl
  | t' :: ts, t => add_nonneg (by positivity) (dispMass_nonneg T ts t')

theorem scoreCost_le {s s' : (ι → ℝ) → ℝ → (ι → ℝ)} {T ε : ℝ} : ∀ (ts : List ℝ) (t : ℝ) (p : List (ι → ℝ)),
    (∀ t' ∈ Arr1.init (t, ts), ∀ x, ∑ i, (s x (T - t') i - s' x (T - t') i) ^ 2 ≤ ε ^ 2) →
    scoreCost s s' disp T t ts p ≤ ε ^ 2 / 2 * dispMass disp T t ts
  | [], t, p, _ => by simp [scoreCost, dispMass]
  | t' :: ts, t, [], _ => by
    simp only [scoreCost]
    exact mul_nonneg (by positivity) (dispMass_nonneg disp T _ t)
  | t' :: ts, t, x :: p, h => by
    have hi : Arr1.init (t, t' :: ts) = t :: Arr1.init (t', ts) := by
      simp [Arr1.init]
    rw [hi] at h
    have ih := scoreCost_le ts t' p fun t'' h'' => h t'' (by simp [h''])
    have h0 := h t (by simp) x
    rw [scoreCost, dispMass, mul_add]
    refine add_le_add ?_ ih
    calc |t' - t| * disp (T - t) ^ 2 / 2 * ∑ i, (s x (T - t) i - s' x (T - t) i) ^ 2
        ≤ |t' - t| * disp (T - t) ^ 2 / 2 * ε ^ 2 := mul_le_mul_of_nonneg_left h0 (by positivity)
      _ = ε ^ 2 / 2 * (|t' - t| * disp (T - t) ^ 2) := by ring

/-- **C87, a uniform error of the score.**  If `|s - s'| ≤ ε` at the times of the grid, then the probabilities of every event of the
samples differ by at most `√((KL(μ ‖ μ') + ε² / 2 ∑ₖ |tₖ₊₁ - tₖ| g(T - tₖ)²) / 2)`. -/
theorem C87_score_uniform {s s' f : (ι → ℝ) → ℝ → (ι → ℝ)} (hs : ∀ t, Measurable fun x => s x t)
    (hs' : ∀ t, Measurable fun x => s' x t) (hf : ∀ t, Measurable fun x => f x t) {ts : Arr1 ℝ}
    (hg : ∀ t ∈ ts.init, disp (ts.last - t) ≠ 0) (hne : ∀ i ∈ ts.init.zip ts.2, i.1 ≠ i.2) {ε : ℝ}
    (hε : ∀ t ∈ ts.init, ∀ x, ∑ i, (s x (ts.last - t) i - s' x (ts.last - t) i) ^ 2 ≤ ε ^ 2) (μ μ' : Measure (ι → ℝ))
    [IsProbabilityMeasure μ] [IsProbabilityMeasure μ'] (hμ : klDiv μ μ' ≠ ∞) (key key' : Key)
    {g : Except String (ι → ℝ) → ℝ≥0∞} (hgm : Measurable fun x => g (.ok x)) (h1 : ∀ x, g x ≤ 1) :
    |(∫⁻ x, (reverseSimulator key x ts s f disp 1 "euler-maruyama").E g ∂μ).toReal -
      (∫⁻ x, (reverseSimulator key' x ts s' f disp 1 "euler-maruyama").E g ∂μ').toReal| ≤
      Real.sqrt (((klDiv μ μ').toReal + ε ^ 2 / 2 * dispMass disp ts.last ts.1 ts.2) / 2) := by
  set C := ∫⁻ x, (eulerPath key x ts (reverseDrift ts.last s f disp) (reverseDispersion ts.last disp) 1).E
    (fun p => ENNReal.ofReal (scoreCost s s' disp ts.last ts.1 ts.2 p.toList)) ∂μ with hC
  have hmass : 0 ≤ ε ^ 2 / 2 * dispMass disp ts.last ts.1 ts.2 :=
    mul_nonneg (by positivity) (dispMass_nonneg disp _ _ _)
  have hCle : C ≤ ENNReal.ofReal (ε ^ 2 / 2 * dispMass disp ts.last ts.1 ts.2) := by
    have h2 : C ≤ ∫⁻ x, (eulerPath key x ts (reverseDrift ts.last s f disp) (reverseDispersion ts.last disp) 1).E
        (fun _ => ENNReal.ofReal (ε ^ 2 / 2 * dispMass disp ts.last ts.1 ts.2)) ∂μ :=
      lintegral_mono fun x => Rand.E_mono _ fun p => ENNReal.ofReal_le_ofReal (scoreCost_le disp _ _ _ hε)
    refine h2.trans (le_of_eq ?_)
    have h3 := lintegral_eulerPath (reverseDispersion ts.last disp) (measurable_reverseDrift_of disp hs hf ts.last) μ key ts
      (φ := fun _ => ENNReal.ofReal (ε ^ 2 / 2 * dispMass disp ts.last ts.1 ts.2))
      (by unfold MeasList; exact measurable_const)
    rw [h3, lintegral_const]
    have := isProb_pathLaw μ _ (measurable_emMeanAt (gridAt ts) (measurable_reverseDrift_of disp hs hf ts.last))
      (emVarAt (reverseDispersion ts.last disp) (gridAt ts)) ts.2.length
    rw [measure_univ, mul_one]
  have hCt : C ≠ ∞ := ne_top_of_le_ne_top ENNReal.ofReal_ne_top hCle
  refine (C87_score disp hs hs' hf hg hne μ μ' key key' rfl (ENNReal.add_ne_top.2 ⟨hμ, hCt⟩) hgm h1).trans ?_
  refine Real.sqrt_le_sqrt ?_
  rw [ENNReal.toReal_add hμ hCt]
  have h4 : C.toReal ≤ ε ^ 2 / 2 * dispMass disp ts.last ts.1 ts.2 := ENNReal.toReal_le_of_le_ofReal hmass hCle
  linarith

/-- The hypotheses can be met: Langevin-type reversal of a unit process on a grid of two steps with a score that is off by `1/10`. -/
example (key key' : Key) (μ : Measure (Fin 1 → ℝ)) [IsProbabilityMeasure μ] {A : Set (Fin 1 → ℝ)} (hA : MeasurableSet A) :
    |(∫⁻ x, (reverseSimulator key x (0, [1, 2]) (fun x _ => -x) (fun x _ i => -x i / 2) (fun _ => 1) 1 "euler-maruyama").E
        (fun r => match r with | .ok y => A.indicator 1 y | .error _ => 0) ∂μ).toReal -
      (∫⁻ x, (reverseSimulator key' x (0, [1, 2]) (fun x _ i => -x i + 1 / 10) (fun x _ i => -x i / 2) (fun _ => 1) 1
        "euler-maruyama").E (fun r => match r with | .ok y => A.indicator 1 y | .error _ => 0) ∂μ).toReal| ≤
      Real.sqrt (1 / 200) := by
  have h := C87_score_uniform (ι := Fin 1) (fun _ => 1) (s := fun x _ => -x) (s' := fun x _ i => -x i + 1 / 10)
    (f := fun x _ i => -x i / 2) (fun _ => by fun_prop) (fun _ => by fun_prop) (fun _ => by fun_prop) (ts := (0, [1, 2]))
    (by simp) (by simp [Arr1.init]) (ε := 1 / 10) (fun t _ x => by simp) μ μ (by simp) key key'
    (g := fun r => match r with | .ok y => A.indicator 1 y | .error _ => 0) (measurable_one.indicator hA)
    (fun r => by
      match r with
      | .ok y => exact Set.indicator_apply_le' (fun _ => le_rfl) fun _ => zero_le_one
      | .error _ => exact zero_le_one)
  refine h.trans (Real.sqrt_le_sqrt ?_)
  norm_num [dispMass]

end Props
end Fbs
