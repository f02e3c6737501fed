import Verif.Props.SmootherLaw
import Verif.Props.Filters
import Verif.Lemmas.Consistency
import Verif.Lemmas.GibbsLaw
import Verif.Model.Chains
import Verif.Props.Gibbs
import Mathlib.MeasureTheory.Measure.WithDensity

/-!
# C80: what the backward particle smoother targets
-/

open MeasureTheory ProbabilityTheory
open scoped ENNReal

namespace Fbs
namespace Spec

variable {N : ℕ} {U V : Type} [MeasurableSpace U]

/-- The log weights `logB u_{k+1} u_k v_k t_k` of the backward steps are those of the smoothing law along the observations:
at every step they are, up to a function of the later state, the log likelihood of the next observation plus the log
density (with respect to `μ`) of the transition. -/
def SmoothingWeights (S : StateSpace U V) (μ : Measure U) (logB : U → U → V → ℝ → ℝ) : V → List V → List ℝ → Prop
  | v, v' :: vs, t :: ts => (∃ (b : U → ℝ) (d : U → U → ℝ), Measurable b ∧ (∀ u, Measurable (d u)) ∧
      (∀ u, S.trans v t u = μ.withDensity fun u' => ENNReal.ofReal (Real.exp (d u u'))) ∧
      ∀ u u', logB u' u v t = b u' + S.logG v' v t u + d u u') ∧ SmoothingWeights S μ logB v' vs ts
  | _, _, _ => True

/-- Integral of `φ(u_0, …, u_K)` against `init(du_0) Π_k p(v_k | u_{k-1}) M_k(u_{k-1}, du_k)`: the smoothing law times the
marginal likelihood. -/
noncomputable def StateSpace.smoothInt (S : StateSpace U V) (vs : Arr1 V) (ts : Arr1 ℝ) (φ : List U → ℝ≥0∞) : ℝ≥0∞ :=
  ∫⁻ u, pathInt (S.steps vs.1 vs.2 ts.toList) u (fun l => φ (u :: l)) ∂S.init

end Spec

namespace Props

open Jax Spec Smc Csmc Gibbs

variable {N : ℕ} {U V : Type}

/-- Backward simulation from the last of the rows `x, ys`, with the earlier rows `hist`. -/
noncomputable def backFrom (logB : U → U → V → ℝ → ℝ) : List ((Fin N → U) × V × ℝ) → (Fin N → U) → List (Fin N → U) →
    List V → List ℝ → (List U → ℝ≥0∞) → ℝ≥0∞
  | hist, x, [], _, _, φ => (N : ℝ≥0∞)⁻¹ * ∑ i, backSim logB (x i) hist (fun us => φ (us.reverse ++ [x i]))
  | hist, x, y :: ys, v :: vs, t :: ts, φ => backFrom logB ((x, v, t) :: hist) y ys vs ts φ
  | _, _, _ :: _, _, _, _ => 0

theorem backFrom_eq (logB : U → U → V → ℝ → ℝ) (φ : List U → ℝ≥0∞) : ∀ (ys : List (Fin N → U)) (x : Fin N → U)
    (hist : List ((Fin N → U) × V × ℝ)) (v : V) (vs : List V) (t : ℝ) (ts : List ℝ), vs.length = ys.length →
    ts.length = ys.length →
    backFrom logB hist x ys (v :: vs) (t :: ts) φ =
      (N : ℝ≥0∞)⁻¹ * ∑ i, backSim logB ((x :: ys).getLast (by simp) i)
        (((x :: ys).dropLast.zip ((v :: vs).dropLast.zip (t :: ts).dropLast)).reverse ++ hist)
        (fun us => φ (us.reverse ++ [(x :: ys).getLast (by simp) i]))
  | [], x, hist, v, vs, t, ts, _, _ => by simp [backFrom]
  | y :: ys, x, hist, v, v' :: vs, t, t' :: ts, hv, ht => by
    rw [backFrom, backFrom_eq logB φ ys y ((x, v, t) :: hist) v' vs t' ts (by simpa using hv) (by simpa using ht)]
    simp

theorem E_smoother_backFrom [NeZero N] (key : Key) (xss : Arr1 (Fin N → U)) (vs : Arr1 V) (ts : Arr1 ℝ)
    (hv : vs.2.length = xss.2.length) (ht : ts.2.length = xss.2.length) (logB : U → U → V → ℝ → ℝ)
    (f : List U → ℝ≥0∞) :
    (Smc.backwardSmoother key xss vs ts fun u xs v t i => logB u (xs i) v t).E f =
      backFrom logB [] xss.1 xss.2 vs.toList ts.toList f := by
  rw [C55_law key xss vs ts hv ht logB f]
  show _ = backFrom logB [] xss.1 xss.2 (vs.1 :: vs.2) (ts.1 :: ts.2) f
  rw [backFrom_eq logB f xss.2 xss.1 [] vs.1 vs.2 ts.1 ts.2 hv ht]
  simp [Arr1.toList]

variable [MeasurableSpace U]

omit [MeasurableSpace U] in
theorem measurable_backSim {Z : Type} [MeasurableSpace Z] (logB : U → U → V → ℝ → ℝ) :
    ∀ (l : List ((Fin N → U) × V × ℝ)) (u : U) (G : Z → List U → ℝ≥0∞),
      (∀ us, us.length = l.length → Measurable fun z => G z us) → Measurable fun z => backSim logB u l (G z)
  | [], _, G, h => h [] rfl
  | (xs, v, t) :: l, u, G, h => by
    simp only [backSim]
    refine Finset.measurable_fun_sum _ fun i _ => Measurable.const_mul ?_ _
    exact measurable_backSim logB l (xs i) (fun z us => G z (xs i :: us)) fun us hu => h _ (by simp [hu])

omit [MeasurableSpace U] in
theorem lintegral_backSim {Z : Type} [MeasurableSpace Z] (ν : Measure Z) (logB : U → U → V → ℝ → ℝ) :
    ∀ (l : List ((Fin N → U) × V × ℝ)) (u : U) (G : Z → List U → ℝ≥0∞),
      (∀ us, us.length = l.length → Measurable fun z => G z us) →
      ∫⁻ z, backSim logB u l (G z) ∂ν = backSim logB u l fun us => ∫⁻ z, G z us ∂ν
  | [], _, G, h => rfl
  | (xs, v, t) :: l, u, G, h => by
    have hm : ∀ i, Measurable fun z => backSim logB (xs i) l (fun us => G z (xs i :: us)) := fun i =>
      measurable_backSim logB l (xs i) (fun z us => G z (xs i :: us)) fun us hu => h _ (by simp [hu])
    simp only [backSim]
    rw [lintegral_finsetSum _ fun i _ => (hm i).const_mul _]
    refine Finset.sum_congr rfl fun i _ => ?_
    rw [lintegral_const_mul _ (hm i), lintegral_backSim ν logB l (xs i) (fun z us => G z (xs i :: us))
      fun us hu => h _ (by simp [hu])]

omit [MeasurableSpace U] in
theorem backSim_mul (logB : U → U → V → ℝ → ℝ) (c : ℝ≥0∞) :
    ∀ (l : List ((Fin N → U) × V × ℝ)) (u : U) (G : List U → ℝ≥0∞),
      backSim logB u l (fun us => c * G us) = c * backSim logB u l G
  | [], _, G => rfl
  | (xs, v, t) :: l, u, G => by
    simp only [backSim, backSim_mul logB c l, Finset.mul_sum]
    exact Finset.sum_congr rfl fun i _ => by ring

omit [MeasurableSpace U] in
theorem backSim_congr (logB : U → U → V → ℝ → ℝ) {G G' : List U → ℝ≥0∞} : ∀ (l : List ((Fin N → U) × V × ℝ)) (u : U),
      (∀ us, G us = G' us) → backSim logB u l G = backSim logB u l G' := by
  intro l u h
  rw [funext h]

/-- The exchange at the heart of the smoother: a transition from a weighted particle, followed by a backward step with the
smoothing weights, is a transition from the particle itself. -/
theorem backward_exchange [NeZero N] {μ : Measure U} {M : Kernel U U} {g b : U → ℝ} {d : U → U → ℝ} (hb : Measurable b)
    (hd : ∀ u, Measurable (d u)) (hM : ∀ u, M u = μ.withDensity fun u' => ENNReal.ofReal (Real.exp (d u u')))
    (x : Fin N → U) {H : Fin N → U → ℝ≥0∞} (hH : ∀ i, Measurable (H i)) :
    ∑ i, ENNReal.ofReal (Real.exp (g (x i))) * ∫⁻ y, ∑ l, ENNReal.ofReal
        (Real.exp (b y + g (x l) + d (x l) y) / ∑ j, Real.exp (b y + g (x j) + d (x j) y)) * H l y ∂(M (x i)) =
      ∑ l, ENNReal.ofReal (Real.exp (g (x l))) * ∫⁻ y, H l y ∂(M (x l)) := by
  have hed : ∀ i, Measurable fun y => ENNReal.ofReal (Real.exp (d (x i) y)) := fun i =>
    ENNReal.measurable_ofReal.comp (Real.measurable_exp.comp (hd _))
  have hw : ∀ l, Measurable fun y => ENNReal.ofReal
      (Real.exp (b y + g (x l) + d (x l) y) / ∑ j, Real.exp (b y + g (x j) + d (x j) y)) := fun l => by
    refine ENNReal.measurable_ofReal.comp (Measurable.div ?_ (Finset.measurable_fun_sum _ fun j _ => ?_)) <;>
      exact Real.measurable_exp.comp ((hb.add_const _).add (hd _))
  have hsum : Measurable fun y => ∑ l, ENNReal.ofReal
        (Real.exp (b y + g (x l) + d (x l) y) / ∑ j, Real.exp (b y + g (x j) + d (x j) y)) * H l y :=
    Finset.measurable_fun_sum _ fun l _ => (hw l).mul (hH l)
  have h1 : ∀ i, ∀ F : U → ℝ≥0∞, Measurable F → ENNReal.ofReal (Real.exp (g (x i))) * ∫⁻ y, F y ∂(M (x i)) =
      ∫⁻ y, ENNReal.ofReal (Real.exp (g (x i) + d (x i) y)) * F y ∂μ := fun i F hF => by
    rw [hM, lintegral_withDensity_eq_lintegral_mul _ (hed i) hF, ← lintegral_const_mul _ ((hed i).mul hF)]
    refine lintegral_congr fun y => ?_
    rw [Real.exp_add, ENNReal.ofReal_mul (Real.exp_pos _).le, Pi.mul_apply, mul_assoc]
  have hE : ∀ i, Measurable fun y => ENNReal.ofReal (Real.exp (g (x i) + d (x i) y)) := fun i =>
    ENNReal.measurable_ofReal.comp (Real.measurable_exp.comp ((hd _).const_add _))
  rw [Finset.sum_congr rfl fun i _ => h1 i _ hsum, Finset.sum_congr rfl fun i _ => h1 i _ (hH i),
    ← lintegral_finsetSum (μ := μ) Finset.univ (f := fun i y => ENNReal.ofReal (Real.exp (g (x i) + d (x i) y)) *
      ∑ l, ENNReal.ofReal (Real.exp (b y + g (x l) + d (x l) y) / ∑ j, Real.exp (b y + g (x j) + d (x j) y)) * H l y)
      fun i _ => (hE i).mul hsum,
    ← lintegral_finsetSum (μ := μ) Finset.univ (f := fun i y => ENNReal.ofReal (Real.exp (g (x i) + d (x i) y)) * H i y)
      fun i _ => (hE i).mul (hH i)]
  refine lintegral_congr fun y => ?_
  rw [← Finset.sum_mul, Finset.mul_sum]
  refine Finset.sum_congr rfl fun l _ => ?_
  rw [← mul_assoc]
  congr 1
  have hpos : 0 < ∑ j, Real.exp (g (x j) + d (x j) y) :=
    Finset.sum_pos (fun j _ => Real.exp_pos _) ⟨0, Finset.mem_univ _⟩
  have e : ∀ j, Real.exp (b y + g (x j) + d (x j) y) = Real.exp (b y) * Real.exp (g (x j) + d (x j) y) := fun j => by
    rw [← Real.exp_add, add_assoc]
  simp only [e, ← Finset.mul_sum]
  rw [← ENNReal.ofReal_sum_of_nonneg fun j _ => (Real.exp_pos _).le, ← ENNReal.ofReal_mul hpos.le,
    mul_div_mul_left _ _ (Real.exp_pos _).ne', mul_div_cancel₀ _ hpos.ne']

theorem measApp_of_measList {n h : ℕ} {φ : List U → ℝ≥0∞} (hφ : MeasList (h + n) φ) {us : List U} (hu : us.length = h) :
    Measurable fun p : ℕ → U => φ (us ++ (List.range n).map p) := by
  have hm : Measurable fun (p : ℕ → U) (i : Fin (h + n)) => if hi : (i : ℕ) < us.length then us[(i : ℕ)] else p (i - us.length) := by
    refine measurable_pi_iff.2 fun i => ?_
    by_cases hi : (i : ℕ) < us.length
    · simp only [hi, dif_pos]
      exact measurable_const
    · simp only [hi, dif_neg, not_false_eq_true]
      exact measurable_pi_apply _
  have := hφ.comp hm
  convert this using 1
  funext p
  refine congrArg φ (List.ext_getElem (by simp [hu]) fun i h1 h2 => ?_)
  rw [List.getElem_append]
  simp

theorem measurable_future {ss : List (FKStep U)} {n : ℕ} (hl : ss.length = n) {φ : List U → ℝ≥0∞} {us : List U}
    (hφ : Measurable fun p : ℕ → U => φ (us ++ (List.range (n + 1)).map p)) :
    Measurable fun y => pathInt ss y (fun p => φ (us ++ y :: p)) := by
  refine measurable_pathInt_param ss (fun y p => φ (us ++ y :: p)) ?_ id measurable_id
  have hm : Measurable fun q : U × (ℕ → U) => ((fun j => Nat.casesOn j q.1 q.2) : ℕ → U) :=
    measurable_seqCons measurable_fst measurable_snd
  have := hφ.comp hm
  convert this using 1
  funext q
  simp only [Function.comp_apply, range_map_succ, hl]
  rfl

theorem E_filter_backFrom [NeZero N] {m : Smc.Funs N U V} {S : StateSpace U V} {v0 : V}
    (hm : SmcImplements m S v0) {res : Smc.Resampling N} (hres : UnbiasedSums res) {μ : Measure U}
    {logB : U → U → V → ℝ → ℝ} {φ : List U → ℝ≥0∞} :
    ∀ (vs : List V) (ts : List ℝ) (ks : List Key) (v : V) (t : ℝ) (x : Fin N → U) (l : ℝ)
      (hist : List ((Fin N → U) × V × ℝ)), ts.length = vs.length → ks.length = vs.length →
      SmoothingWeights S μ logB v vs (t :: ts) →
      (∀ us : List U, us.length = hist.length → Measurable fun p : ℕ → U => φ (us ++ (List.range (vs.length + 1)).map p)) →
      (Rand.scan (filterBody m res id) (x, l) (Smc.scanInputs (v, vs) (t, ts) ks)).E
        (fun r => ENNReal.ofReal (Real.exp (-r.1.2)) * backFrom logB hist x r.2 (v :: vs) (t :: ts) φ)
      = ENNReal.ofReal (Real.exp (-l)) * ((N : ℝ≥0∞)⁻¹ * ∑ i, backSim logB (x i) hist fun us =>
          pathInt (S.steps v vs (t :: ts)) (x i) (fun p => φ (us.reverse ++ x i :: p)))
  | [], ts, ks, v, t, x, l, hist, _, _, _, _ => rfl
  | v' :: vs, t' :: ts, k :: ks, v, t, x, l, hist, ht, hk, hB, hφ => by
    obtain ⟨⟨b, d, hb, hd, hM, hlog⟩, hB'⟩ := hB
    have ht' : ts.length = vs.length := by simpa using ht
    have hlen := steps_length S vs ts v' ht' t'
    have hφ' : ∀ us : List U, us.length = hist.length + 1 →
        Measurable fun p : ℕ → U => φ (us ++ (List.range (vs.length + 1)).map p) := by
      intro us hu
      obtain ⟨us', u, rfl⟩ : ∃ us' u, us = us' ++ [u] :=
        ⟨us.dropLast, us.getLast (by rintro rfl; simp at hu), (List.dropLast_append_getLast _).symm⟩
      have h1 := hφ us' (by simpa using hu)
      have hm : Measurable fun q : ℕ → U => ((fun j => Nat.casesOn j u q) : ℕ → U) :=
        measurable_seqCons measurable_const measurable_id
      have := h1.comp hm
      convert this using 1
      funext q
      simp only [Function.comp_apply, List.length_cons, range_map_succ, List.append_assoc, List.singleton_append]
      rfl
    have hG : ∀ us : List U, us.length = hist.length + 1 → Measurable fun y =>
        pathInt (S.steps v' vs (t' :: ts)) y (fun p => φ (us.reverse ++ y :: p)) := fun us hu =>
      measurable_future hlen (hφ' us.reverse (by simpa using hu))
    have hH : ∀ i, Measurable fun y => backSim logB (x i) hist fun us =>
        pathInt (S.steps v' vs (t' :: ts)) y (fun p => φ ((x i :: us).reverse ++ y :: p)) := fun i =>
      measurable_backSim logB hist (x i) (fun y us =>
        pathInt (S.steps v' vs (t' :: ts)) y (fun p => φ ((x i :: us).reverse ++ y :: p))) fun us hu => hG _ (by simp [hu])
    have hΨ : Measurable fun y => backSim logB y ((x, v, t) :: hist) fun us =>
        pathInt (S.steps v' vs (t' :: ts)) y (fun p => φ (us.reverse ++ y :: p)) := by
      simp only [backSim, hlog]
      refine Finset.measurable_fun_sum _ fun i _ => Measurable.mul ?_ (hH i)
      refine ENNReal.measurable_ofReal.comp (Measurable.div ?_ (Finset.measurable_fun_sum _ fun j _ => ?_)) <;>
        exact Real.measurable_exp.comp ((hb.add_const _).add (hd _))
    rw [smc_scanInputs_cons, E_scan_cons]
    have e : ∀ (r : ((Fin N → U) × ℝ) × List (Fin N → U)) (y : Fin N → U),
        backFrom logB hist x (y :: r.2) (v :: v' :: vs) (t :: t' :: ts) φ =
        backFrom logB ((x, v, t) :: hist) y r.2 (v' :: vs) (t' :: ts) φ := fun r y => rfl
    have emit : ∀ F : ((Fin N → U) × ℝ) × (Fin N → U) → ℝ≥0∞, (filterBody m res id (x, l) (v', v, t, k)).E F =
        (filterBody m res id (x, l) (v', v, t, k)).E fun r => F (r.1, r.1.1) := fun F => by
      simp only [filterBody, Rand.E_bind, Rand.pure_eq, Rand.E_ret, id]
    simp only [e]
    rw [emit]
    have ih : ∀ y l', _ := fun y l' => E_filter_backFrom hm hres vs ts ks v' t' y l' ((x, v, t) :: hist) ht'
      (by simpa using hk) hB' (φ := φ) (by simpa using hφ')
    have ih' : ∀ r : ((Fin N → U) × ℝ) × (Fin N → U), _ := fun r => ih r.1.1 r.1.2
    simp only [Prod.mk.eta] at ih'
    simp only [ih']
    rw [E_filterBody hm hres id hΨ]
    congr 2
    simp only [backSim, hlog]
    rw [backward_exchange (μ := μ) (M := S.trans v t) hb hd hM x hH]
    refine Finset.sum_congr rfl fun i _ => ?_
    rw [lintegral_backSim _ logB hist (x i) (fun y us =>
        pathInt (S.steps v' vs (t' :: ts)) y (fun p => φ ((x i :: us).reverse ++ y :: p))) fun us hu => hG _ (by simp [hu]),
      ← backSim_mul]
    refine backSim_congr logB _ _ fun us => ?_
    simp only [StateSpace.steps, pathInt, List.reverse_cons, List.append_assoc, List.singleton_append]
  | v' :: vs, [], ks, v, t, x, l, hist, ht, _, _, _ => by simp at ht
  | v' :: vs, _ :: _, [], v, t, x, l, hist, _, hk, _, _ => by simp at hk

omit [MeasurableSpace U] in
/-- A scan returns one output per input. -/
theorem leaves_rows {σ ι ο : Type} (body : σ → ι → Rand (σ × ο)) :
    ∀ (is : List ι) (s : σ), (Rand.scan body s is).Leaves fun r => r.2.length = is.length
  | [], s => by simp [Rand.scan, Rand.Leaves]
  | i :: is, s => by
    refine (Rand.leaves_true _).bind fun r _ => (leaves_rows body is r.1).bind fun rs hrs => ?_
    simp [Rand.Leaves, hrs]

/-- The rows of a filter that returns all times. -/
def allRows : FilterOut N U → Arr1 (Fin N → U)
  | .path uss _ => uss
  | .last us _ => (us, [])

/-- **C80, backward steps with the smoothing weights.**  Weighted by the likelihood estimate of the filter, the path
returned by `bootstrap_backward_smoother` is an unbiased draw from the smoothing law of the whole path, for every
number of particles and every unbiased resampling — provided that the function handed over as `transition_logpdf` is the
log density of the transition *plus the log likelihood of the next observation*. -/
theorem C80_smoothing_weights [NeZero N] {m : Smc.Funs N U V} {S : StateSpace U V} {res : Smc.Resampling N}
    (vs : Arr1 V) (ts : Arr1 ℝ) (hm : SmcImplements m S vs.1) (hres : UnbiasedSums res)
    (ht : ts.2.length = vs.2.length) {μ : Measure U} {logB : U → U → V → ℝ → ℝ}
    (hB : SmoothingWeights S μ logB vs.1 vs.2 ts.toList) (key key' : Key) (log : Bool) {φ : List U → ℝ≥0∞}
    (hφ : MeasList (vs.2.length + 1) φ) :
    (bootstrapFilter m res vs ts key log false).E (fun out => ENNReal.ofReal (Real.exp (-out.nell)) *
        (backwardSmoother key' (allRows out) vs ts fun u xs v t i => logB u (xs i) v t).E φ) = S.smoothInt vs ts φ := by
  have hmap : ∀ us : List U, us.length = 0 → Measurable fun p : ℕ → U => φ (us ++ (List.range (vs.2.length + 1)).map p) :=
    fun us hu => measApp_of_measList (by rw [Nat.zero_add]; exact hφ) hu
  have hlen := steps_length S vs.2 ts.2 vs.1 ht ts.1
  have hmeas : Measurable fun u => pathInt (S.steps vs.1 vs.2 (ts.1 :: ts.2)) u (fun l => φ (u :: l)) := by
    simpa using measurable_future hlen (hmap [] rfl)
  -- every run returns one row per time
  have hrows : ∀ (x : Fin N → U), (Rand.scan (filterBody m res id) (x, 0)
      (scanInputs vs ts (splitAll (split key 2 1) vs.2.length))).E (fun r => ENNReal.ofReal (Real.exp (-r.1.2)) *
        (backwardSmoother key' (x, r.2) vs ts fun u xs v t i => logB u (xs i) v t).E φ) =
      (N : ℝ≥0∞)⁻¹ * ∑ i, pathInt (S.steps vs.1 vs.2 (ts.1 :: ts.2)) (x i) (fun l => φ (x i :: l)) := by
    intro x
    have h := E_filter_backFrom hm hres (logB := logB) (φ := φ) vs.2 ts.2 (splitAll (split key 2 1) vs.2.length)
      vs.1 ts.1 x 0 [] ht (by simp [splitAll]) hB (by simpa using hmap)
    simp only [Prod.mk.eta, backSim, List.reverse_nil, List.nil_append, neg_zero, Real.exp_zero, ENNReal.ofReal_one,
      one_mul] at h
    rw [← h]
    refine Rand.E_congr_leaves (leaves_rows _ _ _) fun r hr => ?_
    have hr' : r.2.length = vs.2.length := by
      rw [hr, Smc.scanInputs]
      simp [Arr1.init, splitAll, ht]
    rw [E_smoother_backFrom key' (x, r.2) vs ts hr'.symm (ht.trans hr'.symm) logB φ]
    rfl
  simp only [bootstrapFilter, Bool.false_eq_true, if_false, Rand.E_bind, Rand.pure_eq, Rand.E_ret, FilterOut.nell, allRows]
  simp only [hrows]
  rw [hm.init, lintegral_init_avg S.init hmeas]
  · rfl
  · exact (Finset.measurable_fun_sum _ fun i _ => hmeas.comp (measurable_pi_apply i)).const_mul _

/-- **C80, backward steps with the transition density (partial).**  With the log density of the transition alone, as the
smoother is documented and called, the same holds if the likelihood does not depend on the state. -/
theorem C80_transition_density_partial [NeZero N] {m : Smc.Funs N U V} {S : StateSpace U V} {res : Smc.Resampling N}
    (vs : Arr1 V) (ts : Arr1 ℝ) (hm : SmcImplements m S vs.1) (hres : UnbiasedSums res)
    (ht : ts.2.length = vs.2.length) {μ : Measure U} {logM : U → U → V → ℝ → ℝ}
    (hM : ∀ v t u, S.trans v t u = μ.withDensity fun u' => ENNReal.ofReal (Real.exp (logM u' u v t)))
    (hmeas : ∀ v t u, Measurable fun u' => logM u' u v t) (hG : ∀ v' v t u u', S.logG v' v t u = S.logG v' v t u')
    (key key' : Key) (log : Bool) {φ : List U → ℝ≥0∞} (hφ : MeasList (vs.2.length + 1) φ) :
    (bootstrapFilter m res vs ts key log false).E (fun out => ENNReal.ofReal (Real.exp (-out.nell)) *
        (backwardSmoother key' (allRows out) vs ts fun u xs v t i => logM u (xs i) v t).E φ) = S.smoothInt vs ts φ := by
  refine C80_smoothing_weights (μ := μ) vs ts hm hres ht ?_ key key' log hφ
  rcases isEmpty_or_nonempty U with hU | ⟨⟨u₀⟩⟩
  · have h := S.prob.measure_univ
    rw [Measure.eq_zero_of_isEmpty S.init] at h
    simp at h
  · generalize ts.toList = l
    have : ∀ (ws : List V) (v : V) (l : List ℝ), SmoothingWeights S μ logM v ws l := by
      intro ws
      induction ws with
      | nil => intro v l; trivial
      | cons w ws ih =>
        intro v l
        cases l with
        | nil => trivial
        | cons t l =>
          refine ⟨⟨fun _ => -S.logG w v t u₀, fun u u' => logM u' u v t, measurable_const, fun u => hmeas v t u, hM v t,
            fun u u' => ?_⟩, ih w l⟩
          rw [hG w v t u u₀]
          ring
    exact this _ _ _

/-! ### The smoother does not target the smoothing law -/

/-- A fair coin. -/
noncomputable def fairCoin : Measure Bool := (2 : ℝ≥0∞)⁻¹ • (Measure.dirac true + Measure.dirac false)

instance : IsProbabilityMeasure fairCoin := ⟨by simp [fairCoin, ENNReal.inv_two_add_inv_two]⟩

/-- A fair coin tossed anew at every time; the observation after heads has likelihood 3, after tails 1. -/
noncomputable def tailsSpace : StateSpace Bool ℝ where
  init := fairCoin
  prob := inferInstance
  trans _ _ := Kernel.const Bool fairCoin
  markov _ _ := inferInstance
  logG _ _ _ u := if u then Real.log 3 else 0
  measG _ _ _ := measurable_of_finite _
  logG0 _ _ _ := 0
  measG0 _ _ := measurable_const

theorem lintegral_fairCoin (f : Bool → ℝ≥0∞) : ∫⁻ u, f u ∂fairCoin = 2⁻¹ * (f true + f false) := by
  simp [fairCoin, mul_add]

/-- The first state of a path is tails. -/
noncomputable def firstTails (us : List Bool) : ℝ≥0∞ := if us.head? = some false then 1 else 0

/-- **C80, what fails.**  Called with the log density of the transition, the smoother omits the likelihood of the next
observation.  In a model with two times whose first state is tails with smoothing probability 1/4, the smoothed path
starts with tails with probability 1/2, however many particles there are and whichever unbiased resampling is used. -/
theorem C80_not_smoothing [NeZero N] {res : Smc.Resampling N} (hres : UnbiasedSums res) (v v' t t' : ℝ) (key key' : Key)
    (log : Bool) :
    (∀ v t u, tailsSpace.trans v t u = Measure.count.withDensity fun _ => ENNReal.ofReal (Real.exp (Real.log (1 / 2)))) ∧
    tailsSpace.smoothInt (v, [v']) (t, [t']) firstTails
      = 4⁻¹ * tailsSpace.smoothInt (v, [v']) (t, [t']) (fun _ => 1) ∧
    (bootstrapFilter (smcFuns tailsSpace N) res (v, [v']) (t, [t']) key log false).E (fun out =>
      (backwardSmoother key' (allRows out) (v, [v']) (t, [t']) fun _ _ _ _ _ => Real.log (1 / 2)).E firstTails) = 2⁻¹ := by
  have h3 : ENNReal.ofReal (Real.exp (Real.log 3)) = 3 := by rw [Real.exp_log (by norm_num)]; simp
  have hhalf : ENNReal.ofReal (Real.exp (Real.log (1 / 2))) = 2⁻¹ := by
    rw [Real.exp_log (by norm_num), one_div, ENNReal.ofReal_inv_of_pos (by norm_num)]; simp
  refine ⟨fun v t u => ?_, ?_, ?_⟩
  · refine Measure.ext_of_lintegral _ fun f hf => ?_
    rw [lintegral_withDensity_eq_lintegral_mul _ measurable_const hf, lintegral_count, tsum_fintype]
    simp only [Pi.mul_apply, hhalf, Fintype.sum_bool]
    show ∫⁻ u, f u ∂fairCoin = _
    rw [lintegral_fairCoin, mul_add]
  · simp only [StateSpace.smoothInt, tailsSpace, Arr1.toList, StateSpace.steps, pathInt, Kernel.const_apply,
      lintegral_fairCoin, firstTails]
    have h4 : (4 : ℝ≥0∞) = 2 * 2 := by norm_num
    have h2 : (2 : ℝ≥0∞)⁻¹ * 2 = 1 := ENNReal.inv_mul_cancel (by simp) (by simp)
    simp [h3, one_add_one_eq_two, h2]
    rw [show (3 : ℝ≥0∞) + 1 = 4 by norm_num, mul_left_comm, ENNReal.inv_mul_cancel (by simp) (by simp), mul_one]
  · simp only [bootstrapFilter, Bool.false_eq_true, if_false, Rand.E_bind, Rand.pure_eq, Rand.E_ret, allRows]
    have h1 : ∀ (x y : Fin N → Bool), (backwardSmoother key' (x, [y]) (v, [v']) (t, [t']) fun _ _ _ _ _ => Real.log (1 / 2)).E
        firstTails = (N : ℝ≥0∞)⁻¹ * ∑ i, if x i then 0 else 1 := by
      intro x y
      have h := E_smoother_backFrom key' (x, [y]) (v, [v']) (t, [t']) rfl rfl (fun _ _ _ _ => Real.log (1 / 2)) firstTails
      rw [h]
      simp only [Arr1.toList, backFrom, backSim]
      have hN : (N : ℝ) ≠ 0 := by simp [NeZero.ne N]
      have hw : ENNReal.ofReal (Real.exp (Real.log (1 / 2)) / ∑ _x : Fin N, Real.exp (Real.log (1 / 2))) = (N : ℝ≥0∞)⁻¹ := by
        rw [Finset.sum_const, Finset.card_univ, Fintype.card_fin, nsmul_eq_mul, Real.exp_log (by norm_num)]
        rw [show (1 / 2 : ℝ) / (N * (1 / 2)) = (N : ℝ)⁻¹ by field_simp,
          ENNReal.ofReal_inv_of_pos (by positivity), ENNReal.ofReal_natCast]
      have hf : ∀ j i, firstTails ([x j].reverse ++ [y i]) = if x j then 0 else 1 := fun j i => by
        cases h : x j <;> simp [firstTails]
      simp only [hw, hf, ← Finset.mul_sum]
      rw [Finset.sum_const, Finset.card_univ, Fintype.card_fin, nsmul_eq_mul, ← mul_assoc (N : ℝ≥0∞)⁻¹ (N : ℝ≥0∞),
        ENNReal.inv_mul_cancel (by simp [NeZero.ne N]) (by simp), one_mul]
    have h2 : ∀ x : Fin N → Bool, (Rand.scan (filterBody (smcFuns tailsSpace N) res id) (x, 0)
        (Smc.scanInputs (v, [v']) (t, [t']) (splitAll (split key 2 1) [v'].length))).E (fun r =>
          (backwardSmoother key' (x, r.2) (v, [v']) (t, [t']) fun _ _ _ _ _ => Real.log (1 / 2)).E firstTails) =
        (N : ℝ≥0∞)⁻¹ * ∑ i, if x i then 0 else 1 := by
      intro x
      have hc : (N : ℝ≥0∞)⁻¹ * ∑ i, (if x i then 0 else 1 : ℝ≥0∞) ≠ ∞ := by
        refine ENNReal.mul_ne_top (by simp [NeZero.ne N]) (ENNReal.sum_ne_top.2 fun i _ => ?_)
        split_ifs <;> simp
      show (Rand.scan _ _ [(v', v, t, split (split key 2 1) 1 0)]).E _ = _
      rw [E_scan_cons]
      simp only [Rand.scan, Rand.pure_eq, Rand.E_ret, h1]
      have h := Rand.E_const_mul (filterBody (smcFuns tailsSpace N) res id (x, 0) (v', v, t, split (split key 2 1) 1 0)) hc
        fun _ => 1
      simp only [mul_one] at h
      rw [h]
      simp only [filterBody, Rand.E_bind, Rand.pure_eq, Rand.E_ret]
      have hw := E_res_one hres (normalise_weights ((smcFuns tailsSpace N).lik v' x v t)) (split (split (split key 2 1) 1 0) 2 1)
      simp only [smcFuns, Rand.E_sample, lintegral_const, measure_univ, mul_one]
      exact (congrArg _ hw).trans (mul_one _)
    simp only [h2]
    have h3 := lintegral_init_avg (N := N) fairCoin (h := fun u => if u then 0 else 1) (measurable_of_finite _)
    rw [lintegral_fairCoin] at h3
    refine (Eq.trans ?_ h3).trans (by simp)
    rfl

/-! ### The start of the Gibbs chains -/

section GibbsInit

variable {U V : Type} [NeZero N] {m : Smc.Funs N U V} {fwdYs : Key → Rand (Arr1 V)} {ts : Arr1 ℝ}

/-- **C80, `gibbs_init`, values.**  `gibbs_init` returns particle 0 of the last time of a filter run along the reversed
path, a trajectory whose states are particles of that run at their times, and as many zero indices as there are
times. -/
theorem C80_gibbs_init (tl : U → (Fin N → U) → V → ℝ → (Fin N → ℝ))
    (hf : ∀ k vs, (fwdYs k).Returns vs → vs.2.length = ts.2.length) (key : Key) {x0 : U} {us : List U} {bs : List (Fin N)}
    (h : (Chains.gibbsInit m tl fwdYs ts key).Returns (x0, us, bs)) :
    ∃ path uss nell, (fwdYs (split key 3 0)).Returns path ∧
      (bootstrapFilter m Resampling.stratified path.reverse ts (split key 3 2) true false).Returns (.path uss nell) ∧
      x0 = uss.toList.getLast (by simp [Arr1.toList]) 0 ∧
      (backwardSmoother (split key 3 1) uss path.reverse ts tl).Returns us ∧
      us.length = ts.toList.length ∧ List.Forall₂ (fun u xs => ∃ i, u = xs i) us uss.toList ∧
      bs.length = ts.toList.length ∧ ∀ b ∈ bs, b = 0 := by
  simp only [Chains.gibbsInit, Rand.returns_bind, Rand.pure_eq, Rand.returns_ret] at h
  obtain ⟨path, hp, out, ho, us', hu, he⟩ := h
  obtain ⟨rfl, rfl, rfl⟩ := by simpa using he
  have hl := hf _ _ hp
  have hrl : path.reverse.2.length = ts.2.length := by rw [arr1_reverse_len, hl]
  obtain ⟨uss, nell, rfl, hu', -⟩ := C19_rows _ _ _ _ _ _ hrl.symm ho
  have hlen : uss.2.length = ts.2.length := by
    have : uss.2.length + 1 = path.reverse.2.length + 1 := by rw [← hu']; simp [Arr1.toList]
    omega
  obtain ⟨h1, h2⟩ := C25_particles _ _ _ _ _ (hrl.trans hlen.symm) hlen.symm _ hu
  exact ⟨path, uss, nell, hp, ho, rfl, hu, by simp [h1, hlen, Arr1.toList], h2, by simp [Arr1.toList], by simp⟩

/-- **C80, `gibbs_init`, law.**  The observations are drawn first, the filter runs along their reverse, and the
trajectory is simulated backward through its particles along the same reversed observations. -/
theorem C80_gibbs_init_law (logM : U → U → V → ℝ → ℝ)
    (hf : ∀ k, (fwdYs k).Leaves fun vs => vs.2.length = ts.2.length) (key : Key)
    (f : U × List U × List (Fin N) → ℝ≥0∞) :
    (Chains.gibbsInit m (fun u xs v t i => logM u (xs i) v t) fwdYs ts key).E f =
      (fwdYs (split key 3 0)).E fun path =>
        (bootstrapFilter m Resampling.stratified path.reverse ts (split key 3 2) true false).E fun out =>
          (N : ℝ≥0∞)⁻¹ * ∑ i, backSim logM ((allRows out).toList.getLast (by simp [Arr1.toList]) i)
            ((allRows out).toList.dropLast.zip (path.toList.reverse.dropLast.zip ts.toList.dropLast)).reverse
            fun us => f ((allRows out).toList.getLast (by simp [Arr1.toList]) 0,
              us.reverse ++ [(allRows out).toList.getLast (by simp [Arr1.toList]) i],
              ts.toList.map fun _ => (0 : Fin N)) := by
  simp only [Chains.gibbsInit, Rand.E_bind, Rand.pure_eq, Rand.E_ret]
  refine Rand.E_congr_leaves (hf _) fun path hp => ?_
  have hrl : path.reverse.2.length = ts.2.length := by rw [arr1_reverse_len, hp]
  have hleaf : (bootstrapFilter m Resampling.stratified path.reverse ts (split key 3 2) true false).Leaves
      fun out => (allRows out).2.length = ts.2.length := by
    refine (Rand.leaves_true _).bind fun x _ => (leaves_rows _ _ _).bind fun r hr => ?_
    show r.2.length = _
    rw [hr, Smc.scanInputs]
    simp [Arr1.init, splitAll, hrl]
  refine Rand.E_congr_leaves hleaf fun out ho => ?_
  have h := C55_law (split key 3 1) (allRows out) path.reverse ts (hrl.trans ho.symm) ho.symm logM fun us =>
    f ((allRows out).last 0, us, List.replicate (ts.2.length + 1) 0)
  refine Eq.trans ?_ (h.trans ?_)
  · cases out <;> rfl
  · have h2 : ts.toList.map (fun _ => (0 : Fin N)) = List.replicate (ts.2.length + 1) 0 := by
      rw [List.map_const']; rfl
    have h3 : path.reverse.toList = path.toList.reverse := by
      rw [Arr1.reverse, Arr1.toList, Arr1.toList]
      conv_rhs => rw [← List.cons_head_tail (l := (path.1 :: path.2).reverse) (by simp)]
      rw [List.head_reverse]
      rfl
    rw [h2, h3]
    rfl

/-- **C80, `gibbs_init`, keys.**  All draws but the first of the smoother consume pairwise independent keys; the first draw
of the smoother consumes a key independent of those of the forward path and the filter. -/
theorem C80_gibbs_init_keys (tl : U → (Fin N → U) → V → ℝ → (Fin N → ℝ)) (hm : SmcKeyed m)
    (hf : ∀ k, Rand.Consumes {k} (fwdYs k)) (key : Key) {ks : List Key} {r : U × List U × List (Fin N)}
    (h : (Chains.gibbsInit m tl fwdYs ts key).Runs ks r) :
    ∃ ks₁ ks₂ k, ks = ks₁ ++ k :: ks₂ ∧ (ks₁ ++ ks₂).Pairwise (fun k k' => k ≠ k' ∧ ¬ k <+: k' ∧ ¬ k' <+: k) ∧
      ∀ k' ∈ ks₁, k' ≠ k ∧ ¬ k' <+: k ∧ ¬ k <+: k' := by
  obtain ⟨ka, path, kb, rfl, h1, h⟩ := Rand.runs_bind.1 h
  obtain ⟨kc, out, kd, rfl, h2, h⟩ := Rand.runs_bind.1 h
  obtain ⟨ke, us, kf, rfl, h3, h⟩ := Rand.runs_bind.1 h
  obtain ⟨rfl, -⟩ := h
  obtain ⟨i, ks', q, rfl, hs⟩ := runs_smoother h3
  have c1 := hf _ _ _ h1
  have c2 := consumes_bootstrapFilter hm consumes_stratified _ _ _ _ _ _ _ h2
  have c3 : ks'.Pairwise Key.Indep ∧ ∀ k ∈ ks', ∃ r ∈ ({split (split key 3 1) 2 1} : Set Key), r <+: k :=
    Rand.Consumes.scan_sublist (n := _) (fun i : (Fin N → U) × V × ℝ × Key => i.2.2.2)
      (fun s i => (consumes_choice _ _).bind_pure _) _ _
      (map_zip_sublist (map_zip_sublist (zip_map_snd_sublist _ _) _) _) ks' q hs
  have hind : ∀ {k k' : Key}, Key.Indep k k' → k ≠ k' ∧ ¬ k <+: k' ∧ ¬ k' <+: k := fun hk =>
    ⟨fun he => Key.not_indep_self _ (he ▸ hk), hk.not_prefix, hk.symm.not_prefix⟩
  have p1 : ∀ k ∈ ka, split key 3 0 <+: k := fun k hk => by
    obtain ⟨r, rfl, hr⟩ := c1.2 k hk
    exact hr
  have p2 : ∀ k ∈ kc, split key 3 2 <+: k := fun k hk => by
    obtain ⟨r, rfl, hr⟩ := c2.2 k hk
    exact hr
  have p3 : ∀ k ∈ ks', split key 3 1 <+: k := fun k hk => by
    obtain ⟨r, rfl, hr⟩ := c3.2 k hk
    exact List.IsPrefix.trans ⟨_, rfl⟩ hr
  have i02 := Key.indep_split key 3 (i := 0) (j := 2) (by omega)
  have i01 := Key.indep_split key 3 (i := 0) (j := 1) (by omega)
  have i21 := Key.indep_split key 3 (i := 2) (j := 1) (by omega)
  refine ⟨ka ++ kc, ks', split key 3 1, by simp, ?_, fun k hk => ?_⟩
  · refine (List.pairwise_append.2 ⟨List.pairwise_append.2 ⟨c1.1, c2.1, fun x hx y hy =>
      Rand.indep_of_prefix i02 (p1 x hx) (p2 y hy)⟩, c3.1, fun x hx y hy => ?_⟩).imp hind
    rcases List.mem_append.1 hx with hx | hx
    · exact Rand.indep_of_prefix i01 (p1 x hx) (p3 y hy)
    · exact Rand.indep_of_prefix i21 (p2 x hx) (p3 y hy)
  · rcases List.mem_append.1 hk with hk | hk
    · exact hind (Rand.indep_of_prefix i01 (p1 k hk) (List.prefix_refl _))
    · exact hind (Rand.indep_of_prefix i21 (p2 k hk) (List.prefix_refl _))

end GibbsInit

/-! ### The hypotheses can be met -/

/-- The log probability that a sticky coin moves from `u` to `u'`. -/
noncomputable def stickyLog (u' u : Bool) : ℝ := if u' = u then Real.log (3 / 4) else Real.log (1 / 4)

/-- A coin which keeps its side with probability 3/4, and the log likelihood `g` of the next observation. -/
noncomputable def stickySpace (g : ℝ → Bool → ℝ) : StateSpace Bool ℝ where
  init := fairCoin
  prob := inferInstance
  trans _ _ := ⟨fun u => Measure.count.withDensity fun u' => ENNReal.ofReal (Real.exp (stickyLog u' u)), measurable_of_finite _⟩
  markov _ _ := ⟨fun u => ⟨by
    show (Measure.count.withDensity fun u' => ENNReal.ofReal (Real.exp (stickyLog u' u))) Set.univ = 1
    rw [withDensity_apply _ MeasurableSet.univ, Measure.restrict_univ, lintegral_count, tsum_fintype, Fintype.sum_bool,
      ← ENNReal.ofReal_add (Real.exp_pos _).le (Real.exp_pos _).le]
    cases u <;> simp only [stickyLog, Bool.true_eq_false, Bool.false_eq_true, if_true, if_false]
    all_goals
      rw [Real.exp_log (by norm_num), Real.exp_log (by norm_num)]
      norm_num⟩⟩
  logG v _ _ u := g v u
  measG _ _ _ := measurable_of_finite _
  logG0 _ _ _ := 0
  measG0 _ _ := measurable_const

theorem measList_of_finite (n : ℕ) (φ : List Bool → ℝ≥0∞) : MeasList n φ := measurable_of_finite _

/-- Three particles, two steps; the next observation is read off the time. -/
example (g : ℝ → Bool → ℝ) (key key' : Key) (φ : List Bool → ℝ≥0∞) :
    (bootstrapFilter (smcFuns (stickySpace g) 3) Resampling.systematic (5, [6, 7]) (0, [1, 2]) key true false).E
      (fun out => ENNReal.ofReal (Real.exp (-out.nell)) * (backwardSmoother key' (allRows out) (5, [6, 7]) (0, [1, 2])
        fun u xs _ t i => g (t + 6) (xs i) + stickyLog u (xs i)).E φ) =
      (stickySpace g).smoothInt (5, [6, 7]) (0, [1, 2]) φ := by
  refine C80_smoothing_weights (μ := Measure.count) (logB := fun u' u _ t => g (t + 6) u + stickyLog u' u) (5, [6, 7]) (0, [1, 2])
    (implements_smcFuns (stickySpace g) 3 5) sums_systematic rfl ?_ key key' true (measList_of_finite _ φ)
  refine ⟨⟨fun _ => 0, fun u u' => stickyLog u' u, measurable_const, fun u => measurable_of_finite _, fun u => rfl,
    fun u u' => ?_⟩, ⟨fun _ => 0, fun u u' => stickyLog u' u, measurable_const, fun u => measurable_of_finite _,
    fun u => rfl, fun u u' => ?_⟩, trivial⟩
  · show g (0 + 6) u + _ = 0 + g 6 u + _
    norm_num
  · show g (1 + 6) u + _ = 0 + g 7 u + _
    norm_num

/-- With a likelihood that does not depend on the state the smoother is used as in the code. -/
example (g : ℝ → ℝ) (key key' : Key) (φ : List Bool → ℝ≥0∞) :
    (bootstrapFilter (smcFuns (stickySpace fun v _ => g v) 3) Resampling.systematic (5, [6, 7]) (0, [1, 2]) key true false).E
      (fun out => ENNReal.ofReal (Real.exp (-out.nell)) * (backwardSmoother key' (allRows out) (5, [6, 7]) (0, [1, 2])
        fun u xs _ _ i => stickyLog u (xs i)).E φ) =
      (stickySpace fun v _ => g v).smoothInt (5, [6, 7]) (0, [1, 2]) φ :=
  C80_transition_density_partial (μ := Measure.count) (logM := fun u' u _ _ => stickyLog u' u) (5, [6, 7]) (0, [1, 2])
    (implements_smcFuns (stickySpace fun v _ => g v) 3 5) sums_systematic rfl (fun _ _ _ => rfl) (fun _ _ _ => measurable_of_finite _)
    (fun _ _ _ _ _ => rfl) key key' true (measList_of_finite _ φ)

/-- Two uniform observations. -/
noncomputable def uniformPath (k : Key) : Rand (Arr1 ℝ) := (fun z : Fin 2 → ℝ => (z 0, [z 1])) <$> uniforms k 2

theorem leaves_uniformPath (k : Key) : (uniformPath k).Leaves fun vs => vs.2.length = 1 := fun _ => rfl

/-- The start of a chain of the sticky coin along two uniform observations. -/
example (g : ℝ → Bool → ℝ) (key : Key) (f : Bool × List Bool × List (Fin 2) → ℝ≥0∞) :
    (Chains.gibbsInit (smcFuns (stickySpace g) 2) (fun u xs _ _ i => stickyLog u (xs i))
        uniformPath (0, [1]) key).E f =
      (uniformPath (split key 3 0)).E fun path =>
        (bootstrapFilter (smcFuns (stickySpace g) 2) Resampling.stratified path.reverse (0, [1]) (split key 3 2) true
          false).E fun out => (2 : ℝ≥0∞)⁻¹ * ∑ i, backSim (V := ℝ) (fun u' u _ _ => stickyLog u' u)
            ((allRows out).toList.getLast (by simp [Arr1.toList]) i)
            ((allRows out).toList.dropLast.zip (path.toList.reverse.dropLast.zip [(0 : ℝ)])).reverse
            fun us => f ((allRows out).toList.getLast (by simp [Arr1.toList]) 0,
              us.reverse ++ [(allRows out).toList.getLast (by simp [Arr1.toList]) i], [0, 0]) :=
  C80_gibbs_init_law (m := smcFuns (stickySpace g) 2) (fwdYs := uniformPath) (ts := (0, [1]))
    (fun u' u _ _ => stickyLog u' u) leaves_uniformPath key f

theorem smcKeyed_smcFuns {U V : Type} [MeasurableSpace U] (S : StateSpace U V) (N : ℕ) : SmcKeyed (smcFuns S N) :=
  ⟨fun _ _ _ => Rand.consumes_sample _ _ _, fun _ _ _ _ => Rand.consumes_sample _ _ _⟩

/-- The same start: values and keys. -/
example (g : ℝ → Bool → ℝ) (key : Key) {ks : List Key} {x0 : Bool} {us : List Bool} {bs : List (Fin 2)}
    (h : (Chains.gibbsInit (smcFuns (stickySpace g) 2) (fun u xs _ _ i => stickyLog u (xs i))
        uniformPath (0, [1]) key).Runs ks (x0, us, bs)) :
    us.length = 2 ∧ bs = [0, 0] ∧
      ∃ ks₁ ks₂ k, ks = ks₁ ++ k :: ks₂ ∧ (ks₁ ++ ks₂).Pairwise (fun k k' => k ≠ k' ∧ ¬ k <+: k' ∧ ¬ k' <+: k) ∧
        ∀ k' ∈ ks₁, k' ≠ k ∧ ¬ k' <+: k ∧ ¬ k <+: k' := by
  obtain ⟨-, -, -, -, -, -, -, h1, -, h2, h3⟩ := C80_gibbs_init (ts := (0, [1])) _
    (fun k vs hv => by
      obtain ⟨z, -, rfl⟩ := Rand.returns_map.1 hv
      rfl) key ⟨ks, h⟩
  refine ⟨by simpa [Arr1.toList] using h1, ?_, C80_gibbs_init_keys _ (smcKeyed_smcFuns _ _)
    (fun k => (Rand.consumes_sample _ _ _).map _) key h⟩
  rw [show [0, 0] = List.replicate 2 (0 : Fin 2) from rfl]
  exact List.eq_replicate_iff.2 ⟨by simpa [Arr1.toList] using h2, h3⟩

end Props
end Fbs
