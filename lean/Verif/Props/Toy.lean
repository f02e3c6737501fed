import Verif.Lemmas.Toy
import Verif.Lemmas.GibbsLaw
import Verif.Props.Filters
import Verif.Props.Simulators
import Verif.Props.GibbsLaw
import Verif.Props.CsmcLaw

/-!
# C59: the filters and conditional samplers of the experiments target the Euler–Maruyama path law
-/

open MeasureTheory ProbabilityTheory
open scoped ENNReal NNReal

namespace Fbs
namespace Spec

/-- The grid `t, ts` has constant spacing `dt`, and the dispersion does not vanish on it. -/
def UniformGrid (dt : ℝ) (disp : ℝ → ℝ) : ℝ → List ℝ → Prop
  | _, [] => True
  | t, t' :: ts => t' - t = dt ∧ disp t ≠ 0 ∧ UniformGrid dt disp t' ts

end Spec

namespace Props

open Spec Jax Toy Csmc

variable {ι κ ζ : Type} [Fintype ι] [Fintype κ] [Fintype ζ] {N : ℕ}

theorem exp_linear_normLogpdf {x m s : ℝ} (hs : s ≠ 0) :
    Real.exp (Linear.normLogpdf x m s) = gaussianPDFReal m (s ^ 2).toNNReal x := by
  have h : 0 < s ^ 2 := by positivity
  rw [pdf_eq_exp h]
  unfold Linear.normLogpdf
  congr 1
  field_simp
  ring

theorem exp_sum_normLogpdf (x m : ι → ℝ) {s : ℝ} (hs : s ≠ 0) :
    Real.exp (∑ i, Linear.normLogpdf (x i) (m i) s) = Score.dens (s ^ 2).toNNReal m x := by
  rw [Real.exp_sum, Score.dens]
  exact Finset.prod_congr rfl fun i _ => exp_linear_normLogpdf hs

section Model

variable (e : ι ⊕ κ ≃ ζ) {drift : (ζ → ℝ) → ℝ → (ζ → ℝ)} (hd : ∀ t, Measurable fun z => drift z t) (disp : ℝ → ℝ) (dt : ℝ)

include hd in
omit [Fintype ι] [Fintype κ] [Fintype ζ] in
theorem measurable_stepU (t : ℝ) : Measurable fun p : (κ → ℝ) × (ι → ℝ) =>
    (fun i => p.2 i + driftU e drift p.2 p.1 t i * dt : ι → ℝ) := by
  have h : Measurable fun p : (κ → ℝ) × (ι → ℝ) => driftU e drift p.2 p.1 t :=
    (measurable_unpackU e).comp ((hd t).comp ((measurable_concat e).comp (measurable_snd.prodMk measurable_fst)))
  refine measurable_pi_iff.2 fun i => ?_
  exact ((measurable_pi_apply i).comp measurable_snd).add (((measurable_pi_apply i).comp h).mul_const _)

include hd in
omit [Fintype ι] [Fintype κ] [Fintype ζ] in
theorem measurable_stepV (t : ℝ) : Measurable fun p : (κ → ℝ) × (ι → ℝ) =>
    (fun i => p.1 i + driftV e drift p.1 p.2 t i * dt : κ → ℝ) := by
  have h : Measurable fun p : (κ → ℝ) × (ι → ℝ) => driftV e drift p.1 p.2 t :=
    (measurable_unpackV e).comp ((hd t).comp ((measurable_concat e).comp (measurable_snd.prodMk measurable_fst)))
  refine measurable_pi_iff.2 fun i => ?_
  exact ((measurable_pi_apply i).comp measurable_fst).add (((measurable_pi_apply i).comp h).mul_const _)

/-- The log density of `v` after one step from `(u, v')`. -/
noncomputable def toyLogG (e : ι ⊕ κ ≃ ζ) (drift : (ζ → ℝ) → ℝ → (ζ → ℝ)) (disp : ℝ → ℝ) (dt : ℝ) (v v' : κ → ℝ)
    (t : ℝ) (u : ι → ℝ) : ℝ :=
  ∑ i, Linear.normLogpdf (v i) (v' i + driftV e drift v' u t i * dt) (Real.sqrt dt * disp t)

include hd in
omit [Fintype ι] [Fintype ζ] in
theorem measurable_lik (t : ℝ) : Measurable fun p : (κ → ℝ) × (κ → ℝ) × (ι → ℝ) =>
    toyLogG e drift disp dt p.1 p.2.1 t p.2.2 := by
  unfold toyLogG
  refine Finset.measurable_sum _ fun i _ => ?_
  have h : Measurable fun p : (κ → ℝ) × (κ → ℝ) × (ι → ℝ) => p.2.1 i + driftV e drift p.2.1 p.2.2 t i * dt :=
    ((measurable_pi_apply i).comp (measurable_stepV e hd dt t)).comp measurable_snd
  have h' : Measurable fun p : (κ → ℝ) × (κ → ℝ) × (ι → ℝ) => p.1 i := (measurable_pi_apply i).comp measurable_fst
  unfold Linear.normLogpdf
  exact ((((h'.sub h).pow_const 2).div_const _).const_add _).neg.div_const _

include hd in
omit [Fintype ι] [Fintype ζ] in
theorem measurable_toyLogG (v v' : κ → ℝ) (t : ℝ) : Measurable (toyLogG e drift disp dt v v' t) := by
  have hm : Measurable fun u : ι → ℝ => ((v, v', u) : (κ → ℝ) × (κ → ℝ) × (ι → ℝ)) :=
    measurable_const.prodMk (measurable_const.prodMk measurable_id)
  have h := (measurable_lik e hd disp dt t).comp hm
  exact h

/-- The Euler–Maruyama discretisation of the reverse process, split into `u` and `v`. -/
noncomputable def toyModel (c : ℝ) (ref : Measure (ι → ℝ)) [hp : IsProbabilityMeasure ref] :
    StateSpace (ι → ℝ) (κ → ℝ) where
  init := ref
  prob := hp
  trans v t := ⟨fun u => gaussProd (fun i => u i + driftU e drift u v t i * dt) (dt * disp t ^ 2).toNNReal,
    (measurable_gaussProd _).comp ((measurable_stepU e hd dt t).comp
      (show Measurable fun u : ι → ℝ => ((v, u) : (κ → ℝ) × (ι → ℝ)) by fun_prop))⟩
  markov v t := ⟨fun u => by
    show IsProbabilityMeasure (gaussProd (fun i => u i + driftU e drift u v t i * dt) _); infer_instance⟩
  logG := toyLogG e drift disp dt
  measG v v' t := measurable_toyLogG e hd disp dt v v' t
  logG0 _ _ _ := c
  measG0 _ _ := measurable_const

omit [Fintype ζ] in
theorem toyModel_jointMeas (c : ℝ) (ref : Measure (ι → ℝ)) [IsProbabilityMeasure ref] :
    (toyModel e hd disp dt c ref).JointMeas :=
  ⟨fun t => (measurable_gaussProd _).comp (measurable_stepU e hd dt t), fun t => measurable_lik e hd disp dt t⟩

omit [Fintype ζ] [Fintype κ] in
/-- The law of the particles returned by `transition_sampler`. -/
theorem E_transitionSampler (hdt : 0 ≤ dt) (us : Fin N → ι → ℝ) (v : κ → ℝ) (t : ℝ) (key : Key)
    {F : (Fin N → ι → ℝ) → ℝ≥0∞} (hF : Measurable F) :
    (transitionSampler e drift disp dt us v t key).E F =
      ∫⁻ x, F x ∂(Measure.pi fun j => gaussProd (fun i => us j i + driftU e drift (us j) v t i * dt)
        (dt * disp t ^ 2).toNNReal) := by
  simp only [transitionSampler, Rand.E_bind, normal, Rand.E_sample, Rand.pure_eq, Rand.E_ret]
  exact lintegral_normal_rows (fun j i => us j i + driftU e drift (us j) v t i * dt) (Real.sqrt dt * disp t)
    (by rw [mul_pow, Real.sq_sqrt hdt]) hF

/-- **C59, one step.**  Drawing `u'` from the transition law and weighting by the likelihood of `v'` is one
Euler–Maruyama step of the pair, integrated against Lebesgue measure in `v'`. -/
theorem toy_step (c : ℝ) (ref : Measure (ι → ℝ)) [IsProbabilityMeasure ref] (hdt : 0 < dt) {t : ℝ} (ht : disp t ≠ 0)
    (u : ι → ℝ) (v : κ → ℝ) {f : (ι → ℝ) → (κ → ℝ) → ℝ≥0∞} (hf : Measurable fun p : (ι → ℝ) × (κ → ℝ) => f p.1 p.2) :
    ∫⁻ v', ENNReal.ofReal (Real.exp ((toyModel e hd disp dt c ref).logG v' v t u)) *
        ∫⁻ u', f u' v' ∂((toyModel e hd disp dt c ref).trans v t u) =
      ∫⁻ z, f (unpackU e z) (unpackV e z)
        ∂(gaussProd (fun k => concat e u v k + drift (concat e u v) t k * dt) (dt * disp t ^ 2).toNNReal) := by
  have hs : Real.sqrt dt * disp t ≠ 0 := mul_ne_zero (Real.sqrt_ne_zero'.2 hdt) ht
  have hs2 : (Real.sqrt dt * disp t) ^ 2 = dt * disp t ^ 2 := by rw [mul_pow, Real.sq_sqrt hdt.le]
  have hq : (dt * disp t ^ 2).toNNReal ≠ 0 := by
    have : 0 < dt * disp t ^ 2 := by positivity
    simpa using this
  have hm : Measurable fun z : ζ → ℝ => f (unpackU e z) (unpackV e z) :=
    hf.comp ((measurable_unpackU e).prodMk (measurable_unpackV e))
  rw [gaussProd, lintegral_concat e _ hm]
  simp only [unpackU_concat, unpackV_concat, concat_inl, concat_inr]
  change _ = ∫⁻ u', ∫⁻ v', f u' v' ∂(gaussProd (fun i => v i + driftV e drift v u t i * dt) _)
    ∂(gaussProd (fun i => u i + driftU e drift u v t i * dt) _)
  have h1 : ∀ u' : ι → ℝ, ∫⁻ v', f u' v' ∂(gaussProd (fun i => v i + driftV e drift v u t i * dt) (dt * disp t ^ 2).toNNReal)
      = ∫⁻ v', ENNReal.ofReal (Real.exp ((toyModel e hd disp dt c ref).logG v' v t u)) * f u' v' := by
    intro u'
    have hfu : Measurable fun v' => f u' v' := hf.comp (measurable_const.prodMk measurable_id)
    rw [lintegral_gaussProd_dens hq _ hfu]
    refine lintegral_congr fun v' => ?_
    rw [show (toyModel e hd disp dt c ref).logG v' v t u =
      ∑ i, Linear.normLogpdf (v' i) (v i + driftV e drift v u t i * dt) (Real.sqrt dt * disp t) from rfl,
      exp_sum_normLogpdf _ _ hs, hs2]
  have hg : Measurable fun v' => ENNReal.ofReal (Real.exp ((toyModel e hd disp dt c ref).logG v' v t u)) :=
    (((measurable_lik e hd disp dt t).comp
      (show Measurable fun v' : κ → ℝ => ((v', v, u) : (κ → ℝ) × (κ → ℝ) × (ι → ℝ)) by fun_prop)).exp).ennreal_ofReal
  simp only [h1]
  rw [lintegral_lintegral_swap]
  · refine lintegral_congr fun v' => ?_
    have hfv : Measurable fun u' => f u' v' := hf.comp (measurable_id.prodMk measurable_const)
    rw [lintegral_const_mul _ hfv]
    rfl
  · exact ((hg.comp measurable_snd).mul hf).aemeasurable

omit [Fintype ι] [Fintype κ] [Fintype ζ] in
theorem emStep_one (hdt : 0 < dt) (x : ζ → ℝ) {t t' : ℝ} (h : t' - t = dt) (z : ζ → ℝ) :
    Simulators.emStep drift disp 1 x t t' [z] = fun k => x k + drift x t k * dt + disp t * Real.sqrt dt * z k := by
  simp [Simulators.emStep, Simulators.substepTimes, Simulators.linspace, Simulators.emInner, Jax.scan, h, abs_of_pos hdt]

omit [Fintype ι] [Fintype κ] in
theorem lintegral_emStep (hdt : 0 < dt) (x : ζ → ℝ) {t t' : ℝ} (h : t' - t = dt) {f : (ζ → ℝ) → ℝ≥0∞} (hf : Measurable f) :
    ∫⁻ w, f (Simulators.emStep drift disp 1 x t t' (List.ofFn w)) ∂(Measure.pi fun _ : Fin 1 => stdNormal ζ) =
      ∫⁻ z, f z ∂(gaussProd (fun k => x k + drift x t k * dt) (dt * disp t ^ 2).toNNReal) := by
  have h1 : ∀ w : Fin 1 → ζ → ℝ, List.ofFn w = [w 0] := fun w => by simp
  have h2 := gaussProd_map (0 : ζ → ℝ) 1 (fun k => x k + drift x t k * dt) (disp t * Real.sqrt dt)
  rw [mul_pow, Real.sq_sqrt hdt.le, mul_one, mul_comm (disp t ^ 2)] at h2
  simp only [Pi.zero_apply, mul_zero, add_zero] at h2
  have hm : Measurable fun (z : ζ → ℝ) k => x k + drift x t k * dt + disp t * Real.sqrt dt * z k :=
    measurable_pi_iff.2 fun k => by fun_prop
  have hf' : Measurable fun z : ζ → ℝ => f fun k => x k + drift x t k * dt + disp t * Real.sqrt dt * z k := hf.comp hm
  have h3 : ∀ w : Fin 1 → ζ → ℝ, f (Simulators.emStep drift disp 1 x t t' (List.ofFn w)) =
      f fun k => x k + drift x t k * dt + disp t * Real.sqrt dt * w 0 k := fun w => by
    rw [h1, emStep_one disp dt hdt x h]
  have h0 : Measurable fun w : Fin 1 → ζ → ℝ => f fun k => x k + drift x t k * dt + disp t * Real.sqrt dt * w 0 k :=
    hf'.comp (measurable_pi_apply 0)
  rw [lintegral_congr h3, lintegral_rows _ 0 h0, ← h2, lintegral_map hf hm, ← stdNormal_eq]
  simp

end Model

/-- A finite array as a sequence. -/
def extSeq {α : Type} {K : ℕ} (d : α) (w : Fin K → α) (j : ℕ) : α := if h : j < K then w ⟨j, h⟩ else d

theorem extSeq_map {α : Type} {K : ℕ} (d : α) (w : Fin K → α) : (List.range K).map (extSeq d w) = List.ofFn w := by
  apply List.ext_getElem
  · simp
  · intro i h1 h2
    have : i < K := by simpa using h2
    simp [extSeq, this]

theorem measurable_extSeq {α : Type} [MeasurableSpace α] {K : ℕ} (d : α) : Measurable fun w : Fin K → α => extSeq d w := by
  refine measurable_pi_iff.2 fun j => ?_
  unfold extSeq
  by_cases h : j < K
  · simp only [h, dif_pos]; exact measurable_pi_apply _
  · simp only [h, dif_neg, not_false_iff]; exact measurable_const

section Path

variable (e : ι ⊕ κ ≃ ζ) {drift : (ζ → ℝ) → ℝ → (ζ → ℝ)} (hd : ∀ t, Measurable fun z => drift z t) {disp : ℝ → ℝ} {dt : ℝ}
  (c : ℝ) (ref : Measure (ι → ℝ)) [IsProbabilityMeasure ref]

omit [Fintype ζ] in
theorem measurable_pathInt_toy (ts : List ℝ) (K : ℕ) (hK : K ≤ ts.length) {Z : Type} [MeasurableSpace Z]
    (f : Z → List (ι → ℝ) → ℝ≥0∞)
    (hf : Measurable fun q : Z × (ℕ → ι → ℝ) => f q.1 ((List.range K).map q.2)) {a : Z → ι → ℝ} (ha : Measurable a)
    {v : Z → κ → ℝ} (hv : Measurable v) {w : Z → Fin K → κ → ℝ} (hw : Measurable w) :
    Measurable fun z => pathInt ((toyModel e hd disp dt c ref).steps (v z) (List.ofFn (w z)) ts) (a z) (f z) := by
  have hs : Measurable fun z => (fun j => Nat.casesOn j (v z) (extSeq 0 (w z)) : ℕ → κ → ℝ) :=
    measurable_seqCons hv ((measurable_extSeq 0).comp hw)
  have := measurable_pathInt_obs (toyModel e hd disp dt c ref) (toyModel_jointMeas e hd disp dt c ref) K ts hK Z f hf a ha
    _ hs
  convert this using 1
  funext z
  unfold seqSteps
  have : (List.range K).map (fun j => (fun j => Nat.casesOn j (v z) (extSeq 0 (w z)) : ℕ → κ → ℝ) (j + 1)) =
      List.ofFn (w z) := extSeq_map 0 (w z)
  rw [this]
  rfl

/-- The weighted path measure of the model, integrated over the observations, is the law of the Euler–Maruyama
path. -/
theorem lintegral_pathInt_em (hdt : 0 < dt) : ∀ (ts : List ℝ) (t : ℝ), UniformGrid dt disp t ts → ∀ (keys : List Key),
    keys.length = ts.length → ∀ (u : ι → ℝ) (v : κ → ℝ) (φ : List (ι → ℝ) → List (κ → ℝ) → ℝ≥0∞),
    (Measurable fun q : (ℕ → ι → ℝ) × (ℕ → κ → ℝ) => φ ((List.range ts.length).map q.1) ((List.range ts.length).map q.2)) →
    ∫⁻ w, pathInt ((toyModel e hd disp dt c ref).steps v (List.ofFn w) (t :: ts)) u (fun l => φ l (List.ofFn w))
        ∂(Measure.pi fun _ : Fin ts.length => (volume : Measure (κ → ℝ))) =
      (Rand.scan (Simulators.emBody drift disp 1 id) (concat e u v)
        (keys.zip ((Arr1.init (t, ts)).zip ts))).E fun r => φ (r.2.map (unpackU e)) (r.2.map (unpackV e))
  | [], t, _, keys, hk, u, v, φ, hφ => by
    obtain rfl : keys = [] := List.eq_nil_of_length_eq_zero (by simpa using hk)
    simp [StateSpace.steps, pathInt, Rand.scan, Rand.pure_eq]
  | t' :: ts, t, hg, [], hk, u, v, φ, hφ => by simp at hk
  | t' :: ts, t, hg, k :: keys, hk, u, v, φ, hφ => by
    obtain ⟨h1, h2, h3⟩ := hg
    have hφ' : Measurable fun q : ((ℕ → ι → ℝ) × (ℕ → κ → ℝ)) × (ι → ℝ) × (κ → ℝ) =>
        φ (q.2.1 :: (List.range ts.length).map q.1.1) (q.2.2 :: (List.range ts.length).map q.1.2) := by
      have hm : Measurable fun q : ((ℕ → ι → ℝ) × (ℕ → κ → ℝ)) × (ι → ℝ) × (κ → ℝ) =>
          (((fun j => Nat.casesOn j q.2.1 q.1.1), fun j => Nat.casesOn j q.2.2 q.1.2) : (ℕ → ι → ℝ) × (ℕ → κ → ℝ)) :=
        (measurable_seqCons (measurable_fst.comp measurable_snd) (measurable_fst.comp measurable_fst)).prodMk
          (measurable_seqCons (measurable_snd.comp measurable_snd) (measurable_snd.comp measurable_fst))
      have := hφ.comp hm
      convert this using 1
      funext q
      simp only [Function.comp_apply, List.length_cons, range_map_succ]
      rfl
    have hφc : ∀ (u' : ι → ℝ) (v' : κ → ℝ), Measurable fun q : (ℕ → ι → ℝ) × (ℕ → κ → ℝ) =>
        φ (u' :: (List.range ts.length).map q.1) (v' :: (List.range ts.length).map q.2) := fun u' v' =>
      hφ'.comp (measurable_id.prodMk (measurable_const (a := (u', v'))))
    have ih := fun u' v' => lintegral_pathInt_em hdt ts t' h3 keys (by simpa using hk) u' v'
      (fun l m => φ (u' :: l) (v' :: m)) (hφc u' v')
    set S := toyModel e hd disp dt c ref with hS
    -- the inner integrand as a function of everything
    let G : (κ → ℝ) → (Fin ts.length → κ → ℝ) → (ι → ℝ) → ℝ≥0∞ := fun v' w u' =>
      pathInt (S.steps v' (List.ofFn w) (t' :: ts)) u' (fun l => φ (u' :: l) (v' :: List.ofFn w))
    have hG : Measurable fun q : (κ → ℝ) × (Fin ts.length → κ → ℝ) × (ι → ℝ) => G q.1 q.2.1 q.2.2 := by
      refine measurable_pathInt_toy e hd c ref (t' :: ts) ts.length (by simp)
        (fun (q : (κ → ℝ) × (Fin ts.length → κ → ℝ) × (ι → ℝ)) l => φ (q.2.2 :: l) (q.1 :: List.ofFn q.2.1)) ?_
        (measurable_snd.comp measurable_snd) measurable_fst (measurable_fst.comp measurable_snd)
      have hm : Measurable fun q : ((κ → ℝ) × (Fin ts.length → κ → ℝ) × (ι → ℝ)) × (ℕ → ι → ℝ) =>
          (((q.2, extSeq 0 q.1.2.1), q.1.2.2, q.1.1) : ((ℕ → ι → ℝ) × (ℕ → κ → ℝ)) × (ι → ℝ) × (κ → ℝ)) :=
        (measurable_snd.prodMk ((measurable_extSeq 0).comp
          (measurable_fst.comp (measurable_snd.comp measurable_fst)))).prodMk
          ((measurable_snd.comp (measurable_snd.comp measurable_fst)).prodMk (measurable_fst.comp measurable_fst))
      have := hφ'.comp hm
      convert this using 1
      funext q
      simp only [Function.comp_apply, extSeq_map]
    have hf : Measurable fun p : (ι → ℝ) × (κ → ℝ) => ∫⁻ w, G p.2 w p.1
        ∂(Measure.pi fun _ : Fin ts.length => (volume : Measure (κ → ℝ))) := by
      have hm : Measurable fun q : ((ι → ℝ) × (κ → ℝ)) × (Fin ts.length → κ → ℝ) => G q.1.2 q.2 q.1.1 :=
        hG.comp ((measurable_snd.comp measurable_fst).prodMk (measurable_snd.prodMk (measurable_fst.comp measurable_fst)))
      exact hm.lintegral_prod_right'
    have hrow : Measurable fun w : Fin (ts.length + 1) → κ → ℝ =>
        pathInt (S.steps v (List.ofFn w) (t :: t' :: ts)) u (fun l => φ l (List.ofFn w)) := by
      refine measurable_pathInt_toy e hd c ref (t :: t' :: ts) (ts.length + 1) (by simp)
        (fun (w : Fin (ts.length + 1) → κ → ℝ) l => φ l (List.ofFn w)) ?_ measurable_const measurable_const measurable_id
      have := hφ.comp (show Measurable fun q : (Fin (ts.length + 1) → κ → ℝ) × (ℕ → ι → ℝ) =>
        ((q.2, extSeq 0 q.1) : (ℕ → ι → ℝ) × (ℕ → κ → ℝ)) from
        measurable_snd.prodMk ((measurable_extSeq 0).comp measurable_fst))
      convert this using 1
      funext q
      simp only [Function.comp_apply, List.length_cons, extSeq_map]
    have e1 : ∀ v' : κ → ℝ, ∫⁻ w, pathInt (S.steps v (List.ofFn (Fin.cons v' w)) (t :: t' :: ts)) u
        (fun l => φ l (List.ofFn (Fin.cons v' w))) ∂(Measure.pi fun _ : Fin ts.length => (volume : Measure (κ → ℝ))) =
        ENNReal.ofReal (Real.exp (S.logG v' v t u)) * ∫⁻ u', ∫⁻ w, G v' w u'
          ∂(Measure.pi fun _ : Fin ts.length => (volume : Measure (κ → ℝ))) ∂(S.trans v t u) := by
      intro v'
      have e2 : ∀ w : Fin ts.length → κ → ℝ, pathInt (S.steps v (List.ofFn (Fin.cons v' w)) (t :: t' :: ts)) u
          (fun l => φ l (List.ofFn (Fin.cons v' w))) =
          ENNReal.ofReal (Real.exp (S.logG v' v t u)) * ∫⁻ u', G v' w u' ∂(S.trans v t u) := by
        intro w
        simp only [List.ofFn_cons, StateSpace.steps, pathInt, G]
      have hm : Measurable fun q : (Fin ts.length → κ → ℝ) × (ι → ℝ) => G v' q.1 q.2 :=
        hG.comp (measurable_const.prodMk measurable_id)
      have hm1 : Measurable fun w : Fin ts.length → κ → ℝ => ∫⁻ u', G v' w u' ∂(S.trans v t u) :=
        hm.lintegral_prod_right'
      rw [lintegral_congr e2, lintegral_const_mul _ hm1, lintegral_lintegral_swap hm.aemeasurable]
    have e3 := toy_step e hd disp dt c ref hdt h2 u v (f := fun u' v' => ∫⁻ w, G v' w u'
      ∂(Measure.pi fun _ : Fin ts.length => (volume : Measure (κ → ℝ)))) hf
    have hm2 : Measurable fun z : ζ → ℝ => ∫⁻ w, G (unpackV e z) w (unpackU e z)
          ∂(Measure.pi fun _ : Fin ts.length => (volume : Measure (κ → ℝ))) :=
      hf.comp ((measurable_unpackU e).prodMk (measurable_unpackV e))
    have e4 := lintegral_emStep (drift := drift) disp dt hdt (concat e u v) h1 hm2
    calc _ = ∫⁻ v', ENNReal.ofReal (Real.exp (S.logG v' v t u)) * ∫⁻ u', ∫⁻ w, G v' w u'
          ∂(Measure.pi fun _ : Fin ts.length => (volume : Measure (κ → ℝ))) ∂(S.trans v t u) := by
          simp only [List.length_cons]
          rw [lintegral_rows _ _ hrow, lintegral_congr e1]
      _ = _ := by
          rw [e3, ← e4]
          simp only [Arr1.init, List.dropLast_cons_cons, List.zip_cons_cons, Rand.scan, Simulators.emBody, Rand.E_bind,
            Rand.pure_eq, Rand.E_ret, normalRows, Rand.E_map, Rand.E_sample, id]
          refine lintegral_congr fun w => ?_
          set z := Simulators.emStep drift disp 1 (concat e u v) t t' (List.ofFn w)
          have := ih (unpackU e z) (unpackV e z)
          rw [concat_unpack] at this
          simp only [List.map_cons]
          exact this

/-- **C59, path law.**  Weighting the transition sampler by the likelihood along observations `v_1, ..., v_K`, and
integrating over the observations, gives the law of the Euler–Maruyama path of the pair. -/
theorem C59_path_law (hdt : 0 < dt) (ts : Arr1 ℝ) (hts : UniformGrid dt disp ts.1 ts.2) (v0 : κ → ℝ) (key : Key)
    {φ : List (ι → ℝ) → List (κ → ℝ) → ℝ≥0∞}
    (hφ : Measurable fun q : (Fin (ts.2.length + 1) → ι → ℝ) × (Fin ts.2.length → κ → ℝ) =>
      φ (List.ofFn q.1) (List.ofFn q.2)) :
    ∫⁻ w, ∫⁻ u0, pathInt ((toyModel e hd disp dt c ref).steps v0 (List.ofFn w) ts.toList) u0
        (fun l => φ (u0 :: l) (List.ofFn w)) ∂ref ∂(Measure.pi fun _ : Fin ts.2.length => (volume : Measure (κ → ℝ))) =
      ∫⁻ u0, (Simulators.eulerPath key (concat e u0 v0) ts drift disp 1).E
        (fun p => φ (p.toList.map (unpackU e)) (p.2.map (unpackV e))) ∂ref := by
  obtain ⟨t, ts⟩ := ts
  simp only at hφ hts
  have hr : ∀ {α : Type} (K : ℕ) (q : ℕ → α), (List.range K).map q = List.ofFn fun j : Fin K => q j := by
    intro α K q
    apply List.ext_getElem <;> simp
  have hφ' : Measurable fun q : (ι → ℝ) × (ℕ → ι → ℝ) × (ℕ → κ → ℝ) =>
      φ (q.1 :: (List.range ts.length).map q.2.1) ((List.range ts.length).map q.2.2) := by
    have hm : Measurable fun q : (ι → ℝ) × (ℕ → ι → ℝ) × (ℕ → κ → ℝ) =>
        ((Fin.cons q.1 fun j : Fin ts.length => q.2.1 j, fun j : Fin ts.length => q.2.2 j) :
          (Fin (ts.length + 1) → ι → ℝ) × (Fin ts.length → κ → ℝ)) := by
      refine Measurable.prodMk (measurable_pi_iff.2 fun j => ?_) (measurable_pi_iff.2 fun j => ?_)
      · refine Fin.cases ?_ (fun j => ?_) j
        · exact measurable_fst
        · exact (measurable_pi_apply (j : ℕ)).comp (measurable_fst.comp measurable_snd)
      · exact (measurable_pi_apply (j : ℕ)).comp (measurable_snd.comp measurable_snd)
    have := hφ.comp hm
    convert this using 1
    funext q
    simp only [Function.comp_apply, List.ofFn_cons, hr]
  have hφu : ∀ u0, Measurable fun q : (ℕ → ι → ℝ) × (ℕ → κ → ℝ) =>
      φ (u0 :: (List.range ts.length).map q.1) ((List.range ts.length).map q.2) := fun u0 =>
    hφ'.comp ((measurable_const (a := u0)).prodMk measurable_id)
  have hm : Measurable fun q : (Fin ts.length → κ → ℝ) × (ι → ℝ) =>
      pathInt ((toyModel e hd disp dt c ref).steps v0 (List.ofFn q.1) (t :: ts)) q.2
        (fun l => φ (q.2 :: l) (List.ofFn q.1)) := by
    refine measurable_pathInt_toy e hd c ref (t :: ts) ts.length (by simp)
      (fun (q : (Fin ts.length → κ → ℝ) × (ι → ℝ)) l => φ (q.2 :: l) (List.ofFn q.1)) ?_
      measurable_snd measurable_const measurable_fst
    have := hφ'.comp (show Measurable fun q : ((Fin ts.length → κ → ℝ) × (ι → ℝ)) × (ℕ → ι → ℝ) =>
      ((q.1.2, q.2, extSeq 0 q.1.1) : (ι → ℝ) × (ℕ → ι → ℝ) × (ℕ → κ → ℝ)) from
      (measurable_snd.comp measurable_fst).prodMk
        (measurable_snd.prodMk ((measurable_extSeq 0).comp (measurable_fst.comp measurable_fst))))
    convert this using 1
    funext q
    simp only [Function.comp_apply, extSeq_map]
  simp only [Arr1.toList]
  rw [lintegral_lintegral_swap hm.aemeasurable]
  refine lintegral_congr fun u0 => ?_
  have h := lintegral_pathInt_em e hd c ref hdt ts t hts (splitAll key ts.length) (by simp [splitAll]) u0 v0
    (fun l m => φ (u0 :: l) m) (hφu u0)
  rw [h]
  simp only [Simulators.eulerPath, Rand.E_bind, Rand.pure_eq, Rand.E_ret, List.map_cons, unpackU_concat]
  rfl

/-- The filter with any functions that implement the model. -/
theorem filter_of_implements [NeZero N] (hdt : 0 < dt) (ts : Arr1 ℝ) (hts : UniformGrid dt disp ts.1 ts.2) (v0 : κ → ℝ)
    {m : Smc.Funs N (ι → ℝ) (κ → ℝ)} (hm : SmcImplements m (toyModel e hd disp dt 0 ref) v0)
    {res : Smc.Resampling N} (hres : UnbiasedSums res) (key key' : Key) (log rl : Bool)
    {φ : (ι → ℝ) → List (κ → ℝ) → ℝ≥0∞}
    (hφ : Measurable fun q : (ι → ℝ) × (Fin ts.2.length → κ → ℝ) => φ q.1 (List.ofFn q.2)) :
    ∫⁻ w, (Smc.bootstrapFilter m res (v0, List.ofFn w) ts key log rl).E
        (fun out => ENNReal.ofReal (Real.exp (-out.nell)) * ((N : ℝ≥0∞)⁻¹ * ∑ i, φ (out.final i) (List.ofFn w)))
        ∂(Measure.pi fun _ : Fin ts.2.length => (volume : Measure (κ → ℝ))) =
      ∫⁻ u0, (Simulators.eulerPath key' (concat e u0 v0) ts drift disp 1).E
        (fun p => φ (unpackU e p.last) (p.2.map (unpackV e))) ∂ref := by
  have h := C59_path_law e hd 0 ref hdt ts hts v0 key' (φ := fun l m => φ (l.getLastD 0) m) (by
    have := hφ.comp (show Measurable fun q : (Fin (ts.2.length + 1) → ι → ℝ) × (Fin ts.2.length → κ → ℝ) =>
      ((q.1 (Fin.last _), q.2) : (ι → ℝ) × (Fin ts.2.length → κ → ℝ)) from
      ((measurable_pi_apply _).comp measurable_fst).prodMk measurable_snd)
    convert this using 1
    funext q
    have : (List.ofFn q.1).getLastD 0 = q.1 (Fin.last _) := by
      rw [List.getLastD_eq_getLast?, List.getLast?_eq_some_getLast (by simp), List.getLast_ofFn]; rfl
    simp only [Function.comp_apply, this])
  have e1 : ∀ w : Fin ts.2.length → κ → ℝ,
      (Smc.bootstrapFilter m res (v0, List.ofFn w) ts key log rl).E
        (fun out => ENNReal.ofReal (Real.exp (-out.nell)) * ((N : ℝ≥0∞)⁻¹ * ∑ i, φ (out.final i) (List.ofFn w))) =
      ∫⁻ u0, pathInt ((toyModel e hd disp dt 0 ref).steps v0 (List.ofFn w) ts.toList) u0
        (fun l => φ ((u0 :: l).getLastD 0) (List.ofFn w)) ∂ref := by
    intro w
    have hφw : Measurable fun u => φ u (List.ofFn w) := hφ.comp (measurable_id.prodMk (measurable_const (a := w)))
    rw [C17_filter_unbiased (S := toyModel e hd disp dt 0 ref) (v0, List.ofFn w) ts hm hres (by simp) key log rl hφw]
    unfold StateSpace.filterInt
    refine lintegral_congr fun u0 => ?_
    congr 1
    funext l
    congr 1
    exact (List.getLastD_cons ..).symm
  rw [lintegral_congr e1, h]
  refine lintegral_congr fun u0 => Rand.E_congr _ fun p => ?_
  congr 1
  have : p.toList.map (unpackU e) ≠ [] := by simp [Arr1.toList]
  rw [List.getLastD_eq_getLast?, List.getLast?_eq_some_getLast this, List.getLast_map]
  rfl

include hd in
/-- **C59, the filter.**  The bootstrap filter with the samplers of the scripts, weighted by its likelihood estimate and
integrated over the observations, estimates the law of the Euler–Maruyama path without bias: the final state given the
whole path of `v`. -/
theorem C59_filter [NeZero N] (hdt : 0 < dt) (ts : Arr1 ℝ) (hts : UniformGrid dt disp ts.1 ts.2) (v0 : κ → ℝ)
    (refSampler : Key → (κ → ℝ) → ℕ → Rand (Fin N → ι → ℝ))
    (href : ∀ k n (F : (Fin N → ι → ℝ) → ℝ≥0∞), Measurable F →
      (refSampler k v0 n).E F = ∫⁻ x, F x ∂(Measure.pi fun _ => ref))
    {res : Smc.Resampling N} (hres : UnbiasedSums res) (key key' : Key) (log rl : Bool)
    {φ : (ι → ℝ) → List (κ → ℝ) → ℝ≥0∞}
    (hφ : Measurable fun q : (ι → ℝ) × (Fin ts.2.length → κ → ℝ) => φ q.1 (List.ofFn q.2)) :
    ∫⁻ w, (Smc.bootstrapFilter (filterFuns e drift disp dt refSampler) res (v0, List.ofFn w) ts key log rl).E
        (fun out => ENNReal.ofReal (Real.exp (-out.nell)) * ((N : ℝ≥0∞)⁻¹ * ∑ i, φ (out.final i) (List.ofFn w)))
        ∂(Measure.pi fun _ : Fin ts.2.length => (volume : Measure (κ → ℝ))) =
      ∫⁻ u0, (Simulators.eulerPath key' (concat e u0 v0) ts drift disp 1).E
        (fun p => φ (unpackU e p.last) (p.2.map (unpackV e))) ∂ref := by
  have hm : SmcImplements (filterFuns e drift disp dt refSampler) (toyModel e hd disp dt 0 ref) v0 :=
    ⟨href, fun xs v t k F hF => E_transitionSampler e disp dt hdt.le xs v t k hF, fun v xs v' t i => rfl⟩
  exact filter_of_implements e hd ref hdt ts hts v0 hm hres key key' log rl hφ

/-- Conditional SMC with any functions that implement the model. -/
theorem csmc_of_implements [NeZero N] (hdt : 0 < dt) (ts : Arr1 ℝ) (hts : UniformGrid dt disp ts.1 ts.2) (v0 : κ → ℝ)
    {m : Csmc.Funs N (ι → ℝ) (κ → ℝ)} (hm : Implements m (toyModel e hd disp dt c ref))
    {res : Csmc.CondResampling N} (sch : ExactScheme res) (n : ℕ) (key key' : Key)
    {φ : List (ι → ℝ) → List (κ → ℝ) → ℝ≥0∞}
    (hφ : Measurable fun q : (Fin (ts.2.length + 1) → ι → ℝ) × (Fin ts.2.length → κ → ℝ) =>
      φ (List.ofFn q.1) (List.ofFn q.2)) :
    ∫⁻ w, (toyModel e hd disp dt c ref).target N (v0, List.ofFn w) ts (fun p =>
        (Csmc.kernel m res n false key (p.map Prod.fst) (p.map Prod.snd)
          (v0, List.ofFn w) ts).E (fun out => φ out.1 (List.ofFn w)))
        ∂(Measure.pi fun _ : Fin ts.2.length => (volume : Measure (κ → ℝ))) =
      ENNReal.ofReal (Real.exp c) * ∫⁻ u0, (Simulators.eulerPath key' (concat e u0 v0) ts drift disp 1).E
        (fun p => φ (p.toList.map (unpackU e)) (p.2.map (unpackV e))) ∂ref := by
  have hφw : ∀ w : Fin ts.2.length → κ → ℝ, Measurable fun q : Fin (ts.2.length + 1) → ι → ℝ =>
      φ (List.ofFn q) (List.ofFn w) := fun w => hφ.comp (measurable_id.prodMk (measurable_const (a := w)))
  rw [← C59_path_law e hd c ref hdt ts hts v0 key' hφ, ← lintegral_const_mul' _ _ ENNReal.ofReal_ne_top]
  refine lintegral_congr fun w => ?_
  have hN : (N : ℝ≥0∞) ≠ 0 := by exact_mod_cast NeZero.ne N
  have hlen : ((toyModel e hd disp dt c ref).steps v0 (List.ofFn w) ts.toList).length = ts.2.length := by
    rw [steps_length _ _ _ _ (by simp [Arr1.toList])]; simp
  rw [C10_csmc_invariant hm sch n key (v0, List.ofFn w) ts (by simp) (fun us _ => φ us (List.ofFn w))]
  · unfold StateSpace.target
    rw [← lintegral_const_mul' _ _ ENNReal.ofReal_ne_top]
    refine lintegral_congr fun u0 => ?_
    show ENNReal.ofReal (Real.exp c) * _ = _
    congr 1
    have h1 : ∀ b : Fin N, extInt N ((toyModel e hd disp dt c ref).steps v0 (List.ofFn w) ts.toList) u0
        (fun l => φ ((Arr1.toList ((u0, b), l)).map Prod.fst) (List.ofFn w)) =
        pathInt ((toyModel e hd disp dt c ref).steps v0 (List.ofFn w) ts.toList) u0
          (fun l => φ (u0 :: l) (List.ofFn w)) := by
      intro b
      rw [extInt_eq_avgIdx]
      · rw [hlen, ← avgIdx_const (N := N) (pathInt ((toyModel e hd disp dt c ref).steps v0 (List.ofFn w) ts.toList) u0
          (fun l => φ (u0 :: l) (List.ofFn w))) ts.2.length]
        refine avgIdx_congr _ fun bl hbl => ?_
        refine pathInt_congr _ _ fun l hl => ?_
        simp only [Arr1.toList, List.map_cons]
        rw [List.map_fst_zip (by rw [hl, hlen, hbl])]
      · rw [hlen]
        have hm2 : Measurable fun q : Unit × (ℕ → (ι → ℝ) × Fin N) =>
            (Fin.cons u0 fun j : Fin ts.2.length => (q.2 j).1 : Fin (ts.2.length + 1) → ι → ℝ) := by
          refine measurable_pi_iff.2 fun j => ?_
          refine Fin.cases ?_ (fun j => ?_) j
          · exact measurable_const
          · exact measurable_fst.comp ((measurable_pi_apply (j : ℕ)).comp measurable_snd)
        have := (hφw w).comp hm2
        show Measurable fun q : Unit × (ℕ → (ι → ℝ) × Fin N) => _
        convert this using 1
        funext q
        simp only [Function.comp_apply, List.ofFn_cons, Arr1.toList, List.map_cons, List.map_map]
        congr 2
        apply List.ext_getElem <;> simp
    show (N : ℝ≥0∞)⁻¹ * ∑ b : Fin N, _ = _
    rw [Finset.sum_congr rfl fun b _ => h1 b]
    simp only [Finset.sum_const, Finset.card_univ, Fintype.card_fin, nsmul_eq_mul]
    rw [← mul_assoc, ENNReal.inv_mul_cancel hN (ENNReal.natCast_ne_top N), one_mul]
  · have hk : 1 + (List.ofFn w).length = ts.2.length + 1 := by simp; omega
    show MeasOut (1 + (List.ofFn w).length) _
    rw [hk]
    exact (hφw w).comp (measurable_pi_iff.2 fun j => measurable_fst.comp (measurable_pi_apply j))

/-- **C59, conditional SMC.**  The conditional SMC sweep with the samplers of the scripts, from particles drawn from
`ref` with a constant initial weight `exp c` (in the Gibbs kernel `ref` is the point mass at the end of the path and
`c = -log n`), keeps the law of the Euler–Maruyama path: run on the target of each observation path and integrated
over the observations, it returns that law. -/
theorem C59_csmc [NeZero N] (hdt : 0 < dt) (ts : Arr1 ℝ) (hts : UniformGrid dt disp ts.1 ts.2) (v0 : κ → ℝ)
    (initSampler : Key → ℕ → Rand (Fin N → ι → ℝ))
    (hinit : ∀ k n (F : (Fin N → ι → ℝ) → ℝ≥0∞), Measurable F →
      (initSampler k n).E F = ∫⁻ x, F x ∂(Measure.pi fun _ => ref))
    {res : Csmc.CondResampling N} (sch : ExactScheme res) (n : ℕ) (key key' : Key)
    {φ : List (ι → ℝ) → List (κ → ℝ) → ℝ≥0∞}
    (hφ : Measurable fun q : (Fin (ts.2.length + 1) → ι → ℝ) × (Fin ts.2.length → κ → ℝ) =>
      φ (List.ofFn q.1) (List.ofFn q.2)) :
    ∫⁻ w, (toyModel e hd disp dt c ref).target N (v0, List.ofFn w) ts (fun p =>
        (Csmc.kernel (csmcFuns e drift disp dt c initSampler) res n false key (p.map Prod.fst) (p.map Prod.snd)
          (v0, List.ofFn w) ts).E (fun out => φ out.1 (List.ofFn w)))
        ∂(Measure.pi fun _ : Fin ts.2.length => (volume : Measure (κ → ℝ))) =
      ENNReal.ofReal (Real.exp c) * ∫⁻ u0, (Simulators.eulerPath key' (concat e u0 v0) ts drift disp 1).E
        (fun p => φ (p.toList.map (unpackU e)) (p.2.map (unpackV e))) ∂ref := by
  have hm : Implements (csmcFuns e drift disp dt c initSampler) (toyModel e hd disp dt c ref) :=
    ⟨hinit, fun xs v t k F hF => E_transitionSampler e disp dt hdt.le xs v t k hF, fun v xs v' t i => rfl,
      fun _ _ _ _ => rfl⟩
  exact csmc_of_implements e hd c ref hdt ts hts v0 hm sch n key key' hφ

end Path

omit [Fintype κ] [Fintype ζ] in
/-- **C59, density.**  `exp(transition_logpdf)` is the Lebesgue density of each particle drawn by `transition_sampler`. -/
theorem C59_transition_density (e : ι ⊕ κ ≃ ζ) (drift : (ζ → ℝ) → ℝ → (ζ → ℝ)) (disp : ℝ → ℝ) {dt t : ℝ} (hdt : 0 < dt)
    (ht : disp t ≠ 0) (us : Fin N → ι → ℝ) (v : κ → ℝ) (key : Key) (j : Fin N) {f : (ι → ℝ) → ℝ≥0∞} (hf : Measurable f) :
    (transitionSampler e drift disp dt us v t key).E (fun x => f (x j)) =
      ∫⁻ x, ENNReal.ofReal (Real.exp (transitionLogpdf e drift disp dt x us v t j)) * f x := by
  have hs : Real.sqrt dt * disp t ≠ 0 := mul_ne_zero (Real.sqrt_ne_zero'.2 hdt) ht
  have hs2 : (Real.sqrt dt * disp t) ^ 2 = dt * disp t ^ 2 := by rw [mul_pow, Real.sq_sqrt hdt.le]
  have hq : (dt * disp t ^ 2).toNNReal ≠ 0 := by
    have : 0 < dt * disp t ^ 2 := by positivity
    simpa using this
  have hfj : Measurable fun x : Fin N → ι → ℝ => f (x j) := hf.comp (measurable_pi_apply j)
  rw [E_transitionSampler e disp dt hdt.le us v t key hfj,
    (measurePreserving_eval (fun j => gaussProd (fun i => us j i + driftU e drift (us j) v t i * dt)
      (dt * disp t ^ 2).toNNReal) j).lintegral_comp hf, lintegral_gaussProd_dens hq _ hf]
  refine lintegral_congr fun x => ?_
  rw [transitionLogpdf, exp_sum_normLogpdf _ _ hs, hs2]

theorem uniformGrid_arith {dt : ℝ} {disp : ℝ → ℝ} {n : ℕ} (h : ∀ k : ℕ, k < n → disp (k * dt) ≠ 0) :
    ∀ m k : ℕ, k + m = n → UniformGrid dt disp (k * dt) ((List.range m).map fun i : ℕ => (k + 1 + i : ℕ) * dt)
  | 0, _, _ => trivial
  | m + 1, k, hk => by
    rw [List.range_succ_eq_map]
    refine ⟨by push_cast; ring, h k (by omega), ?_⟩
    have := uniformGrid_arith h m (k + 1) (by omega)
    simp only [List.map_map]
    convert this using 2
    funext i
    simp only [Function.comp_apply, Nat.succ_eq_add_one]
    push_cast
    ring

/-- **C59, the grid of the scripts.**  `jnp.linspace(0, T, nsteps + 1)` is a uniform grid with `dt = T / nsteps`. -/
theorem C59_grid {T : ℝ} {nsteps : ℕ} {disp : ℝ → ℝ}
    (hdisp : ∀ k : ℕ, k < nsteps → disp (k * (T / nsteps)) ≠ 0) :
    ∃ ts : Arr1 ℝ, ts.toList = Simulators.linspace 0 T (nsteps + 1) ∧ UniformGrid (T / nsteps) disp ts.1 ts.2 := by
  refine ⟨((0 : ℕ) * (T / nsteps), (List.range nsteps).map fun i : ℕ => (0 + 1 + i : ℕ) * (T / nsteps)), ?_,
    uniformGrid_arith hdisp nsteps 0 (by omega)⟩
  unfold Simulators.linspace Arr1.toList
  rw [List.range_succ_eq_map]
  simp only [List.map_cons, List.map_map, Nat.add_sub_cancel, sub_zero]
  congr 1
  · simp
  · refine List.map_congr_left fun i _ => ?_
    simp only [Function.comp_apply]
    push_cast; ring

/-- The initial sampler of `experiments/imgs/inpainting.py:160-161`: independent standard normal entries. -/
noncomputable def normalRef (N : ℕ) : Key → (Fin 1 → ℝ) → ℕ → Rand (Fin N → Fin 1 → ℝ) := fun k _ _ => do
  let z ← normal k (Fin N × Fin 1)
  pure fun j i => z (j, i)

theorem E_normalRef (k : Key) (v : Fin 1 → ℝ) (n : ℕ) (F : (Fin N → Fin 1 → ℝ) → ℝ≥0∞) (hF : Measurable F) :
    (normalRef N k v n).E F = ∫⁻ x, F x ∂(Measure.pi fun _ => stdNormal (Fin 1)) := by
  simp only [normalRef, Rand.E_bind, normal, Rand.E_sample, Rand.pure_eq, Rand.E_ret]
  have := lintegral_normal_rows (v := 1) (fun (_ : Fin N) (_ : Fin 1) => 0) 1 (by norm_num) hF
  simpa [stdNormal_eq, show (fun _ : Fin 1 => (0 : ℝ)) = 0 from rfl] using this

/-- A pair of numbers, mean reversion, two steps of length `1/2`, three particles, stratified resampling; the test
function is the second moment of the final state on the event that the last `v` is positive. -/
example (key : Key) (v0 : Fin 1 → ℝ) :
    ∫⁻ w, (Smc.bootstrapFilter (filterFuns finSumFinEquiv (fun z _ k => -z k) (fun _ => 1) (1 / 2) (normalRef 3))
        Resampling.stratified (v0, List.ofFn w) (0, [1 / 2, 1]) key true true).E
        (fun out => ENNReal.ofReal (Real.exp (-out.nell)) * (((3 : ℕ) : ℝ≥0∞)⁻¹ * ∑ i,
          ENNReal.ofReal (out.final i 0 ^ 2)))
        ∂(Measure.pi fun _ : Fin 2 => (volume : Measure (Fin 1 → ℝ))) =
      ∫⁻ u0, (Simulators.eulerPath key (concat finSumFinEquiv u0 v0) (0, [1 / 2, 1]) (fun z _ k => -z k) (fun _ => 1) 1).E
        (fun p => ENNReal.ofReal (unpackU (finSumFinEquiv (m := 1) (n := 1)) p.last 0 ^ 2)) ∂(stdNormal (Fin 1)) :=
  C59_filter (finSumFinEquiv (m := 1) (n := 1)) (drift := fun z _ k => -z k) (disp := fun _ => 1) (dt := 1 / 2)
    (fun _ => measurable_pi_iff.2 fun k => (measurable_pi_apply k).neg) (stdNormal (Fin 1)) (by norm_num)
    (0, [1 / 2, 1]) ⟨by norm_num, one_ne_zero, by norm_num, one_ne_zero, trivial⟩ v0 (normalRef 3)
    (fun k n F hF => E_normalRef k v0 n F hF) sums_stratified key key true true
    (φ := fun u _ => ENNReal.ofReal (u 0 ^ 2)) (by
      have : Measurable fun q : (Fin 1 → ℝ) × (Fin 2 → Fin 1 → ℝ) => q.1 0 ^ 2 := by fun_prop
      exact this.ennreal_ofReal)

end Props
end Fbs
