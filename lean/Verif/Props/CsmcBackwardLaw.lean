import Verif.Lemmas.CsmcBackward
import Verif.Props.CsmcBackward

/-!
# C11: when conditional SMC with backward sampling is exact

`csmc_kernel(backward=True)` leaves the smoothing distribution invariant if the function handed over as
`transition_logpdf` is, up to a term that does not depend on the previous state, the logarithm of
transition density times likelihood of the next observation.
-/

open MeasureTheory ProbabilityTheory
open scoped ENNReal

namespace Fbs
namespace Props

open Jax Spec Csmc

variable {N : ℕ} {U V : Type}

/-- Select the last index from the final weights, then sample backward. -/
noncomputable def sampleΨ (γs : List (U → U → ℝ)) (φ : List (U × Fin N) → ℝ≥0∞) (st : St N U) (_ : Fin N) :
    ℝ≥0∞ :=
  ∑ B, ENNReal.ofReal (st.W B / ∑ i, st.W i) * Bf φ γs st.H.tail (st.x B) [(st.x B, B)]

theorem normalise_gamma [NeZero N] (g lw : Fin N → ℝ) (c : ℝ) (B : Fin N) :
    normalise (fun i => g i - c + lw i) B
      = Real.exp (g B) * Real.exp (lw B) / ∑ i, Real.exp (g i) * Real.exp (lw i) := by
  rw [normalise_eq]
  have e : ∀ i, Real.exp (g i - c + lw i) = Real.exp (-c) * (Real.exp (g i) * Real.exp (lw i)) := by
    intro i
    rw [← Real.exp_add, ← Real.exp_add]
    congr 1; ring
  simp only [e]
  rw [← Finset.mul_sum, mul_div_mul_left _ _ (Real.exp_pos _).ne']

/-- The scan of the backward sampling pass. -/
theorem E_sampling_scan [NeZero N] {m : Funs N U V} {τ : V → ℝ → U → U → ℝ}
    (hτ : ∀ u us v t i, m.transLogpdf u us v t i = τ v t u (us i)) (φ : List (U × Fin N) → ℝ≥0∞) :
    ∀ (L : List ((Fin N → U) × (Fin N → ℝ))) (ks : List Key), ks.length = L.length →
    ∀ (vt : List (V × ℝ)) (x : U) (acc : List (U × Fin N)),
    (Rand.scan (samplingBody m) x (ks.zip ((L.map Prod.fst).zip ((L.map Prod.snd).zip vt)))).E
        (fun r => φ (r.2.reverse ++ acc))
      = Bf φ (vt.map fun q => τ q.1 q.2) (L.map fun h => (h.1, fun i => Real.exp (h.2 i))) x acc := by
  intro L
  induction L with
  | nil =>
    intro ks hk vt x acc
    rw [List.length_eq_zero_iff.1 hk]
    cases vt <;> simp [Rand.scan, Bf]
  | cons h L ih =>
    intro ks hk vt x acc
    obtain ⟨k, ks, rfl⟩ := List.exists_cons_of_length_eq_add_one hk
    cases vt with
    | nil => simp [Rand.scan, Bf]
    | cons q vt =>
      obtain ⟨v, t⟩ := q
      simp only [List.map_cons, List.zip_cons_cons, Rand.scan, samplingBody, Rand.E_bind, Rand.pure_eq,
        Rand.E_ret, Bf]
      rw [E_choice (normalise_weights _).nonneg (Weights.total_pos (normalise_weights _))]
      refine Finset.sum_congr rfl fun B _ => ?_
      rw [cat_normalised (normalise_weights _), normalise_gamma]
      simp only [hτ]
      congr 1
      have := ih ks (by simpa using hk) vt (h.1 B) ((h.1 B, B) :: acc)
      rw [← this]
      refine Rand.E_congr _ fun r => ?_
      simp

theorem revInit_map {α β : Type} (a : α) (l : List α) (f : α → β) :
    Arr1.revInit (f a, l.map f) = (Arr1.revInit (a, l)).map f := by
  simp [Arr1.revInit, Arr1.init, ← List.map_cons, List.map_dropLast]

theorem tail_reverse_cons {α : Type} (a : α) (l : List α) :
    (a :: l).reverse.tail = Arr1.revInit (a, l) := by
  rw [List.tail_reverse]
  rfl

/-- The factors of the backward pass, the latest first. -/
noncomputable def backFactors (τ : V → ℝ → U → U → ℝ) (vs : Arr1 V) (ts : Arr1 ℝ) : List (U → U → ℝ) :=
  (vs.revInit.zip ts.revInit).map fun q => τ q.1 q.2

theorem E_kernel_sampling [NeZero N] {m : Funs N U V} {τ : V → ℝ → U → U → ℝ}
    (hτ : ∀ u us v t i, m.transLogpdf u us v t i = τ v t u (us i)) (res : CondResampling N) (n : ℕ) (key : Key)
    (us : Arr1 U) (bs : Arr1 (Fin N)) (vs : Arr1 V) (ts : Arr1 ℝ) (b : Fin N)
    (φ : List U → List (Fin N) → ℝ≥0∞) :
    (kernel m res n true key us bs vs ts).E (fun out => φ out.1 out.2)
      = (forwardPass m res n (split key 2 0) us bs vs ts).E (fun out =>
          sampleΨ (backFactors τ vs ts) (fun l => φ (l.map Prod.fst) (l.map Prod.snd)) (finalSt out) b) := by
  simp only [kernel, forwardPass, Rand.E_bind, Rand.pure_eq, Rand.E_ret, if_true]
  refine Rand.E_congr _ fun x0 => Rand.E_congr _ fun r => ?_
  simp only [backwardSampling, barkerMove, Rand.E_bind, Rand.pure_eq, Rand.E_ret, sampleΨ, finalSt]
  rw [E_choice (normalise_weights _).nonneg (Weights.total_pos (normalise_weights _))]
  refine Finset.sum_congr rfl fun B _ => ?_
  rw [cat_normalised (normalise_weights _), normalise_eq]
  congr 1
  generalize atSet x0 bs.1 us.1 = x0'
  generalize normaliseLog (m.initLik vs.1 x0' (vs.2.headD vs.1)) = lw0
  -- all systems as one array
  let L : Arr1 ((Fin N → U) × (Fin N → ℝ)) := ((x0', lw0), r.2.map fun o => (o.2.2, o.1))
  have hx : ((x0', r.2.map fun o => o.2.2) : Arr1 (Fin N → U)) = (L.1.1, L.2.map Prod.fst) := by
    simp [L, Function.comp_def]
  have hl : ((lw0, r.2.map fun o => o.1) : Arr1 (Fin N → ℝ)) = (L.1.2, L.2.map Prod.snd) := by
    simp [L, Function.comp_def]
  have hlen : r.2.length = L.2.length := by simp [L]
  simp only [hx, hl]
  have hH : (List.zip (Arr1.toList (L.1.1, L.2.map Prod.fst))
      ((Arr1.toList (L.1.2, L.2.map Prod.snd)).map fun lw i => Real.exp (lw i))).reverse.tail
      = (Arr1.revInit L).map fun h => (h.1, fun i => Real.exp (h.2 i)) := by
    have : List.zip (Arr1.toList (L.1.1, L.2.map Prod.fst))
      ((Arr1.toList (L.1.2, L.2.map Prod.snd)).map fun lw i => Real.exp (lw i))
      = (L.1 :: L.2).map fun h => (h.1, fun i => Real.exp (h.2 i)) := by
      simp only [Arr1.toList, List.map_cons, List.map_map, List.zip_cons_cons]
      congr 1
      generalize L.2 = M
      induction M with
      | nil => rfl
      | cons h M ih => simpa using ih
    rw [this, List.map_cons, tail_reverse_cons]
    exact revInit_map L.1 L.2 fun h => (h.1, fun i => Real.exp (h.2 i))
  rw [hH, revInit_map, revInit_map]
  have := E_sampling_scan hτ (fun l => φ (l.map Prod.fst) (l.map Prod.snd)) (Arr1.revInit L)
    ((splitAll (split key 2 1) (L.2.length + 1)).dropLast)
    (by simp [splitAll, Arr1.revInit, Arr1.init]) (vs.revInit.zip ts.revInit)
    (Arr1.last (L.1.1, L.2.map Prod.fst) B) [(Arr1.last (L.1.1, L.2.map Prod.fst) B, B)]
  simp only [List.length_map, hlen]
  rw [show backFactors τ vs ts = (vs.revInit.zip ts.revInit).map fun q => τ q.1 q.2 from rfl, ← this]
  refine Rand.E_congr _ fun r' => ?_
  simp [Arr1.insertReverse]

variable [MeasurableSpace U]

theorem measFun_sample [NeZero N] {γs : List (U → U → ℝ)}
    (hγ : ∀ γ ∈ γs, Measurable fun q : U × U => γ q.1 q.2) {φ : List (U × Fin N) → ℝ≥0∞}
    (hφ : MeasPath (1 + γs.length) φ) : MeasFun (1 + γs.length) (sampleΨ γs φ) := by
  intro Z _ st hst b
  obtain ⟨h, hh, hH⟩ := hst.H
  have hW : ∀ i, Measurable fun z => (st z).W i := fun i => (measurable_pi_apply i).comp hst.W
  have hx : ∀ i, Measurable fun z => (st z).x i := fun i => (measurable_pi_apply i).comp hst.x
  unfold sampleΨ
  refine Finset.measurable_sum _ fun B _ => (ENNReal.measurable_ofReal.comp
    ((hW B).div (Finset.measurable_sum _ fun i _ => hW i))).mul ?_
  have := measurable_Bf γs hγ 1 hφ (fun z j => h z (j + 1))
    (measurable_pi_iff.2 fun j => (measurable_pi_apply (j + 1)).comp hh) (fun z => (st z).x B) (hx B)
    (fun z _ => ((st z).x B, B)) (measurable_pi_iff.2 fun _ => (hx B).prodMk measurable_const)
  convert this using 2 with z
  rw [hH, add_comm, range_map_succ]
  rfl

theorem MeasOut.measPath {k : ℕ} {φ : List U → List (Fin N) → ℝ≥0∞} (hφ : MeasOut k φ) :
    MeasPath k (fun l => φ (l.map Prod.fst) (l.map Prod.snd)) := by
  unfold MeasPath
  simp only [ofFn_range]
  exact hφ.comp (measurable_pi_iff.2 fun j => measurable_pi_apply (j : ℕ))

/-- The steps of the model with the corresponding factors of the backward pass. -/
def backSteps (S : StateSpace U V) (τ : V → ℝ → U → U → ℝ) : V → List V → List ℝ → List (FKStep U × (U → U → ℝ))
  | v, v' :: vs, t :: ts =>
    (⟨S.trans v t, S.markov v t, S.logG v' v t, S.measG v' v t⟩, τ v t) :: backSteps S τ v' vs ts
  | _, _, _ => []

theorem backSteps_fst (S : StateSpace U V) (τ : V → ℝ → U → U → ℝ) : ∀ (vs : List V) (v : V) (ts : List ℝ),
    (backSteps S τ v vs ts).map Prod.fst = S.steps v vs ts
  | [], _, _ => rfl
  | _ :: _, _, [] => rfl
  | v' :: vs, v, t :: ts => by simp only [backSteps, StateSpace.steps, List.map_cons, backSteps_fst S τ vs v' ts]

theorem backSteps_snd (S : StateSpace U V) (τ : V → ℝ → U → U → ℝ) : ∀ (vs : List V) (v : V) (t : ℝ) (ts : List ℝ),
    ts.length = vs.length → (backSteps S τ v vs (t :: ts)).map Prod.snd
      = ((v :: vs).dropLast.zip (t :: ts).dropLast).map fun q => τ q.1 q.2
  | [], _, _, ts, h => by rw [List.length_eq_zero_iff.1 h]; rfl
  | v' :: vs, v, t, ts, h => by
    obtain ⟨t', ts, rfl⟩ := List.exists_cons_of_length_eq_add_one h
    rw [backSteps, List.map_cons, backSteps_snd S τ vs v' t' ts (by simpa using h)]
    simp

theorem backSteps_mem (S : StateSpace U V) (τ : V → ℝ → U → U → ℝ) : ∀ (vs : List V) (v : V) (t : ℝ) (ts : List ℝ),
    ts.length = vs.length → ∀ q ∈ backSteps S τ v vs (t :: ts),
    ∃ p ∈ vs.zip ((v :: vs).dropLast.zip (t :: ts).dropLast),
      q = (⟨S.trans p.2.1 p.2.2, S.markov _ _, S.logG p.1 p.2.1 p.2.2, S.measG _ _ _⟩, τ p.2.1 p.2.2)
  | [], _, _, ts, h, q, hq => by rw [List.length_eq_zero_iff.1 h] at hq; simp [backSteps] at hq
  | v' :: vs, v, t, ts, h, q, hq => by
    obtain ⟨t', ts, rfl⟩ := List.exists_cons_of_length_eq_add_one h
    rw [backSteps, List.mem_cons] at hq
    rcases hq with rfl | hq
    · exact ⟨(v', v, t), by simp, rfl⟩
    · obtain ⟨p, hp, e⟩ := backSteps_mem S τ vs v' t' ts (by simpa using h) q hq
      exact ⟨p, by simpa using Or.inr hp, e⟩

/-- The function handed over as `transition_logpdf` accounts for the likelihood: at every step from
`(v, t)` to the next observation `v'` the transition has a density `p` for which
`p(y | x) exp(log p(v' | x, v)) = c(y) exp(τ(y, x))`, that is, `τ` is the logarithm of transition
density times likelihood of `v'` up to a term that does not depend on the previous state `x`. -/
def AccountsForLikelihood (S : StateSpace U V) (τ : V → ℝ → U → U → ℝ) (vs : Arr1 V) (ts : Arr1 ℝ) : Prop :=
  ∀ q ∈ vs.2.zip (vs.init.zip ts.init),
    ∃ (ν : Measure U) (p : U → U → ℝ≥0∞) (c : U → ℝ≥0∞), (∀ x, Measurable (p x)) ∧
      (∀ x, S.trans q.2.1 q.2.2 x = ν.withDensity (p x)) ∧
      ∀ x y, p x y * ENNReal.ofReal (Real.exp (S.logG q.1 q.2.1 q.2.2 x))
        = c y * ENNReal.ofReal (Real.exp (τ q.2.1 q.2.2 y x))

/-- **C11 (partial).** `csmc_kernel(backward=True)` leaves the smoothing distribution invariant if the
supplied `transition_logpdf` accounts for the likelihood of the next observation.  Missing: with the plain
transition log density, as documented, this fails (`C11_backward_not_invariant`). -/
theorem C11_backward_invariant_partial [NeZero N] {m : Funs N U V} {S : StateSpace U V} (hm : Implements m S)
    {res : CondResampling N} (sch : ExactScheme res) (n : ℕ) (key : Key)
    (vs : Arr1 V) (ts : Arr1 ℝ) (ht : ts.2.length = vs.2.length)
    {τ : V → ℝ → U → U → ℝ} (hτ : ∀ u us v t i, m.transLogpdf u us v t i = τ v t u (us i))
    (hmeas : ∀ v t, Measurable fun q : U × U => τ v t q.1 q.2)
    (hacc : AccountsForLikelihood S τ vs ts)
    (φ : List U → List (Fin N) → ℝ≥0∞) (hφ : MeasOut (1 + vs.2.length) φ) :
    S.target N vs ts (fun p =>
        (kernel m res n true key (p.map Prod.fst) (p.map Prod.snd) vs ts).E (fun out => φ out.1 out.2))
      = S.target N vs ts (fun p => φ (p.toList.map Prod.fst) (p.toList.map Prod.snd)) := by
  let φ' : List (U × Fin N) → ℝ≥0∞ := fun l => φ (l.map Prod.fst) (l.map Prod.snd)
  let l := backSteps S τ vs.1 vs.2 ts.toList
  have hfst : l.map Prod.fst = S.steps vs.1 vs.2 ts.toList := backSteps_fst S τ vs.2 vs.1 ts.toList
  have hsnd : l.map Prod.snd = (vs.init.zip ts.init).map fun q => τ q.1 q.2 :=
    backSteps_snd S τ vs.2 vs.1 ts.1 ts.2 ht
  have hlen : l.length = vs.2.length := by
    rw [← List.length_map (f := Prod.fst), hfst, steps_length]; simp [Arr1.toList, ht]
  have hback : backFactors τ vs ts = l.reverse.map Prod.snd := by
    rw [List.map_reverse, hsnd, backFactors, Arr1.revInit, Arr1.revInit,
      ← List.map_reverse, List.zip_eq_zipWith, List.zip_eq_zipWith, List.reverse_zipWith]
    simp [Arr1.init, ht]
  have hok : ∀ q ∈ l.reverse, BackOk q.1 q.2 := by
    intro q hq
    obtain ⟨p, hp, rfl⟩ := backSteps_mem S τ vs.2 vs.1 ts.1 ts.2 ht q (List.mem_reverse.1 hq)
    exact ⟨hmeas _ _, hacc p hp⟩
  have hΨ : MeasFun (1 + vs.2.length) (sampleΨ (backFactors τ vs ts) φ' : St N U → Fin N → ℝ≥0∞) := by
    have hl' : (backFactors τ vs ts).length = vs.2.length := by rw [hback]; simp [hlen]
    rw [← hl']
    refine measFun_sample ?_ (by rw [hl']; exact hφ.measPath)
    intro γ hγ
    obtain ⟨q, _, rfl⟩ := List.mem_map.1 hγ
    exact hmeas _ _
  have h1 : ∀ p : Arr1 (U × Fin N), (kernel m res n true key (p.map Prod.fst) (p.map Prod.snd) vs ts).E
      (fun out => φ out.1 out.2) = (forwardPass m res n (split key 2 0) (p.map Prod.fst) (p.map Prod.snd) vs ts).E
        (fun out => sampleΨ (backFactors τ vs ts) φ' (finalSt out) (p.map Prod.snd).last) :=
    fun p => E_kernel_sampling hτ res n key _ _ vs ts _ φ
  simp only [h1]
  rw [forwardPass_identity hm sch n (split key 2 0) vs ts ht hΨ,
    ← C10_csmc_invariant hm sch n key vs ts ht φ hφ]
  have h2 : ∀ p : Arr1 (U × Fin N), (kernel m res n false key (p.map Prod.fst) (p.map Prod.snd) vs ts).E
      (fun out => φ out.1 out.2) = (forwardPass m res n (split key 2 0) (p.map Prod.fst) (p.map Prod.snd) vs ts).E
        (fun out => selectΨ φ (finalSt out) (p.map Prod.snd).last) :=
    fun p => E_kernel_scanning m res n key _ _ vs ts _ φ
  simp only [h2]
  rw [forwardPass_identity hm sch n (split key 2 0) vs ts ht (measFun_select hφ)]
  refine lintegral_congr fun y => ?_
  congr 1
  have hinv : Inv 0 (initSt (S.logG0 vs.1 (vs.2.headD vs.1)) y) :=
    ⟨normalise_weights _, ⟨[], rfl, rfl⟩, fun i => rfl, fun i => rfl⟩
  have hsel : ∀ st : St N U, Weights st.W → ∑ b, ENNReal.ofReal (st.W b) * sampleΨ (backFactors τ vs ts) φ' st b
      = ∑ b, ENNReal.ofReal (st.W b) * backL (backFactors τ vs ts) φ' st b := by
    intro st hW
    have hsum : ∑ a, ENNReal.ofReal (st.W a) = 1 := by
      rw [← ENNReal.ofReal_sum_of_nonneg fun m _ => hW.nonneg m, hW.sum_one]; simp
    unfold sampleΨ backL
    rw [← Finset.sum_mul, hsum, one_mul, hW.sum_one]
    simp
  rw [Rf_congr _ hsel _ _ hinv.W, Rf_congr _ (fun st hW => select_eq_keep φ st hW) _ _ hinv.W]
  have hmain := Rf_back_eq_keep sch _ hinv l.reverse hok φ' (by
    have := hφ.measPath
    rw [List.length_reverse, hlen, add_comm]; exact this)
  rw [← hback, List.map_reverse, List.reverse_reverse, hfst] at hmain
  exact hmain

/-- **C11 (partial), constant likelihood.** With an exact transition log density the kernel is invariant if
along the observations the likelihood of the next observation does not depend on the previous state. -/
theorem C11_backward_constant_likelihood_partial [NeZero N] {m : Funs N U V} {S : StateSpace U V}
    (hm : Implements m S) {res : CondResampling N} (sch : ExactScheme res) (n : ℕ) (key : Key)
    (vs : Arr1 V) (ts : Arr1 ℝ) (ht : ts.2.length = vs.2.length) (ν : Measure U)
    {τ : V → ℝ → U → U → ℝ} (hτ : ∀ u us v t i, m.transLogpdf u us v t i = τ v t u (us i))
    (hmeas : ∀ v t, Measurable fun q : U × U => τ v t q.1 q.2)
    (hdens : ∀ v t x, S.trans v t x = ν.withDensity fun y => ENNReal.ofReal (Real.exp (τ v t y x)))
    (hconst : ∀ q ∈ vs.2.zip (vs.init.zip ts.init), ∃ c, ∀ x, S.logG q.1 q.2.1 q.2.2 x = c)
    (φ : List U → List (Fin N) → ℝ≥0∞) (hφ : MeasOut (1 + vs.2.length) φ) :
    S.target N vs ts (fun p =>
        (kernel m res n true key (p.map Prod.fst) (p.map Prod.snd) vs ts).E (fun out => φ out.1 out.2))
      = S.target N vs ts (fun p => φ (p.toList.map Prod.fst) (p.toList.map Prod.snd)) := by
  refine C11_backward_invariant_partial hm sch n key vs ts ht hτ hmeas ?_ φ hφ
  intro q hq
  obtain ⟨c, hc⟩ := hconst q hq
  refine ⟨ν, fun x y => ENNReal.ofReal (Real.exp (τ q.2.1 q.2.2 y x)), fun _ => ENNReal.ofReal (Real.exp c),
    fun x => ?_, hdens _ _, fun x y => ?_⟩
  · exact ENNReal.measurable_ofReal.comp (Real.measurable_exp.comp
      ((hmeas _ _).comp (measurable_id.prodMk measurable_const)))
  · rw [hc, mul_comm]

/-- The coin model of the counterexample with the likelihood added to `transition_logpdf`. -/
noncomputable def coinFunsJoint : Funs 2 Bool Unit :=
  { modelFuns coinModel 2 with
    transLogpdf := fun _ us _ _ i => Real.log (1 / 2) + (if us i then Real.log 2 else 0) }

theorem coin_withDensity : coin = Measure.count.withDensity fun _ => ENNReal.ofReal (Real.exp (Real.log (1 / 2))) := by
  rw [withDensity_const, coin, Real.exp_log (by norm_num)]
  congr 1
  rw [one_div, ENNReal.ofReal_inv_of_pos (by norm_num)]
  simp

/-- For the model on which C11 fails, adding the likelihood to `transition_logpdf` repairs the kernel. -/
example (key : Key) (vs : Arr1 Unit) (ts : Arr1 ℝ) (ht : ts.2.length = vs.2.length)
    (φ : List Bool → List (Fin 2) → ℝ≥0∞) :
    coinModel.target 2 vs ts (fun p =>
        (kernel coinFunsJoint CsmcResampling.killing 1 true key (p.map Prod.fst) (p.map Prod.snd) vs ts).E
          (fun out => φ out.1 out.2))
      = coinModel.target 2 vs ts (fun p => φ (p.toList.map Prod.fst) (p.toList.map Prod.snd)) := by
  refine C11_backward_invariant_partial (m := coinFunsJoint)
    (τ := fun _ _ _ u => Real.log (1 / 2) + (if u then Real.log 2 else 0))
    ⟨fun _ _ _ _ => rfl, fun _ _ _ _ _ _ => rfl, fun _ _ _ _ _ => rfl, fun _ _ _ _ => rfl⟩
    killingScheme 1 key vs ts ht (fun _ _ _ _ _ => rfl) (fun _ _ => measurable_of_finite _) ?_ φ
    (measurable_of_finite _)
  intro q _
  refine ⟨Measure.count, fun _ _ => ENNReal.ofReal (Real.exp (Real.log (1 / 2))), fun _ => 1,
    fun _ => measurable_const, fun x => ?_, fun x y => ?_⟩
  · show Kernel.const Bool coin x = _
    rw [Kernel.const_apply]; exact coin_withDensity
  · rw [one_mul, Real.exp_add, ENNReal.ofReal_mul (Real.exp_pos _).le]
    rfl

end Props
end Fbs
