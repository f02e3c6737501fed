import Verif.Lemmas.CsmcLaw
import Verif.Lemmas.Live
import Verif.Props.CsmcLaw

/-!
# C11: conditional SMC with backward sampling

`backward_sampling_pass` weights the particles of time `k` by their filter weights and the transition
density to the selected state of time `k+1`, but the likelihood of `v_{k+1}` also depends on the state
of time `k` and is left out.  The kernel is therefore not invariant.
-/

open MeasureTheory ProbabilityTheory
open scoped ENNReal

namespace Fbs
namespace Props

open Jax Spec Csmc

/-- Fair coin. -/
noncomputable def coin : Measure Bool := (2 : ℝ≥0∞)⁻¹ • Measure.count

theorem lintegral_coin (f : Bool → ℝ≥0∞) : ∫⁻ u, f u ∂coin = 2⁻¹ * (f true + f false) := by
  rw [coin, lintegral_smul_measure, lintegral_count]
  simp [tsum_fintype]

instance : IsProbabilityMeasure coin := ⟨by
  rw [← lintegral_one, lintegral_coin, one_add_one_eq_two]
  exact ENNReal.inv_mul_cancel (by norm_num) (by norm_num)⟩

/-- Two independent coins; the observation at time one is twice as likely if the first coin is heads. -/
noncomputable def coinModel : StateSpace Bool Unit where
  init := coin
  prob := inferInstance
  trans _ _ := Kernel.const Bool coin
  markov _ _ := inferInstance
  logG _ _ _ u := if u then Real.log 2 else 0
  measG _ _ _ := measurable_of_finite _
  logG0 _ _ _ := 0
  measG0 _ _ := measurable_const

/-- Its implementation with two particles and the exact transition log-probabilities. -/
noncomputable def coinFuns : Funs 2 Bool Unit :=
  { modelFuns coinModel 2 with transLogpdf := fun _ _ _ _ _ => Real.log (1 / 2) }

theorem implements_coinFuns : Implements coinFuns coinModel where
  init _ _ _ _ := rfl
  trans _ _ _ _ _ _ := rfl
  lik _ _ _ _ _ := rfl
  initLik _ _ _ _ := rfl

/-- The test function: is the first state heads? -/
def headsFirst (us : List Bool) : ℝ≥0∞ := if us.head? = some true then 1 else 0

theorem normalise_const {N : ℕ} [NeZero N] (c : ℝ) (i : Fin N) : normalise (fun _ => c) i = (N : ℝ)⁻¹ := by
  rw [normalise_eq]
  simp only [Finset.sum_const, Finset.card_univ, Fintype.card_fin, nsmul_eq_mul]
  rw [div_mul_cancel_right₀ (Real.exp_ne_zero c)]

theorem E_backward_coin (key : Key) (vs : Arr1 Unit) (ts : Arr1 ℝ) (hv : vs.2.length = 1)
    (ht : ts.2.length = 1) (x0 x1 : Fin 2 → Bool) (c : ℝ) (l1 : Fin 2 → ℝ) :
    (backwardSampling coinFuns key vs ts (x0, [x1]) (fun _ => c, [l1])).E (fun out => headsFirst out.1)
      = 2⁻¹ * ∑ B, headsFirst [x0 B] := by
  obtain ⟨v, vs⟩ := vs
  obtain ⟨t, ts⟩ := ts
  obtain ⟨v', rfl⟩ := List.length_eq_one_iff.1 hv
  obtain ⟨t', rfl⟩ := List.length_eq_one_iff.1 ht
  have hw : ∀ x : Bool, (normalise fun i => coinFuns.transLogpdf x x0 v t i
      - vmax (coinFuns.transLogpdf x x0 v t) + c) = fun _ => (2 : ℝ)⁻¹ := by
    intro x
    have : (fun i => coinFuns.transLogpdf x x0 v t i - vmax (coinFuns.transLogpdf x x0 v t) + c)
        = fun _ : Fin 2 => Real.log (1 / 2) - vmax (coinFuns.transLogpdf x x0 v t) + c := rfl
    rw [this]
    funext i
    rw [normalise_const]
    norm_num
  have hW : Weights (fun _ : Fin 2 => (2 : ℝ)⁻¹) := ⟨fun _ => by norm_num, by simp⟩
  have h1 : ∀ BT k, (choice k (fun _ : Fin 2 => (2 : ℝ)⁻¹)).E
      (fun B => headsFirst [x0 B, x1 BT]) = 2⁻¹ * ∑ B, headsFirst [x0 B] := by
    intro BT k
    rw [E_choice hW.nonneg (Weights.total_pos hW), Finset.mul_sum]
    refine Finset.sum_congr rfl fun B _ => ?_
    rw [cat_normalised hW, ENNReal.ofReal_inv_of_pos (by norm_num)]
    simp [headsFirst]
  simp only [backwardSampling, barkerMove, splitAll, Arr1.revInit, Arr1.init, Arr1.last, samplingBody,
    Rand.scan, Rand.E_bind, Rand.pure_eq, Rand.E_ret, List.length_cons, List.length_nil, List.range_succ,
    List.range_zero, List.nil_append, List.map_cons, List.map_nil, List.dropLast, List.getLast_cons_cons,
    List.getLast_singleton, List.cons_append, List.reverse_cons, List.reverse_nil, List.zip_cons_cons, List.zip_nil_left,
    Arr1.insertReverse, hw, h1]
  rw [Rand.E_const]
  exact Rand.IsProb.bind ⟨inferInstance, fun _ => trivial⟩ fun _ => trivial

theorem E_kernel_coin (key : Key) (u u' : Bool) (b b' : Fin 2) :
    (kernel coinFuns CsmcResampling.killing 1 true key (u, [u']) (b, [b']) ((), [()]) (0, [1])).E
      (fun out => headsFirst out.1) = 2⁻¹ * headsFirst [u] + 4⁻¹ := by
  have hK : ∀ k w i j, (CsmcResampling.killing (n := 2) k w i j true).IsProb := by
    intro k w i j
    unfold CsmcResampling.killing uniforms choices choice uniforms uniform
    refine Rand.IsProb.bind ⟨inferInstance, fun _ => trivial⟩ fun _ => Rand.IsProb.bind ?_ fun _ => ?_
    · exact Rand.IsProb.bind ⟨inferInstance, fun _ => trivial⟩ fun _ => trivial
    · exact Rand.IsProb.bind (Rand.IsProb.bind ⟨inferInstance, fun _ => trivial⟩ fun _ => trivial)
        fun _ => trivial
  have hT : ∀ xs v t k, (coinFuns.transSampler xs v t k).IsProb := fun xs v t k =>
    ⟨by show IsProbabilityMeasure (Measure.pi fun _ => coin); infer_instance, fun _ => trivial⟩
  have hc : normaliseLog (fun _ : Fin 2 => (0 : ℝ)) = fun _ => 0 - logsumexp (fun _ : Fin 2 => (0 : ℝ)) := rfl
  have h1 : ∀ raw, coinFuns.initLik () (atSet raw b u) () = fun _ => 0 := fun _ => rfl
  simp only [kernel, forwardPass, Rand.E_bind, Rand.pure_eq, Rand.E_ret, scanInputs, Arr1.init,
    List.dropLast, List.zip_cons_cons, List.zip_nil_left, splitAll, List.length_cons, List.length_nil,
    zero_add, List.range_succ, List.range_zero, List.nil_append, List.map_cons, List.map_nil, Rand.scan,
    scanBody, List.headD_cons, h1, hc, if_true]
  simp only [E_backward_coin _ ((), [()]) (0, [1]) rfl rfl, Rand.E_const (hT _ _ _ _),
    Rand.E_const (hK _ _ _ _)]
  have hinit : ∀ k n (F : (Fin 2 → Bool) → ℝ≥0∞), (coinFuns.initSampler k n).E F
      = ∫⁻ x, F x ∂(Measure.pi fun _ => coin) := fun _ _ _ => rfl
  rw [hinit]
  have hfin : ∀ x : Fin 2 → Bool, 2⁻¹ * ∑ B, headsFirst [atSet x b u B]
      = 2⁻¹ * headsFirst [u] + 2⁻¹ * headsFirst [x (1 - b)] := by
    intro x
    rw [Fin.sum_univ_two, ← mul_add]
    congr 1
    fin_cases b
    · simp [atSet]
    · simp [atSet, add_comm]
  simp only [hfin]
  rw [lintegral_add_left measurable_const, lintegral_const, lintegral_const_mul _ (measurable_of_finite _)]
  have := (measurePreserving_eval (fun _ : Fin 2 => coin) (1 - b)).lintegral_comp
    (f := fun y => headsFirst [y]) (measurable_of_finite _)
  simp only [Function.eval] at this
  rw [this, lintegral_coin]
  simp [headsFirst]
  rw [← ENNReal.mul_inv (by norm_num) (by norm_num)]
  norm_num

theorem target_coin (g : Bool → ℝ≥0∞) :
    coinModel.target 2 ((), [()]) (0, [1]) (fun p => g p.1.1) = g true + 2⁻¹ * g false := by
  have h2 : (2 : ℝ≥0∞)⁻¹ * 2 = 1 := ENNReal.inv_mul_cancel (by norm_num) (by norm_num)
  have hc : ∀ c : ℝ≥0∞, 2⁻¹ * (c + c) = c := fun c => by rw [← two_mul, ← mul_assoc, h2, one_mul]
  have hi : ∀ f : Bool → ℝ≥0∞, ∫⁻ u, f u ∂coinModel.init = 2⁻¹ * (f true + f false) := lintegral_coin
  have ht : ∀ v t u (f : Bool → ℝ≥0∞), ∫⁻ u', f u' ∂(coinModel.trans v t u) = 2⁻¹ * (f true + f false) :=
    fun _ _ _ f => by
      show ∫⁻ u', f u' ∂(Kernel.const Bool coin _) = _
      rw [Kernel.const_apply, lintegral_coin]
  have h0 : ∀ u, coinModel.logG0 () () u = 0 := fun _ => rfl
  have hT : coinModel.logG () () 0 true = Real.log 2 := rfl
  have hF : coinModel.logG () () 0 false = 0 := rfl
  simp only [StateSpace.target, hi, StateSpace.steps, Arr1.toList, extInt, ht, Fin.sum_univ_two,
    List.headD_cons, h0, Real.exp_zero, ENNReal.ofReal_one, one_mul, Nat.cast_ofNat, hT, hF,
    Real.exp_log (two_pos), hc]
  rw [mul_add, ← mul_assoc, ENNReal.ofReal_ofNat, h2, one_mul]

/-- **C11 fails.** With an exact transition log density, exact model functions, one particle besides
the reference, and one observation whose likelihood depends on the previous state (as
`measurement_cond_logpdf` may), one call of `csmc_kernel(backward=True)` started in the smoothing
distribution leaves it. -/
theorem C11_backward_not_invariant :
    ∃ (S : StateSpace Bool Unit) (m : Funs 2 Bool Unit), Implements m S ∧
      (∀ u us v t i, ENNReal.ofReal (Real.exp (m.transLogpdf u us v t i)) = S.trans v t (us i) {u}) ∧
      ∃ vs ts, ts.2.length = vs.2.length ∧ ∃ φ : List Bool → ℝ≥0∞, ∀ key,
        S.target 2 vs ts (fun p =>
          (kernel m CsmcResampling.killing 1 true key (p.map Prod.fst) (p.map Prod.snd) vs ts).E
            (fun out => φ out.1))
        ≠ S.target 2 vs ts (fun p => φ (p.toList.map Prod.fst)) := by
  refine ⟨coinModel, coinFuns, implements_coinFuns, ?_, ((), [()]), (0, [1]), rfl, headsFirst, ?_⟩
  · intro u us v t i
    have h1 : coinFuns.transLogpdf u us v t i = Real.log (1 / 2) := rfl
    have h2 : coinModel.trans v t (us i) {u} = coin {u} := by
      show Kernel.const Bool coin _ _ = _
      rw [Kernel.const_apply]
    rw [h1, h2, Real.exp_log (by norm_num), coin]
    simp
  · intro key
    rw [target_congr coinModel ((), [()]) (0, [1]) rfl
      (ψ := fun p => (fun u => 2⁻¹ * headsFirst [u] + 4⁻¹) p.1.1) ?_,
      target_coin (fun u => 2⁻¹ * headsFirst [u] + 4⁻¹)]
    · have h3 : coinModel.target 2 ((), [()]) (0, [1]) (fun p => headsFirst (p.toList.map Prod.fst))
          = coinModel.target 2 ((), [()]) (0, [1]) (fun p => headsFirst [p.1.1]) := by
        refine target_congr coinModel ((), [()]) (0, [1]) rfl fun p _ => ?_
        simp [headsFirst, Arr1.toList]
      rw [h3, target_coin (fun u => headsFirst [u])]
      intro h
      have := congrArg ENNReal.toReal h
      rw [ENNReal.toReal_add (by simp [headsFirst]) (by simp [headsFirst, ENNReal.mul_eq_top])] at this
      simp [headsFirst, ENNReal.toReal_add] at this
      norm_num at this
    · rintro ⟨⟨u, b⟩, l⟩ hl
      obtain ⟨⟨u', b'⟩, rfl⟩ := List.length_eq_one_iff.1 hl
      exact E_kernel_coin key u u' b b'

end Props
end Fbs
