import Verif.Model.CsmcTest
import Verif.Props.CsmcGibbs
import Verif.Props.Toy

/-!
# C110: the functions of `tests/test_csmc.py`
-/

open MeasureTheory ProbabilityTheory
open scoped ENNReal

namespace Fbs
namespace Props

open Jax Spec Csmc Gibbs CsmcTest

section

variable {N K : ℕ}

theorem measurable_tanh : Measurable Real.tanh := by
  have h : Real.tanh = fun x => Real.sinh x / Real.cosh x := funext Real.tanh_eq_sinh_div_cosh
  rw [h]
  exact Real.measurable_sinh.div Real.measurable_cosh

/-- The law of a transition, `x F + sqrt(Q) z`. -/
noncomputable def testStep (F Q : ℝ) : Kernel ℝ ℝ :=
  (Kernel.id ×ₖ Kernel.const ℝ (gaussianReal 0 1)).map fun p => p.1 * F + p.2 * Real.sqrt Q

instance (F Q : ℝ) : IsMarkovKernel (testStep F Q) := Kernel.IsMarkovKernel.map _ (by fun_prop)

theorem testStep_eq (F : ℝ) {Q : ℝ} (hQ : 0 ≤ Q) (u : ℝ) : testStep F Q u = gaussianReal (u * F) Q.toNNReal := by
  have h2 : Measurable fun p : ℝ × ℝ => p.1 * F + p.2 * Real.sqrt Q := by fun_prop
  unfold testStep
  rw [Kernel.map_apply _ h2, Kernel.prod_apply, Kernel.id_apply, Kernel.const_apply, Measure.dirac_prod,
    Measure.map_map h2 measurable_prodMk_left]
  have : (fun p : ℝ × ℝ => p.1 * F + p.2 * Real.sqrt Q) ∘ Prod.mk u = (u * F + ·) ∘ (Real.sqrt Q * ·) :=
    funext fun z => by simp [mul_comm]
  rw [this, ← Measure.map_map (by fun_prop) (by fun_prop), gaussianReal_map_const_mul, gaussianReal_map_const_add]
  congr 1
  · ring
  · exact NNReal.eq (by simp [Real.sq_sqrt hQ, hQ])

/-- The hidden Markov model behind the functions of the test. -/
noncomputable def testH (F Q statVar : ℝ) {R : ℝ} (hR : 0 < R) : Hmm ℝ ℝ where
  init := gaussianReal 0 statVar.toNNReal
  prob := inferInstance
  trans _ := testStep F Q
  markov _ := inferInstance
  base := volume
  sigma := inferInstance
  logLik v u := Linear.normLogpdf v (emission u) (Real.sqrt R)
  meas := by
    have h : Measurable fun p : ℝ × ℝ => emission p.2 := measurable_tanh.comp measurable_snd
    unfold Linear.normLogpdf
    fun_prop
  total u := by
    have hs : Real.sqrt R ≠ 0 := (Real.sqrt_pos.2 hR).ne'
    have hv : (Real.sqrt R ^ 2).toNNReal ≠ 0 := by
      rw [Real.sq_sqrt hR.le]
      exact (Real.toNNReal_pos.2 hR).ne'
    simp only [exp_linear_normLogpdf hs]
    exact lintegral_gaussianPDFReal_eq_one _ hv

theorem test_emLaw (F Q statVar : ℝ) {R : ℝ} (hR : 0 < R) (u : ℝ) :
    emLaw (testH F Q statVar hR) u = gaussianReal (emission u) R.toNNReal := by
  have hs : Real.sqrt R ≠ 0 := (Real.sqrt_pos.2 hR).ne'
  rw [gaussianReal_of_var_ne_zero _ (Real.toNNReal_pos.2 hR).ne']
  show volume.withDensity (fun v => ENNReal.ofReal (Real.exp (Linear.normLogpdf v (emission u) (Real.sqrt R)))) = _
  simp only [exp_linear_normLogpdf hs, Real.sq_sqrt hR.le]
  rfl

theorem samplerYs_E (R : ℝ) (key : Key) {xs : Arr1 ℝ} (h : xs.2.length = K) (Φ : Arr1 ℝ → ℝ≥0∞) :
    (samplerYs R key xs).E Φ
      = ∫⁻ z, Φ (arr fun i => emission (rowsOf K xs i) + Real.sqrt R * z i) ∂(Jax.stdNormal (Fin (K + 1))) := by
  subst h
  refine lintegral_congr fun z => ?_
  refine congrArg Φ (Prod.ext rfl ?_)
  refine congrArg List.ofFn (funext fun j => ?_)
  simp [rowsOf, Arr1.toList]

/-- Observations drawn by `sampler_ys_cond_xs` from the path whose `i`-th row is the row `src i` of `xs`. -/
noncomputable def samplerYsAt (src : Fin (K + 1) → Fin (K + 1)) (R : ℝ) (key : Key) (xs : Arr1 ℝ) : Rand (Arr1 ℝ) :=
  samplerYs R key (arr fun i => rowsOf K xs (src i))

theorem emits_samplerYsAt (src : Fin (K + 1) → Fin (K + 1)) (F Q statVar : ℝ) {R : ℝ} (hR : 0 < R) :
    (testH F Q statVar hR).Emits src (samplerYsAt src R) := fun key q Φ hΦ => by
  rw [← emits_hmmEmit (testH F Q statVar hR) src key q Φ hΦ]
  unfold hmmEmit samplerYsAt
  rw [Rand.E_bind, Rand.E_sample, rowsOf_arr, samplerYs_E (K := K) R key (by simp [arr]), rowsOf_arr]
  simp only [test_emLaw]
  exact lintegral_stdNormal hR.le (fun i : Fin (K + 1) => emission (q (src i))) hΦ

/-- **C110, the functions of the test.**  The functions of the test draw particles and evaluate densities as `csmc_kernel`
expects of them, for the chain with initial law `N(0, stat_var)` and transitions `N(x F, Q)` observed by `N(tanh(x), R)`, and
`sampler_ys_cond_xs` draws every observation at its own state. -/
theorem C110_test_functions (F : ℝ) {Q R statVar : ℝ} (hQ : 0 ≤ Q) (hs : 0 ≤ statVar) (hR : 0 < R) :
    Implements (funs N F Q R statVar) (testH F Q statVar hR).space ∧
      (testH F Q statVar hR).Emits (K := K) id (samplerYs R) := by
  refine ⟨⟨fun k n G hG => lintegral_stdNormal hs (fun _ : Fin N => (0 : ℝ)) hG, fun xs v t k G hG => ?_,
    fun _ _ _ _ _ => rfl, fun _ _ _ _ => rfl⟩, fun key q Φ hΦ => ?_⟩
  · have h := lintegral_stdNormal hQ (fun i : Fin N => xs i * F) hG
    have e : (Measure.pi fun i => (testH F Q statVar hR).space.trans v t (xs i)) = gaussProd (fun i => xs i * F) Q.toNNReal := by
      unfold gaussProd
      congr 1
      exact funext fun i => testStep_eq F hQ (xs i)
    rw [e, ← h]
    refine lintegral_congr fun z => ?_
    exact congrArg G (funext fun i => by rw [mul_comm (Real.sqrt Q)])
  · rw [← emits_samplerYsAt id F Q statVar hR key q Φ hΦ]
    unfold samplerYsAt
    rw [rowsOf_arr]
    rfl

/-- **C110, the functions of the test, observations one step late.**  With the functions of the test, its `killing` scheme
and `sampler_ys_cond_xs` called on the trajectory shifted by one step, every number of rounds leaves the law of the chain
unchanged. -/
theorem C110_test_shifted [NeZero N] (F : ℝ) {Q R statVar : ℝ} (hQ : 0 ≤ Q) (hs : 0 ≤ statVar) (hR : 0 < R) {ts : Arr1 ℝ}
    (ht : ts.2.length = K) (n k : ℕ) (key : Key) (bs : Arr1 (Fin N)) (hb : bs.2.length = K) {f : Arr1 ℝ → ℝ≥0∞}
    (hf : Measurable fun q : Fin (K + 1) → ℝ => f (arr q)) :
    (testH F Q statVar hR).prior ts (fun us =>
      (csmcGibbs (funs N F Q R statVar) CsmcResampling.killing n (samplerYsAt (K := K) lag R) ts k key us bs).E fun s => f s.1)
      = (testH F Q statVar hR).prior ts f :=
  C110_prior_kept (C110_test_functions (K := K) F hQ hs hR).1 (Or.inl rfl) n (emits_samplerYsAt lag F Q statVar hR) ht k key
    bs hb hf

/-- The setting of `/repo/tests/test_csmc.py`: `nparticles = 10` (the kernel carries one more), eleven times. -/
example (k : ℕ) (key : Key) : (testH (Real.exp (-1)) (1 - Real.exp (-2)) 1 one_pos).prior (0, [1, 2, 3, 4, 5, 6, 7, 8, 9, 10])
    (fun us => (csmcGibbs (funs 11 (Real.exp (-1)) (1 - Real.exp (-2)) 1 1) CsmcResampling.killing 10
      (samplerYsAt (K := 10) lag 1) (0, [1, 2, 3, 4, 5, 6, 7, 8, 9, 10]) k key us (0, List.replicate 10 0)).E
        fun s => ENNReal.ofReal (s.1.1 ^ 2))
    = (testH (Real.exp (-1)) (1 - Real.exp (-2)) 1 one_pos).prior (0, [1, 2, 3, 4, 5, 6, 7, 8, 9, 10])
        fun us => ENNReal.ofReal (us.1 ^ 2) :=
  C110_test_shifted (K := 10) _ (sub_nonneg.2 (Real.exp_le_one_iff.2 (by norm_num))) one_pos.le one_pos rfl 10 k key _ rfl
    (f := fun us => ENNReal.ofReal (us.1 ^ 2)) (by unfold arr; fun_prop)

end

end Props
end Fbs
