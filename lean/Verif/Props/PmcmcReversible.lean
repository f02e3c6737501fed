import Verif.Lemmas.ProposalPos
import Verif.Props.ChainAverages

/-!
# C104: the pseudo-marginal chain is reversible and its autocovariances are non-negative
-/

open MeasureTheory ProbabilityTheory
open scoped ENNReal

namespace Fbs
namespace Props

open Jax Spec Smc Chains

/-! ### Reduction to a Metropolis–Hastings form -/

section Reduction

variable {U V : Type} {N K : ℕ} [NeZero N] [MeasurableSpace U] [MeasurableSpace V] [AddCommGroup V] [Module ℝ V]

/-- The path proposal is a kernel which is reversible and positive for `P`. -/
def GoodProposal (y0 : V) (ts : Fin (K + 1) → ℝ) (fwdYs : Key → V → Rand (Fin (K + 1) → V)) (sdeMean : ℝ → ℝ → V → V)
    (delta : Option ℝ) (P : Measure (Fin (K + 1) → V)) : Prop :=
  ∃ Q : Kernel (Fin (K + 1) → V) (Fin (K + 1) → V), IsMarkovKernel Q ∧
    (∀ k ys f, Measurable f → (pmcmcProposal k ys y0 ts fwdYs sdeMean delta).E f = ∫⁻ ys', f ys' ∂(Q ys)) ∧
    (∀ f : (Fin (K + 1) → V) × (Fin (K + 1) → V) → ℝ≥0∞, Measurable f →
      ∫⁻ y, ∫⁻ y', f (y, y') ∂(Q y) ∂P = ∫⁻ y, ∫⁻ y', f (y', y) ∂(Q y) ∂P) ∧ Pos Q P

theorem good_none (y0 : V) (ts : Fin (K + 1) → ℝ) {fwdYs : Key → V → Rand (Fin (K + 1) → V)} (sdeMean : ℝ → ℝ → V → V)
    {P : Measure (Fin (K + 1) → V)} [IsProbabilityMeasure P]
    (hP : ∀ k f, Measurable f → (fwdYs k y0).E f = ∫⁻ ys, f ys ∂P) : GoodProposal y0 ts fwdYs sdeMean none P :=
  ⟨Kernel.const _ P, inferInstance, fun k _ f hf => by rw [Kernel.const_apply]; exact hP _ f hf, fun f hf => by
    simp only [Kernel.const_apply]
    exact lintegral_lintegral_swap hf.aemeasurable, pos_const P⟩

/-- From the state of the chain to path, particle and log estimate. -/
def unpack (z : (Fin (K + 1) → V) × (U × ℝ)) : U × ℝ × (Fin (K + 1) → V) := (z.2.1, z.2.2, z.1)

omit [NeZero N] [AddCommGroup V] [Module ℝ V] in
theorem measurable_unpack : Measurable (unpack (U := U) (V := V) (K := K)) := by unfold unpack; fun_prop

/-- The chain as a kernel on (particle, log estimate, path), the extended target as a measure, and the lag-one products as a
Metropolis–Hastings form. -/
theorem pmcmc_ker {m : Funs N U V} {ref : Kernel V U} [IsMarkovKernel ref] {S : StateSpace U V}
    (hm : PmcmcImplements m ref S) (hS : S.JointMeas) {res : Smc.Resampling N} (hres : MeasurableScheme res) {y0 : V}
    {ts : Fin (K + 1) → ℝ} {fwdYs : Key → V → Rand (Fin (K + 1) → V)} {sdeMean : ℝ → ℝ → V → V} {delta : Option ℝ} (i : Fin N)
    (P : Measure (Fin (K + 1) → V)) [SFinite P] {κ : Kernel (Fin (K + 1) → V) (U × ℝ)} [IsMarkovKernel κ]
    (hest : ∀ k ys f, Measurable f → (pmcmcEstimate m res k ys ts i).E f = ∫⁻ p, f p ∂(κ ys))
    {Q : Kernel (Fin (K + 1) → V) (Fin (K + 1) → V)} [IsMarkovKernel Q]
    (hpr : ∀ k ys f, Measurable f → (pmcmcProposal k ys y0 ts fwdYs sdeMean delta).E f = ∫⁻ ys', f ys' ∂(Q ys)) :
    ∃ (η : Kernel (U × ℝ × (Fin (K + 1) → V)) (U × ℝ × (Fin (K + 1) → V))) (M : Measure (U × ℝ × (Fin (K + 1) → V))),
      IsMarkovKernel η ∧
      (∀ k s f, Measurable f → (pmcmcNext m res y0 ts fwdYs sdeMean delta i k s).E f = ∫⁻ s', f s' ∂(η s)) ∧
      (∀ key₀ f, Measurable f → extTarget m res ts i P key₀ (fun u l ys => f (u, l, ys)) = ∫⁻ s, f s ∂M) ∧
      (∀ f, Measurable f → ∫⁻ s, f s ∂M = ∫⁻ z, ENNReal.ofReal (Real.exp z.2.2) * f (unpack z) ∂(P ⊗ₘ κ)) ∧
      (∀ f g, Measurable f → Measurable g →
        lagProd η M f g 1 = mhForm (P ⊗ₘ κ) (extProp κ Q) (fun z => z.2.2) (fun z => f (unpack z)) fun z => g (unpack z)) := by
  obtain ⟨η, hη, hE⟩ := hasKer_pmcmcNext hm hS hres y0 ts fwdYs sdeMean delta i ⟨Q, inferInstance, hpr⟩
  let w : (Fin (K + 1) → V) × (U × ℝ) → ℝ := fun z => z.2.2
  have hw : Measurable w := by fun_prop
  have hd : Measurable fun z : (Fin (K + 1) → V) × (U × ℝ) => ENNReal.ofReal (Real.exp (w z)) := by fun_prop
  have hu := measurable_unpack (U := U) (V := V) (K := K)
  have hM : ∀ {f : U × ℝ × (Fin (K + 1) → V) → ℝ≥0∞}, Measurable f →
      ∫⁻ s, f s ∂(((P ⊗ₘ κ).withDensity fun z => ENNReal.ofReal (Real.exp (w z))).map unpack)
        = ∫⁻ z, ENNReal.ofReal (Real.exp (w z)) * f (unpack z) ∂(P ⊗ₘ κ) := fun {f} hf => by
    have hfu : Measurable fun z : (Fin (K + 1) → V) × (U × ℝ) => f (unpack z) := hf.comp hu
    rw [lintegral_map hf hu, lintegral_withDensity_eq_lintegral_mul _ hd hfu]
    rfl
  have hηu : ∀ {g : U × ℝ × (Fin (K + 1) → V) → ℝ≥0∞}, Measurable g → ∀ z, ∫⁻ s', g s' ∂(η (unpack z))
      = ∫⁻ z', accProb (w z) (w z') * g (unpack z') + (1 - accProb (w z) (w z')) * g (unpack z) ∂(extProp κ Q z) := by
    intro g hg z
    have hgu : Measurable fun z : (Fin (K + 1) → V) × (U × ℝ) => g (unpack z) := hg.comp hu
    have haz : Measurable fun z' => accProb (w z) (w z') := measurable_accProb.comp (measurable_const.prodMk hw)
    have hbz : Measurable fun z' => 1 - accProb (w z) (w z') := measurable_const.sub haz
    have hm2 : Measurable fun z' => accProb (w z) (w z') * g (unpack z') + (1 - accProb (w z) (w z')) * g (unpack z) :=
      mAdd (mMul haz hgu) (hbz.mul_const _)
    rw [← hE [] _ g hg, lintegral_extProp κ Q hm2, pmcmcNext, Rand.E_map]
    have hk := E_pmcmcKernel m res [] (unpack z).1 (unpack z).2.1 (unpack z).2.2 y0 ts fwdYs sdeMean delta i fun u l ys => g (u, l, ys)
    refine hk.trans ?_
    have hin : Measurable fun ys' => ∫⁻ p', accProb (w z) (w (ys', p')) * g (unpack (ys', p'))
        + (1 - accProb (w z) (w (ys', p'))) * g (unpack z) ∂(κ ys') := hm2.lintegral_kernel_prod_right'
    rw [← hpr [] z.1 _ hin]
    refine Rand.E_congr _ fun ys' => ?_
    have hs : Measurable fun p' => accProb (w z) (w (ys', p')) * g (unpack (ys', p'))
        + (1 - accProb (w z) (w (ys', p'))) * g (unpack z) := measurable_section hm2 ys'
    rw [← hest [] ys' _ hs]
    rfl
  have hlag : ∀ {f g : U × ℝ × (Fin (K + 1) → V) → ℝ≥0∞}, Measurable f → Measurable g →
      lagProd η (((P ⊗ₘ κ).withDensity fun z => ENNReal.ofReal (Real.exp (w z))).map unpack) f g 1
        = mhForm (P ⊗ₘ κ) (extProp κ Q) w (fun z => f (unpack z)) fun z => g (unpack z) := fun {f g} hf hg => by
    have hfg : Measurable fun s => f s * ∫⁻ s', g s' ∂(η s) := mMul hf hg.lintegral_kernel
    refine (hM hfg).trans (lintegral_congr fun z => ?_)
    rw [hηu hg]
  refine ⟨η, ((P ⊗ₘ κ).withDensity fun z => ENNReal.ofReal (Real.exp (w z))).map unpack, hη, hE, fun key₀ f hf => ?_,
    fun f hf => hM hf, fun f g hf hg => hlag hf hg⟩
  rw [hM hf]
  have hmw : Measurable fun z : (Fin (K + 1) → V) × (U × ℝ) => ENNReal.ofReal (Real.exp (w z)) * f (unpack z) :=
    mMul hd (hf.comp hu)
  rw [Measure.lintegral_compProd hmw]
  exact lintegral_congr fun ys => hest key₀ ys _ (measurable_section hmw ys)

theorem pmcmc_rev_ker {m : Funs N U V} {ref : Kernel V U} [IsMarkovKernel ref] {S : StateSpace U V}
    (hm : PmcmcImplements m ref S) (hS : S.JointMeas) {res : Smc.Resampling N} (hres : MeasurableScheme res) {y0 : V}
    {ts : Fin (K + 1) → ℝ} {fwdYs : Key → V → Rand (Fin (K + 1) → V)} {sdeMean : ℝ → ℝ → V → V} {delta : Option ℝ} (i : Fin N)
    {P : Measure (Fin (K + 1) → V)} [SFinite P] (hg : GoodProposal y0 ts fwdYs sdeMean delta P) :
    ∃ (η : Kernel (U × ℝ × (Fin (K + 1) → V)) (U × ℝ × (Fin (K + 1) → V))) (M : Measure (U × ℝ × (Fin (K + 1) → V))),
      IsMarkovKernel η ∧
      (∀ k s f, Measurable f → (pmcmcNext m res y0 ts fwdYs sdeMean delta i k s).E f = ∫⁻ s', f s' ∂(η s)) ∧
      (∀ key₀ f, Measurable f → extTarget m res ts i P key₀ (fun u l ys => f (u, l, ys)) = ∫⁻ s, f s ∂M) ∧
      Rev η M ∧ Pos η M := by
  obtain ⟨κ, hκ, hest⟩ := hasKer_estimate hm hS hres ts i
  obtain ⟨Q, hQ, hpr, hrev, hpos⟩ := hg
  obtain ⟨η, M, hη, hE, hM, -, hlag⟩ := pmcmc_ker hm hS hres i P hest hpr
  have hw : Measurable fun z : (Fin (K + 1) → V) × (U × ℝ) => z.2.2 := by fun_prop
  have hu := measurable_unpack (U := U) (V := V) (K := K)
  refine ⟨η, M, hη, hE, hM, fun f g hf hg => ?_, fun f g hf hg => ?_⟩
  · rw [hlag f g hf hg, hlag g f hg hf]
    exact mhForm_comm hw (fun F hF => extProp_rev P κ Q hrev hF) (hf.comp hu) (hg.comp hu)
  · rw [hlag f g hf hg, hlag g f hg hf, hlag f f hf hf, hlag g g hg hg]
    exact mhForm_pos hw (extProp_pos P κ Q hpos) (hf.comp hu) (hg.comp hu)

section

variable {m : Funs N U V} {ref : Kernel V U} [IsMarkovKernel ref] {S : StateSpace U V}
    (hm : PmcmcImplements m ref S) (hS : S.JointMeas) {res : Smc.Resampling N} (hres : MeasurableScheme res) {y0 : V}
    {ts : Fin (K + 1) → ℝ} {fwdYs : Key → V → Rand (Fin (K + 1) → V)} {sdeMean : ℝ → ℝ → V → V} {delta : Option ℝ} (i : Fin N)
    {P : Measure (Fin (K + 1) → V)} [SFinite P] (hgood : GoodProposal y0 ts fwdYs sdeMean delta P)

include hm hS hres hgood

theorem good_reversible (key₀ key : Key) {f g : U × ℝ × (Fin (K + 1) → V) → ℝ≥0∞} (hf : Measurable f) (hg : Measurable g) :
    extTarget m res ts i P key₀ (fun u l ys => f (u, l, ys) *
        (pmcmcKernel m res key u l ys y0 ts fwdYs sdeMean delta i).E fun out => g (out.1, out.2.1, out.2.2.1))
      = extTarget m res ts i P key₀ (fun u l ys => g (u, l, ys) *
        (pmcmcKernel m res key u l ys y0 ts fwdYs sdeMean delta i).E fun out => f (out.1, out.2.1, out.2.2.1)) := by
  obtain ⟨η, M, hη, hE, hM, hrev, -⟩ := pmcmc_rev_ker hm hS hres i hgood
  have e : ∀ {f g : U × ℝ × (Fin (K + 1) → V) → ℝ≥0∞}, Measurable f → Measurable g →
      extTarget m res ts i P key₀ (fun u l ys => f (u, l, ys) *
        (pmcmcKernel m res key u l ys y0 ts fwdYs sdeMean delta i).E fun out => g (out.1, out.2.1, out.2.2.1))
      = lagProd η M f g 1 := fun {f g} hf hg => by
    refine Eq.trans ?_ (hM key₀ _ (mMul hf (measurable_iterInt hg 1)))
    refine congrArg _ (funext fun u => funext fun l => funext fun ys => ?_)
    rw [iterInt, ← hE key (u, l, ys) _ (measurable_iterInt hg 0), pmcmcNext, Rand.E_map]
    rfl
  rw [e hf hg, e hg hf]
  exact hrev f g hf hg

theorem good_positive (key₀ key : Key) {f g : U × ℝ × (Fin (K + 1) → V) → ℝ≥0∞} (hf : Measurable f) (hg : Measurable g) :
    extTarget m res ts i P key₀ (fun u l ys => f (u, l, ys) *
          (pmcmcKernel m res key u l ys y0 ts fwdYs sdeMean delta i).E fun out => g (out.1, out.2.1, out.2.2.1))
        + extTarget m res ts i P key₀ (fun u l ys => g (u, l, ys) *
          (pmcmcKernel m res key u l ys y0 ts fwdYs sdeMean delta i).E fun out => f (out.1, out.2.1, out.2.2.1))
      ≤ extTarget m res ts i P key₀ (fun u l ys => f (u, l, ys) *
          (pmcmcKernel m res key u l ys y0 ts fwdYs sdeMean delta i).E fun out => f (out.1, out.2.1, out.2.2.1))
        + extTarget m res ts i P key₀ (fun u l ys => g (u, l, ys) *
          (pmcmcKernel m res key u l ys y0 ts fwdYs sdeMean delta i).E fun out => g (out.1, out.2.1, out.2.2.1)) := by
  obtain ⟨η, M, hη, hE, hM, -, hpos⟩ := pmcmc_rev_ker hm hS hres i hgood
  have e : ∀ {f g : U × ℝ × (Fin (K + 1) → V) → ℝ≥0∞}, Measurable f → Measurable g →
      extTarget m res ts i P key₀ (fun u l ys => f (u, l, ys) *
        (pmcmcKernel m res key u l ys y0 ts fwdYs sdeMean delta i).E fun out => g (out.1, out.2.1, out.2.2.1))
      = lagProd η M f g 1 := fun {f g} hf hg => by
    refine Eq.trans ?_ (hM key₀ _ (mMul hf (measurable_iterInt hg 1)))
    refine congrArg _ (funext fun u => funext fun l => funext fun ys => ?_)
    rw [iterInt, ← hE key (u, l, ys) _ (measurable_iterInt hg 0), pmcmcNext, Rand.E_map]
    rfl
  rw [e hf hg, e hg hf, e hf hf, e hg hg]
  exact hpos f g hf hg

theorem good_autocovariance (key₀ : Key) {keys : ℕ → List Key} (hk : ∀ k, (keys k).length = k)
    {f : U × ℝ × (Fin (K + 1) → V) → ℝ≥0∞} (hf : Measurable f) (h1 : extTarget m res ts i P key₀ (fun _ _ _ => 1) ≠ ∞)
    (h2 : extTarget m res ts i P key₀ (fun u l ys => f (u, l, ys) * f (u, l, ys)) ≠ ∞) (A : ℕ → ℝ≥0∞)
    (hA : ∀ k, A k = extTarget m res ts i P key₀ fun u l ys => f (u, l, ys) *
      (iterKernel (pmcmcNext m res y0 ts fwdYs sdeMean delta i) (keys k) (u, l, ys)).E f) (k : ℕ) :
    extTarget m res ts i P key₀ (fun u l ys => f (u, l, ys)) * extTarget m res ts i P key₀ (fun u l ys => f (u, l, ys))
        ≤ extTarget m res ts i P key₀ (fun _ _ _ => 1) * A k ∧ A (k + 1) ≤ A k ∧ 2 * A (k + 1) ≤ A k + A (k + 2) := by
  obtain ⟨η, M, hη, hE, hM, hrev, hpos⟩ := pmcmc_rev_ker hm hS hres i hgood
  have e : ∀ k, A k = lagProd η M f f k := fun k => by
    rw [hA]
    refine Eq.trans ?_ (hM key₀ _ (mMul hf (measurable_iterInt hf k)))
    simp only [iterKernel_iter hE hf, hk]
  have hu : extTarget m res ts i P key₀ (fun _ _ _ => 1) = M Set.univ := by
    rw [hM key₀ (fun _ => 1) measurable_const, lintegral_one]
  have : IsFiniteMeasure M := ⟨by rw [← hu]; exact h1.lt_top⟩
  rw [hM key₀ _ (mMul hf hf)] at h2
  rw [hM key₀ f hf, hu, e, e, e, two_mul]
  exact ⟨cov_nonneg_fin hrev hpos hf h2 k, lagProd_anti hrev hpos hf h2 k, lagProd_convex hrev hpos hf k⟩

theorem good_samples (key₀ key : Key) {f : U → ℝ≥0∞} (hf : Measurable f) (h1 : extTarget m res ts i P key₀ (fun _ _ _ => 1) ≠ ∞)
    (h2 : extTarget m res ts i P key₀ (fun u _ _ => f u * f u) ≠ ∞) (nsamples : ℕ) :
    nsamples * (extTarget m res ts i P key₀ (fun _ _ _ => 1) * extTarget m res ts i P key₀ (fun u _ _ => f u * f u))
        + (nsamples * (nsamples - 1) : ℕ) *
          (extTarget m res ts i P key₀ (fun u _ _ => f u) * extTarget m res ts i P key₀ (fun u _ _ => f u))
      ≤ extTarget m res ts i P key₀ (fun _ _ _ => 1) * extTarget m res ts i P key₀ (fun u l ys =>
          (pmcmcSamples m res y0 ts fwdYs sdeMean delta i nsamples key (u, l, ys)).E
            fun l => (l.map f).sum * (l.map f).sum) := by
  obtain ⟨η, M, hη, hE, hM, hrev, hpos⟩ := pmcmc_rev_ker hm hS hres i hgood
  have hr : Runs (pmcmcStep m res y0 ts fwdYs sdeMean delta i) id (fun _ => True) η :=
    ⟨fun _ _ _ => Rand.leaves_true _, fun k s _ f hf => hE k s f hf⟩
  have hF : Measurable fun s : U × ℝ × (Fin (K + 1) → V) => f s.1 := hf.comp measurable_fst
  have hu : extTarget m res ts i P key₀ (fun _ _ _ => 1) = M Set.univ := by
    rw [hM key₀ (fun _ => 1) measurable_const, lintegral_one]
  have : IsFiniteMeasure M := ⟨by rw [← hu]; exact h1.lt_top⟩
  have e2 := hM key₀ _ (mMul hF hF)
  have e1 := hM key₀ _ hF
  simp only at e1 e2
  rw [e2] at h2
  have hs : ∀ u l ys, (pmcmcSamples m res y0 ts fwdYs sdeMean delta i nsamples key (u, l, ys)).E
      (fun l => (l.map f).sum * (l.map f).sum) = sumM2 η (fun s => f s.1) nsamples (u, l, ys) := fun u l ys => by
    have h := E_store_sum hr hF nsamples key 0 (u, l, ys) trivial
    simp only [zero_add, zero_mul, mul_zero] at h
    refine Eq.trans ?_ h
    refine (E_store_map (p := id) Prod.fst _ _ _ _).trans (Rand.E_congr _ fun l => ?_)
    simp [Function.comp_def]
  simp only [hs]
  rw [hM key₀ _ (measurable_sumM2 hF nsamples), e1, e2, hu]
  exact le_sumM2_fin hrev hpos hF h2 nsamples

end

end Reduction

section None

variable {U V : Type} {N K : ℕ} [NeZero N] [MeasurableSpace U] [MeasurableSpace V] [AddCommGroup V] [Module ℝ V]

/-- **C104, independent proposals.**  `pmcmc_kernel` with `delta=None` is reversible with respect to the extended target: for the pair
(state before, state after) of a stationary call the two are exchangeable.  Any measurable resampling. -/
theorem C104_pmcmc_reversible {m : Funs N U V} {ref : Kernel V U} [IsMarkovKernel ref] {S : StateSpace U V}
    (hm : PmcmcImplements m ref S) (hS : S.JointMeas) {res : Smc.Resampling N} (hres : MeasurableScheme res)
    (y0 : V) (ts : Fin (K + 1) → ℝ) {fwdYs : Key → V → Rand (Fin (K + 1) → V)}
    (sdeMean : ℝ → ℝ → V → V) (i : Fin N) {P : Measure (Fin (K + 1) → V)} [IsProbabilityMeasure P]
    (hP : ∀ k f, Measurable f → (fwdYs k y0).E f = ∫⁻ ys, f ys ∂P)
    (key₀ key : Key) {f g : U × ℝ × (Fin (K + 1) → V) → ℝ≥0∞} (hf : Measurable f) (hg : Measurable g) :
    extTarget m res ts i P key₀ (fun u l ys => f (u, l, ys) *
        (pmcmcKernel m res key u l ys y0 ts fwdYs sdeMean none i).E fun out => g (out.1, out.2.1, out.2.2.1))
      = extTarget m res ts i P key₀ (fun u l ys => g (u, l, ys) *
        (pmcmcKernel m res key u l ys y0 ts fwdYs sdeMean none i).E fun out => f (out.1, out.2.1, out.2.2.1)) :=
  good_reversible hm hS hres i (good_none y0 ts sdeMean hP) key₀ key hf hg

/-- **C104, positivity, independent proposals.**  `⟨f - g, P (f - g)⟩ ≥ 0`: the states before and after a stationary call are never
negatively correlated. -/
theorem C104_pmcmc_positive {m : Funs N U V} {ref : Kernel V U} [IsMarkovKernel ref] {S : StateSpace U V}
    (hm : PmcmcImplements m ref S) (hS : S.JointMeas) {res : Smc.Resampling N} (hres : MeasurableScheme res)
    (y0 : V) (ts : Fin (K + 1) → ℝ) {fwdYs : Key → V → Rand (Fin (K + 1) → V)}
    (sdeMean : ℝ → ℝ → V → V) (i : Fin N) {P : Measure (Fin (K + 1) → V)} [IsProbabilityMeasure P]
    (hP : ∀ k f, Measurable f → (fwdYs k y0).E f = ∫⁻ ys, f ys ∂P)
    (key₀ key : Key) {f g : U × ℝ × (Fin (K + 1) → V) → ℝ≥0∞} (hf : Measurable f) (hg : Measurable g) :
    extTarget m res ts i P key₀ (fun u l ys => f (u, l, ys) *
        (pmcmcKernel m res key u l ys y0 ts fwdYs sdeMean none i).E fun out => g (out.1, out.2.1, out.2.2.1))
      + extTarget m res ts i P key₀ (fun u l ys => g (u, l, ys) *
        (pmcmcKernel m res key u l ys y0 ts fwdYs sdeMean none i).E fun out => f (out.1, out.2.1, out.2.2.1))
      ≤ extTarget m res ts i P key₀ (fun u l ys => f (u, l, ys) *
        (pmcmcKernel m res key u l ys y0 ts fwdYs sdeMean none i).E fun out => f (out.1, out.2.1, out.2.2.1))
      + extTarget m res ts i P key₀ (fun u l ys => g (u, l, ys) *
        (pmcmcKernel m res key u l ys y0 ts fwdYs sdeMean none i).E fun out => g (out.1, out.2.1, out.2.2.1)) :=
  good_positive hm hS hres i (good_none y0 ts sdeMean hP) key₀ key hf hg

/-- **C104, autocovariances, independent proposals.**  Let `A k` be the expected product of the values of a function `f` of the state
(particle, log-likelihood, path) at the start and after `k` calls, for the chain started in the extended target.  The
autocovariance is non-negative at every lag, and `A` is non-increasing and convex. -/
theorem C104_pmcmc_autocovariance {m : Funs N U V} {ref : Kernel V U} [IsMarkovKernel ref] {S : StateSpace U V}
    (hm : PmcmcImplements m ref S) (hS : S.JointMeas) {res : Smc.Resampling N} (hres : MeasurableScheme res)
    (y0 : V) (ts : Fin (K + 1) → ℝ) {fwdYs : Key → V → Rand (Fin (K + 1) → V)}
    (sdeMean : ℝ → ℝ → V → V) (i : Fin N) {P : Measure (Fin (K + 1) → V)} [IsProbabilityMeasure P]
    (hP : ∀ k f, Measurable f → (fwdYs k y0).E f = ∫⁻ ys, f ys ∂P)
    (key₀ : Key) {keys : ℕ → List Key} (hk : ∀ k, (keys k).length = k)
    {f : U × ℝ × (Fin (K + 1) → V) → ℝ≥0∞} (hf : Measurable f) (h1 : extTarget m res ts i P key₀ (fun _ _ _ => 1) ≠ ∞)
    (h2 : extTarget m res ts i P key₀ (fun u l ys => f (u, l, ys) * f (u, l, ys)) ≠ ∞) (A : ℕ → ℝ≥0∞)
    (hA : ∀ k, A k = extTarget m res ts i P key₀ fun u l ys => f (u, l, ys) *
      (iterKernel (pmcmcNext m res y0 ts fwdYs sdeMean none i) (keys k) (u, l, ys)).E f) (k : ℕ) :
    extTarget m res ts i P key₀ (fun u l ys => f (u, l, ys)) * extTarget m res ts i P key₀ (fun u l ys => f (u, l, ys))
        ≤ extTarget m res ts i P key₀ (fun _ _ _ => 1) * A k ∧ A (k + 1) ≤ A k ∧ 2 * A (k + 1) ≤ A k + A (k + 2) :=
  good_autocovariance hm hS hres i (good_none y0 ts sdeMean hP) key₀ hk hf h1 h2 A hA k

/-- **C104, stored samples, independent proposals.**  The second moment of the sum of `f` over the `nsamples` particles stored by a
stationary chain is at least that of independent draws. -/
theorem C104_pmcmc_samples_no_better_than_independent {m : Funs N U V} {ref : Kernel V U} [IsMarkovKernel ref] {S : StateSpace U V}
    (hm : PmcmcImplements m ref S) (hS : S.JointMeas) {res : Smc.Resampling N} (hres : MeasurableScheme res)
    (y0 : V) (ts : Fin (K + 1) → ℝ) {fwdYs : Key → V → Rand (Fin (K + 1) → V)}
    (sdeMean : ℝ → ℝ → V → V) (i : Fin N) {P : Measure (Fin (K + 1) → V)} [IsProbabilityMeasure P]
    (hP : ∀ k f, Measurable f → (fwdYs k y0).E f = ∫⁻ ys, f ys ∂P)
    (key₀ key : Key) {f : U → ℝ≥0∞} (hf : Measurable f)
    (h1 : extTarget m res ts i P key₀ (fun _ _ _ => 1) ≠ ∞)
    (h2 : extTarget m res ts i P key₀ (fun u _ _ => f u * f u) ≠ ∞) (nsamples : ℕ) :
    nsamples * (extTarget m res ts i P key₀ (fun _ _ _ => 1) * extTarget m res ts i P key₀ (fun u _ _ => f u * f u))
        + (nsamples * (nsamples - 1) : ℕ) *
          (extTarget m res ts i P key₀ (fun u _ _ => f u) * extTarget m res ts i P key₀ (fun u _ _ => f u))
      ≤ extTarget m res ts i P key₀ (fun _ _ _ => 1) * extTarget m res ts i P key₀ (fun u l ys =>
          (pmcmcSamples m res y0 ts fwdYs sdeMean none i nsamples key (u, l, ys)).E
            fun l => (l.map f).sum * (l.map f).sum) :=
  good_samples hm hS hres i (good_none y0 ts sdeMean hP) key₀ key hf h1 h2 nsamples

end None

section Pcn

variable {U V : Type} {N K : ℕ} [NeZero N] [MeasurableSpace U] [NormedAddCommGroup V] [NormedSpace ℝ V] [CompleteSpace V]
  [SecondCountableTopology V] [MeasurableSpace V] [BorelSpace V]

omit [NeZero N] [MeasurableSpace U] in
theorem good_pcn {y0 : V} {ts : Fin (K + 1) → ℝ} {fwdYs : Key → V → Rand (Fin (K + 1) → V)}
    {sdeMean : ℝ → ℝ → V → V} {P : Measure (Fin (K + 1) → V)} [IsGaussian P]
    (hP : Draws (fun k => fwdYs k y0) P) (hmean : (fun j => sdeMean (ts j) (ts 0) y0) = ∫ ys, ys ∂P)
    {delta : ℝ} (hδ : 0 ≤ delta) : GoodProposal y0 ts fwdYs sdeMean (some delta) P := by
  obtain ⟨Q, hQ, hpr⟩ := hasKer_pcn y0 ts sdeMean hP delta
  refine ⟨Q, hQ, hpr, fun f hf => ?_, pcn_pos (split [] 4 0) hδ hP hmean fun x f hf => hpr [] x f hf⟩
  have h := C22_exchangeable (split [] 4 0) hδ hP hmean hf
  have a1 : ∀ x, _ := fun x => hpr [] x (fun y => f (x, y)) (hf.comp measurable_prodMk_left)
  have a2 : ∀ x, _ := fun x => hpr [] x (fun y => f (y, x)) (hf.comp measurable_prodMk_right)
  simp only [← a1, ← a2]
  exact h

/-- **C104, preconditioned Crank–Nicolson proposals.**  Reversible for every `delta ≥ 0`. -/
theorem C104_pmcmc_pcn_reversible {m : Funs N U V} {ref : Kernel V U} [IsMarkovKernel ref] {S : StateSpace U V}
    (hm : PmcmcImplements m ref S) (hS : S.JointMeas) {res : Smc.Resampling N} (hres : MeasurableScheme res)
    {y0 : V} {ts : Fin (K + 1) → ℝ} {fwdYs : Key → V → Rand (Fin (K + 1) → V)}
    {sdeMean : ℝ → ℝ → V → V} (i : Fin N) {P : Measure (Fin (K + 1) → V)} [IsGaussian P]
    (hP : Draws (fun k => fwdYs k y0) P) (hmean : (fun j => sdeMean (ts j) (ts 0) y0) = ∫ ys, ys ∂P)
    {delta : ℝ} (hδ : 0 ≤ delta)
    (key₀ key : Key) {f g : U × ℝ × (Fin (K + 1) → V) → ℝ≥0∞} (hf : Measurable f) (hg : Measurable g) :
    extTarget m res ts i P key₀ (fun u l ys => f (u, l, ys) *
        (pmcmcKernel m res key u l ys y0 ts fwdYs sdeMean (some delta) i).E fun out => g (out.1, out.2.1, out.2.2.1))
      = extTarget m res ts i P key₀ (fun u l ys => g (u, l, ys) *
        (pmcmcKernel m res key u l ys y0 ts fwdYs sdeMean (some delta) i).E fun out => f (out.1, out.2.1, out.2.2.1)) :=
  good_reversible hm hS hres i (good_pcn hP hmean hδ) key₀ key hf hg

/-- **C104, positivity, preconditioned Crank–Nicolson proposals.** -/
theorem C104_pmcmc_pcn_positive {m : Funs N U V} {ref : Kernel V U} [IsMarkovKernel ref] {S : StateSpace U V}
    (hm : PmcmcImplements m ref S) (hS : S.JointMeas) {res : Smc.Resampling N} (hres : MeasurableScheme res)
    {y0 : V} {ts : Fin (K + 1) → ℝ} {fwdYs : Key → V → Rand (Fin (K + 1) → V)}
    {sdeMean : ℝ → ℝ → V → V} (i : Fin N) {P : Measure (Fin (K + 1) → V)} [IsGaussian P]
    (hP : Draws (fun k => fwdYs k y0) P) (hmean : (fun j => sdeMean (ts j) (ts 0) y0) = ∫ ys, ys ∂P)
    {delta : ℝ} (hδ : 0 ≤ delta)
    (key₀ key : Key) {f g : U × ℝ × (Fin (K + 1) → V) → ℝ≥0∞} (hf : Measurable f) (hg : Measurable g) :
    extTarget m res ts i P key₀ (fun u l ys => f (u, l, ys) *
        (pmcmcKernel m res key u l ys y0 ts fwdYs sdeMean (some delta) i).E fun out => g (out.1, out.2.1, out.2.2.1))
      + extTarget m res ts i P key₀ (fun u l ys => g (u, l, ys) *
        (pmcmcKernel m res key u l ys y0 ts fwdYs sdeMean (some delta) i).E fun out => f (out.1, out.2.1, out.2.2.1))
      ≤ extTarget m res ts i P key₀ (fun u l ys => f (u, l, ys) *
        (pmcmcKernel m res key u l ys y0 ts fwdYs sdeMean (some delta) i).E fun out => f (out.1, out.2.1, out.2.2.1))
      + extTarget m res ts i P key₀ (fun u l ys => g (u, l, ys) *
        (pmcmcKernel m res key u l ys y0 ts fwdYs sdeMean (some delta) i).E fun out => g (out.1, out.2.1, out.2.2.1)) :=
  good_positive hm hS hres i (good_pcn hP hmean hδ) key₀ key hf hg

/-- **C104, autocovariances, preconditioned Crank–Nicolson proposals.** -/
theorem C104_pmcmc_pcn_autocovariance {m : Funs N U V} {ref : Kernel V U} [IsMarkovKernel ref] {S : StateSpace U V}
    (hm : PmcmcImplements m ref S) (hS : S.JointMeas) {res : Smc.Resampling N} (hres : MeasurableScheme res)
    {y0 : V} {ts : Fin (K + 1) → ℝ} {fwdYs : Key → V → Rand (Fin (K + 1) → V)}
    {sdeMean : ℝ → ℝ → V → V} (i : Fin N) {P : Measure (Fin (K + 1) → V)} [IsGaussian P]
    (hP : Draws (fun k => fwdYs k y0) P) (hmean : (fun j => sdeMean (ts j) (ts 0) y0) = ∫ ys, ys ∂P)
    {delta : ℝ} (hδ : 0 ≤ delta)
    (key₀ : Key) {keys : ℕ → List Key} (hk : ∀ k, (keys k).length = k)
    {f : U × ℝ × (Fin (K + 1) → V) → ℝ≥0∞} (hf : Measurable f) (h1 : extTarget m res ts i P key₀ (fun _ _ _ => 1) ≠ ∞)
    (h2 : extTarget m res ts i P key₀ (fun u l ys => f (u, l, ys) * f (u, l, ys)) ≠ ∞) (A : ℕ → ℝ≥0∞)
    (hA : ∀ k, A k = extTarget m res ts i P key₀ fun u l ys => f (u, l, ys) *
      (iterKernel (pmcmcNext m res y0 ts fwdYs sdeMean (some delta) i) (keys k) (u, l, ys)).E f) (k : ℕ) :
    extTarget m res ts i P key₀ (fun u l ys => f (u, l, ys)) * extTarget m res ts i P key₀ (fun u l ys => f (u, l, ys))
        ≤ extTarget m res ts i P key₀ (fun _ _ _ => 1) * A k ∧ A (k + 1) ≤ A k ∧ 2 * A (k + 1) ≤ A k + A (k + 2) :=
  good_autocovariance hm hS hres i (good_pcn hP hmean hδ) key₀ hk hf h1 h2 A hA k

/-- **C104, stored samples, preconditioned Crank–Nicolson proposals.** -/
theorem C104_pmcmc_pcn_samples_no_better_than_independent {m : Funs N U V} {ref : Kernel V U} [IsMarkovKernel ref] {S : StateSpace U V}
    (hm : PmcmcImplements m ref S) (hS : S.JointMeas) {res : Smc.Resampling N} (hres : MeasurableScheme res)
    {y0 : V} {ts : Fin (K + 1) → ℝ} {fwdYs : Key → V → Rand (Fin (K + 1) → V)}
    {sdeMean : ℝ → ℝ → V → V} (i : Fin N) {P : Measure (Fin (K + 1) → V)} [IsGaussian P]
    (hP : Draws (fun k => fwdYs k y0) P) (hmean : (fun j => sdeMean (ts j) (ts 0) y0) = ∫ ys, ys ∂P)
    {delta : ℝ} (hδ : 0 ≤ delta)
    (key₀ key : Key) {f : U → ℝ≥0∞} (hf : Measurable f)
    (h1 : extTarget m res ts i P key₀ (fun _ _ _ => 1) ≠ ∞)
    (h2 : extTarget m res ts i P key₀ (fun u _ _ => f u * f u) ≠ ∞) (nsamples : ℕ) :
    nsamples * (extTarget m res ts i P key₀ (fun _ _ _ => 1) * extTarget m res ts i P key₀ (fun u _ _ => f u * f u))
        + (nsamples * (nsamples - 1) : ℕ) *
          (extTarget m res ts i P key₀ (fun u _ _ => f u) * extTarget m res ts i P key₀ (fun u _ _ => f u))
      ≤ extTarget m res ts i P key₀ (fun _ _ _ => 1) * extTarget m res ts i P key₀ (fun u l ys =>
          (pmcmcSamples m res y0 ts fwdYs sdeMean (some delta) i nsamples key (u, l, ys)).E
            fun l => (l.map f).sum * (l.map f).sum) :=
  good_samples hm hS hres i (good_pcn hP hmean hδ) key₀ key hf h1 h2 nsamples

end Pcn

/-! ### Examples -/

section Example

theorem coin_finite (P : Measure (Fin 2 → ℝ)) [IsProbabilityMeasure P] (ts : Fin 2 → ℝ) (i : Fin 3) (key₀ : Key)
    {f : Bool × ℝ × (Fin 2 → ℝ) → ℝ≥0∞} (hf : Measurable f) (h1 : ∀ s, f s ≤ 1) :
    extTarget (smcFuns coinSpace 3) Resampling.killing ts i P key₀ (fun u l ys => f (u, l, ys)) ≠ ∞ := by
  rw [extTarget_key (coin_implements 3) coin_jointMeas scheme_killing ts i P key₀ [] hf]
  have hr := (C83_rate_pos (coin_implements 3) coin_jointMeas scheme_killing ts i P (coin_lik_le 3) (L := Real.log 8) (by simp)).2
  refine ne_top_of_le_ne_top (b := extTarget (smcFuns coinSpace 3) Resampling.killing ts i P [] fun _ _ _ => 1) (fun h => ?_)
    (extTarget_mono (coin_lik_le 3) (L := Real.log 8) (by simp) ts i P [] fun u l ys _ => h1 (u, l, ys))
  rw [pmcmcRate, h, ENNReal.mul_top (by simpa using Real.exp_pos _)] at hr
  simp at hr

/-- The coin with independent proposals: heads, then the path. -/
example (key₀ key : Key) (ts : Fin 2 → ℝ) (i : Fin 3) (y0 : ℝ) :
    extTarget (smcFuns coinSpace 3) Resampling.killing ts i (Measure.pi fun _ => unifMeasure) key₀ (fun u l ys => (if u then 1 else 0) *
        (pmcmcKernel (smcFuns coinSpace 3) Resampling.killing key u l ys y0 ts (fun k _ => uniforms k 2) (fun _ _ y => y) none i).E
          fun out => ENNReal.ofReal (out.2.2.1 1))
      = extTarget (smcFuns coinSpace 3) Resampling.killing ts i (Measure.pi fun _ => unifMeasure) key₀ (fun u l ys => ENNReal.ofReal (ys 1) *
        (pmcmcKernel (smcFuns coinSpace 3) Resampling.killing key u l ys y0 ts (fun k _ => uniforms k 2) (fun _ _ y => y) none i).E
          fun out => if out.1 then 1 else 0) :=
  C104_pmcmc_reversible (coin_implements 3) coin_jointMeas scheme_killing y0 ts (fun _ _ y => y) i (fun k f _ => rfl) key₀ key
    (f := fun s => if s.1 then 1 else 0) (g := fun s => ENNReal.ofReal (s.2.2 1))
    ((measurable_of_finite fun b : Bool => if b then (1 : ℝ≥0∞) else 0).comp measurable_fst) (by fun_prop)

/-- The coin with Crank–Nicolson proposals: heads at the start and after `k` calls. -/
example (key₀ : Key) {keys : ℕ → List Key} (hk : ∀ k, (keys k).length = k) (ts : Fin 2 → ℝ) (i : Fin 3) (A : ℕ → ℝ≥0∞)
    (hA : ∀ k, A k = extTarget (smcFuns coinSpace 3) Resampling.killing ts i gaussPath key₀ fun u l ys => (if u then 1 else 0) *
      (iterKernel (pmcmcNext (smcFuns coinSpace 3) Resampling.killing 0 ts (fun k _ => Rand.sample k Set.univ gaussPath)
        (fun _ _ y => y) (some 2) i) (keys k) (u, l, ys)).E fun s => if s.1 then 1 else 0) : A 5 ≤ A 4 ∧ 2 * A 5 ≤ A 4 + A 6 := by
  have hf : Measurable fun s : Bool × ℝ × (Fin 2 → ℝ) => if s.1 then (1 : ℝ≥0∞) else 0 :=
    (measurable_of_finite fun b : Bool => if b then (1 : ℝ≥0∞) else 0).comp measurable_fst
  exact (C104_pmcmc_pcn_autocovariance (coin_implements 3) coin_jointMeas scheme_killing i (fun k f _ => rfl)
    (by rw [gaussPath_mean]; rfl) (by norm_num : (0 : ℝ) ≤ 2) key₀ hk hf (coin_finite gaussPath ts i key₀ measurable_const fun _ => le_rfl)
    (coin_finite gaussPath ts i key₀ (mMul hf hf) fun s => by split_ifs <;> simp) A hA 4).2

/-- A hundred stored coins. -/
example (key₀ key : Key) (ts : Fin 2 → ℝ) (i : Fin 3) (f : Bool → ℝ≥0∞) (hf : ∀ b, f b ≤ 1) :
    (100 : ℕ) * (extTarget (smcFuns coinSpace 3) Resampling.killing ts i gaussPath key₀ (fun _ _ _ => 1) *
        extTarget (smcFuns coinSpace 3) Resampling.killing ts i gaussPath key₀ (fun u _ _ => f u * f u))
      + (100 * (100 - 1) : ℕ) * (extTarget (smcFuns coinSpace 3) Resampling.killing ts i gaussPath key₀ (fun u _ _ => f u) *
        extTarget (smcFuns coinSpace 3) Resampling.killing ts i gaussPath key₀ (fun u _ _ => f u))
      ≤ extTarget (smcFuns coinSpace 3) Resampling.killing ts i gaussPath key₀ (fun _ _ _ => 1) *
        extTarget (smcFuns coinSpace 3) Resampling.killing ts i gaussPath key₀ (fun u l ys =>
          (pmcmcSamples (smcFuns coinSpace 3) Resampling.killing 0 ts (fun k _ => Rand.sample k Set.univ gaussPath)
            (fun _ _ y => y) (some 2) i 100 key (u, l, ys)).E fun l => (l.map f).sum * (l.map f).sum) :=
  have hm : Measurable fun s : Bool × ℝ × (Fin 2 → ℝ) => f s.1 := (measurable_of_finite f).comp measurable_fst
  C104_pmcmc_pcn_samples_no_better_than_independent (coin_implements 3) coin_jointMeas scheme_killing i (fun k f _ => rfl)
    (by rw [gaussPath_mean]; rfl) (by norm_num : (0 : ℝ) ≤ 2) key₀ key (measurable_of_finite f)
    (coin_finite gaussPath ts i key₀ measurable_const fun _ => le_rfl)
    (coin_finite gaussPath ts i key₀ (mMul hm hm) fun s => mul_le_one' (hf _) (hf _)) 100

end Example

end Props
end Fbs
