import Verif.Lemmas.MetropolisUpper
import Verif.Props.LogBias
import Verif.Props.PmcmcReversible

/-!
# C105: the pseudo-marginal chain against the chain with the exact likelihood

`pmcmc_kernel` (`fbs/samplers/smc.py`) accepts a proposed path with a ratio of *estimated* likelihoods.  Here its chain is compared with
the chain it imitates, `exactStep`, which proposes in the same way and uses the exact likelihoods of the model.  Both leave the same law of
the path invariant; the comparison is about how fast they move.
-/

open MeasureTheory ProbabilityTheory
open scoped ENNReal

namespace Fbs
namespace Props

open Jax Spec Smc Chains

section Exact

variable {U V : Type} {N K : ℕ} [NeZero N] [MeasurableSpace U] [MeasurableSpace V] [AddCommGroup V] [Module ℝ V]

/-- The ideal step which `pmcmc_kernel` (`fbs/samplers/smc.py`) imitates: the same proposed path, accepted with the exact likelihoods `L` in place of their
estimates. -/
noncomputable def exactStep (L : (Fin (K + 1) → V) → ℝ) (y0 : V) (ts : Fin (K + 1) → ℝ)
    (fwdYs : Key → V → Rand (Fin (K + 1) → V)) (sdeMean : ℝ → ℝ → V → V) (delta : Option ℝ) (key : Key) (ys : Fin (K + 1) → V) :
    Rand (Fin (K + 1) → V) := do
  let propYs ← pmcmcProposal key ys y0 ts fwdYs sdeMean delta
  let z ← uniform (split key 4 3)
  pure (if accepts z (min 0 (Real.log (L propYs) - Real.log (L ys))) then propYs else ys)

omit [MeasurableSpace V] in
theorem E_exactStep (L : (Fin (K + 1) → V) → ℝ) (y0 : V) (ts : Fin (K + 1) → ℝ) (fwdYs : Key → V → Rand (Fin (K + 1) → V))
    (sdeMean : ℝ → ℝ → V → V) (delta : Option ℝ) (key : Key) (ys : Fin (K + 1) → V) (f : (Fin (K + 1) → V) → ℝ≥0∞) :
    (exactStep L y0 ts fwdYs sdeMean delta key ys).E f
      = (pmcmcProposal key ys y0 ts fwdYs sdeMean delta).E fun ys' =>
        accProb (Real.log (L ys)) (Real.log (L ys')) * f ys' + (1 - accProb (Real.log (L ys)) (Real.log (L ys'))) * f ys := by
  simp only [exactStep, Rand.E_bind, Rand.pure_eq, Rand.E_ret]
  refine Rand.E_congr _ fun ys' => ?_
  rw [accProb, ← E_accept (split key 4 3)]
  refine Rand.E_congr _ fun z => ?_
  split_ifs <;> rfl

theorem exact_ker {L : (Fin (K + 1) → V) → ℝ} (hL : Measurable L) (hpos : ∀ ys, 0 < L ys) {y0 : V} {ts : Fin (K + 1) → ℝ}
    {fwdYs : Key → V → Rand (Fin (K + 1) → V)} {sdeMean : ℝ → ℝ → V → V} {delta : Option ℝ}
    (P : Measure (Fin (K + 1) → V)) {Q : Kernel (Fin (K + 1) → V) (Fin (K + 1) → V)} [IsMarkovKernel Q]
    (hpr : ∀ k ys f, Measurable f → (pmcmcProposal k ys y0 ts fwdYs sdeMean delta).E f = ∫⁻ ys', f ys' ∂(Q ys)) :
    ∃ η : Kernel (Fin (K + 1) → V) (Fin (K + 1) → V), IsMarkovKernel η ∧
      (∀ k ys f, Measurable f → (exactStep L y0 ts fwdYs sdeMean delta k ys).E f = ∫⁻ ys', f ys' ∂(η ys)) ∧
      (∀ f : (Fin (K + 1) → V) → ℝ≥0∞, Measurable f →
        ∫⁻ ys, f ys ∂(P.withDensity fun ys => ENNReal.ofReal (L ys)) = ∫⁻ ys, ENNReal.ofReal (L ys) * f ys ∂P) ∧
      (∀ f g, Measurable f → Measurable g → lagProd η (P.withDensity fun ys => ENNReal.ofReal (L ys)) f g 1
        = mhForm P Q (fun ys => Real.log (L ys)) f g) := by
  have hl : Measurable fun ys => Real.log (L ys) := Real.measurable_log.comp hL
  have hprop : HasKer fun key ys => pmcmcProposal key ys y0 ts fwdYs sdeMean delta := ⟨Q, inferInstance, hpr⟩
  have h3 := hasKer_uniform (X := (Fin (K + 1) → V) × (Fin (K + 1) → V)) fun k => split k 4 3
  have hset : MeasurableSet {z : ((Fin (K + 1) → V) × (Fin (K + 1) → V)) × ℝ |
      accepts z.2 (min 0 (Real.log (L z.1.2) - Real.log (L z.1.1))) = true} := by
    have e1 : MeasurableSet {z : ((Fin (K + 1) → V) × (Fin (K + 1) → V)) × ℝ | z.2 = 0} :=
      measurableSet_eq_fun (by fun_prop) (by fun_prop)
    have a1 : Measurable fun z : ((Fin (K + 1) → V) × (Fin (K + 1) → V)) × ℝ => Real.log (L z.1.2) := hl.comp (by fun_prop)
    have a2 : Measurable fun z : ((Fin (K + 1) → V) × (Fin (K + 1) → V)) × ℝ => Real.log (L z.1.1) := hl.comp (by fun_prop)
    have e2 : MeasurableSet {z : ((Fin (K + 1) → V) × (Fin (K + 1) → V)) × ℝ |
        Real.log z.2 < min 0 (Real.log (L z.1.2) - Real.log (L z.1.1))} :=
      measurableSet_lt (by fun_prop) (measurable_const.min (a1.sub a2))
    simp only [accepts, decide_eq_true_eq]
    exact e1.union e2
  have hg : Measurable fun z : ((Fin (K + 1) → V) × (Fin (K + 1) → V)) × ℝ =>
      (if accepts z.2 (min 0 (Real.log (L z.1.2) - Real.log (L z.1.1))) then z.1.2 else z.1.1) :=
    Measurable.ite hset (by fun_prop) (by fun_prop)
  obtain ⟨η, hη, hE⟩ : HasKer fun key ys => exactStep L y0 ts fwdYs sdeMean delta key ys :=
    (hprop.bind (h3.map hg)).congr fun key s f hf => by
      simp only [exactStep, Rand.E_map, Rand.E_bind, Rand.pure_eq, Rand.E_ret]
  have hd : Measurable fun ys => ENNReal.ofReal (L ys) := hL.ennreal_ofReal
  have hM : ∀ f : (Fin (K + 1) → V) → ℝ≥0∞, Measurable f →
      ∫⁻ ys, f ys ∂(P.withDensity fun ys => ENNReal.ofReal (L ys)) = ∫⁻ ys, ENNReal.ofReal (L ys) * f ys ∂P := fun f hf => by
    rw [lintegral_withDensity_eq_lintegral_mul _ hd hf]
    rfl
  refine ⟨η, hη, hE, hM, fun f g hf hg => ?_⟩
  have hfg : Measurable fun ys => f ys * ∫⁻ ys', g ys' ∂(η ys) := mMul hf hg.lintegral_kernel
  refine (hM _ hfg).trans (lintegral_congr fun ys => ?_)
  rw [Real.exp_log (hpos ys), ← hE [] ys g hg, E_exactStep]
  have hm2 : Measurable fun ys' => accProb (Real.log (L ys)) (Real.log (L ys')) * g ys'
      + (1 - accProb (Real.log (L ys)) (Real.log (L ys'))) * g ys := by
    have haz : Measurable fun ys' => accProb (Real.log (L ys)) (Real.log (L ys')) :=
      measurable_accProb.comp (measurable_const.prodMk hl)
    exact mAdd (mMul haz hg) ((measurable_const.sub haz).mul_const _)
  rw [hpr [] ys _ hm2]

omit [NeZero N] [AddCommGroup V] [Module ℝ V] in
theorem modelLik_le (S : StateSpace U V) (ref : Kernel V U) [IsMarkovKernel ref] {b : ℝ} (hb : ∀ v v' t u, S.logG v v' t u ≤ b)
    (ts : Fin (K + 1) → ℝ) (ys : Fin (K + 1) → V) : modelLik S ref ts ys ≤ Real.exp b ^ K := by
  refine ENNReal.toReal_le_of_le_ofReal (pow_nonneg (Real.exp_pos _).le _) ?_
  unfold backwardInt StateSpace.filterInt
  have hlen : ((S.startedAt (ref (ys (Fin.last K)))).steps (arr fun i => ys (Fin.rev i)).1 (arr fun i => ys (Fin.rev i)).2
      (arr ts).toList).length = K := by
    rw [Csmc.steps_length _ _ _ _ (by simp [arr, Arr1.toList])]
    simp [arr]
  refine (lintegral_mono fun u => (?_ : _ ≤ ENNReal.ofReal (Real.exp b ^ K))).trans (by simp)
  have := pathInt_le (φ := fun _ => 1) (fun _ => le_rfl) _ (steps_le (S := S.startedAt (ref (ys (Fin.last K)))) hb
    (arr fun i => ys (Fin.rev i)).1 (arr fun i => ys (Fin.rev i)).2 (arr ts).toList) u
  simpa [hlen] using this

omit [NeZero N] [AddCommGroup V] [Module ℝ V] in
theorem modelLik_mass (S : StateSpace U V) (ref : Kernel V U) [IsMarkovKernel ref] {b : ℝ} (hb : ∀ v v' t u, S.logG v v' t u ≤ b)
    (ts : Fin (K + 1) → ℝ) (P : Measure (Fin (K + 1) → V)) [IsProbabilityMeasure P] :
    ∫⁻ ys, ENNReal.ofReal (modelLik S ref ts ys) ∂P ≠ ∞ :=
  ne_top_of_le_ne_top ENNReal.ofReal_ne_top
    ((lintegral_mono fun ys => ENNReal.ofReal_le_ofReal (modelLik_le S ref hb ts ys)).trans (by simp) :
      _ ≤ ENNReal.ofReal (Real.exp b ^ K))

/-- Path, particle and log estimate. -/
abbrev PmState (U V : Type) (K : ℕ) := (Fin (K + 1) → V) × (U × ℝ)

section

variable {m : Funs N U V} {ref : Kernel V U} [IsMarkovKernel ref] {S : StateSpace U V}
    (hm : PmcmcImplements m ref S) (hS : S.JointMeas) {res : Smc.Resampling N} (hres : UnbiasedSums res)
    (hres' : MeasurableScheme res) {b : ℝ} (hb : ∀ v v' t u, S.logG v v' t u ≤ b) {y0 : V}
    {ts : Fin (K + 1) → ℝ} {fwdYs : Key → V → Rand (Fin (K + 1) → V)} {sdeMean : ℝ → ℝ → V → V} {delta : Option ℝ} (i : Fin N)
    {P : Measure (Fin (K + 1) → V)}

include hm hS hres hres' hb

omit [AddCommGroup V] [Module ℝ V] in
theorem modelLik_facts : Measurable (modelLik S ref ts) ∧ ∃ κ : Kernel (Fin (K + 1) → V) (U × ℝ), IsMarkovKernel κ ∧
    (∀ k ys f, Measurable f → (pmcmcEstimate m res k ys ts i).E f = ∫⁻ p, f p ∂(κ ys)) ∧
    (∀ ys, ∫⁻ p, ENNReal.ofReal (Real.exp p.2) ∂(κ ys) = ENNReal.ofReal (Real.exp (Real.log (modelLik S ref ts ys)))) ∧
    (SmallVariance res → ∀ ys, ∫⁻ p, ENNReal.ofReal ((Real.exp p.2 - Real.exp (Real.log (modelLik S ref ts ys))) ^ 2) ∂(κ ys)
      ≤ ENNReal.ofReal ((2 * K + 1) * Real.exp b ^ (2 * K) / N)) := by
  obtain ⟨κ, hκ, hest⟩ := hasKer_estimate hm hS hres' ts i
  have hpos := fun ys => modelLik_pos S ref hb ts ys
  have m1 : Measurable fun p : U × ℝ => ENNReal.ofReal (Real.exp p.2) := by fun_prop
  have h1 : ∀ ys, ∫⁻ p, ENNReal.ofReal (Real.exp p.2) ∂(κ ys) = ENNReal.ofReal (modelLik S ref ts ys) := fun ys => by
    rw [← hest [] ys _ m1]
    exact (logEll_facts hm hres hb ts [] ys i).1
  refine ⟨?_, κ, hκ, hest, fun ys => by rw [Real.exp_log (hpos ys)]; exact h1 ys, fun hvar ys => ?_⟩
  · have e : modelLik S ref ts = fun ys => (∫⁻ p, ENNReal.ofReal (Real.exp p.2) ∂(κ ys)).toReal := funext fun ys => by
      rw [h1, ENNReal.toReal_ofReal (hpos ys).le]
    rw [e]
    exact (Measurable.lintegral_kernel (κ := κ) m1).ennreal_toReal
  · rw [Real.exp_log (hpos ys)]
    have m2 : Measurable fun p : U × ℝ => ENNReal.ofReal ((Real.exp p.2 - modelLik S ref ts ys) ^ 2) := by fun_prop
    rw [← hest [] ys _ m2]
    exact (logEll_facts hm hres hb ts [] ys i).2 hvar

omit hm hS hres hres' hb [NeZero N] [AddCommGroup V] [Module ℝ V] [IsMarkovKernel ref] in
/-- Almost sure bounds on the estimates. -/
theorem estimateBound_ae {L : (Fin (K + 1) → V) → ℝ} (hpos : ∀ ys, 0 < L ys) {κ : Kernel (Fin (K + 1) → V) (U × ℝ)}
    (hest : ∀ k ys f, Measurable f → (pmcmcEstimate m res k ys ts i).E f = ∫⁻ p, f p ∂(κ ys)) {W : ℝ}
    (hW : ∀ key ys, (pmcmcEstimate m res key ys ts i).E (fun p => if Real.exp p.2 ≤ W * L ys then 0 else 1) = 0) (ys : Fin (K + 1) → V) :
    ∀ᵐ p ∂(κ ys), Real.exp p.2 ≤ W * Real.exp (Real.log (L ys)) := by
  have hset : MeasurableSet {p : U × ℝ | Real.exp p.2 ≤ W * L ys} := measurableSet_le (by fun_prop) measurable_const
  have hmi : Measurable fun p : U × ℝ => if Real.exp p.2 ≤ W * L ys then (0 : ℝ≥0∞) else 1 :=
    Measurable.ite hset measurable_const measurable_const
  have h0 := hW [] ys
  rw [hest [] ys _ hmi, lintegral_eq_zero_iff hmi] at h0
  filter_upwards [h0] with p hp
  rw [Real.exp_log (hpos ys)]
  by_contra hc
  simp [hc] at hp

omit hm hS hres hres' hb [NeZero N] in
/-- The moves of the pseudo-marginal chain. -/
theorem pm_moves [SFinite P] {κ : Kernel (Fin (K + 1) → V) (U × ℝ)} [IsMarkovKernel κ]
    (hest : ∀ k ys f, Measurable f → (pmcmcEstimate m res k ys ts i).E f = ∫⁻ p, f p ∂(κ ys))
    {Q : Kernel (Fin (K + 1) → V) (Fin (K + 1) → V)} [IsMarkovKernel Q]
    (hpr : ∀ k ys f, Measurable f → (pmcmcProposal k ys y0 ts fwdYs sdeMean delta).E f = ∫⁻ ys', f ys' ∂(Q ys))
    (key₀ key : Key) {F : (Fin (K + 1) → V) → (Fin (K + 1) → V) → ℝ≥0∞}
    (hF : Measurable fun q : (Fin (K + 1) → V) × (Fin (K + 1) → V) => F q.1 q.2) (h0 : ∀ ys, F ys ys = 0) :
    extTarget m res ts i P key₀ (fun u l ys =>
        (pmcmcKernel m res key u l ys y0 ts fwdYs sdeMean delta i).E fun out => F ys out.2.2.1)
      = accForm (P ⊗ₘ κ) (extProp κ Q) (fun z => z.2.2) fun z z' => F z.1 z'.1 := by
  have hm4 : Measurable fun z : PmState U V K × PmState U V K => accProb z.1.2.2 z.2.2.2 * F z.1.1 z.2.1 :=
    mMul (measurable_accProb.comp (by fun_prop : Measurable fun z : PmState U V K × PmState U V K => (z.1.2.2, z.2.2.2)))
      (hF.comp (by fun_prop : Measurable fun z : PmState U V K × PmState U V K => (z.1.1, z.2.1)))
  have hk : ∀ u l ys, ((pmcmcKernel m res key u l ys y0 ts fwdYs sdeMean delta i).E fun out => F ys out.2.2.1)
      = ∫⁻ z', accProb l z'.2.2 * F ys z'.1 ∂(extProp κ Q (ys, (u, l))) := fun u l ys => by
    have hz : Measurable fun z' : PmState U V K => accProb l z'.2.2 * F ys z'.1 := measurable_section hm4 (ys, (u, l))
    rw [lintegral_extProp κ Q hz]
    have := E_pmcmcKernel m res key u l ys y0 ts fwdYs sdeMean delta i fun _ _ ys' => F ys ys'
    rw [this]
    simp only [h0, mul_zero, add_zero]
    have hin : Measurable fun ys' => ∫⁻ p', accProb l p'.2 * F ys ys' ∂(κ ys') := hz.lintegral_kernel_prod_right'
    rw [← hpr key ys _ hin]
    refine Rand.E_congr _ fun ys' => ?_
    have hs : Measurable fun p' : U × ℝ => accProb l p'.2 * F ys ys' := measurable_section hz ys'
    exact hest key ys' _ hs
  have hm5 : Measurable fun z : PmState U V K => ENNReal.ofReal (Real.exp z.2.2) * ∫⁻ z', accProb z.2.2 z'.2.2 * F z.1 z'.1 ∂(extProp κ Q z) :=
    mMul (by fun_prop) (mDouble hm4)
  have e : extTarget m res ts i P key₀ (fun u l ys =>
        (pmcmcKernel m res key u l ys y0 ts fwdYs sdeMean delta i).E fun out => F ys out.2.2.1)
      = ∫⁻ z : PmState U V K, ENNReal.ofReal (Real.exp z.2.2) * ∫⁻ z', accProb z.2.2 z'.2.2 * F z.1 z'.1 ∂(extProp κ Q z) ∂(P ⊗ₘ κ) := by
    rw [Measure.lintegral_compProd hm5]
    simp only [extTarget, hk]
    refine lintegral_congr fun ys => ?_
    have hs : Measurable fun p : U × ℝ => ENNReal.ofReal (Real.exp p.2) *
        ∫⁻ z', accProb p.2 z'.2.2 * F ys z'.1 ∂(extProp κ Q (ys, p)) := measurable_section hm5 ys
    exact hest key₀ ys _ hs
  rw [e, accForm]
  refine lintegral_congr fun z => ?_
  have hz : Measurable fun z' : PmState U V K => accProb z.2.2 z'.2.2 * F z.1 z'.1 := measurable_section hm4 z
  rw [← lintegral_const_mul _ hz]
  refine lintegral_congr fun z' => ?_
  rw [← mul_assoc, accW_eq]

omit hm hS hres hres' hb [NeZero N] [MeasurableSpace U] in
/-- The moves of the exact chain. -/
theorem exact_moves {L : (Fin (K + 1) → V) → ℝ} (hL : Measurable L) (hpos : ∀ ys, 0 < L ys)
    {Q : Kernel (Fin (K + 1) → V) (Fin (K + 1) → V)} [IsMarkovKernel Q]
    (hpr : ∀ k ys f, Measurable f → (pmcmcProposal k ys y0 ts fwdYs sdeMean delta).E f = ∫⁻ ys', f ys' ∂(Q ys))
    (key : Key) {F : (Fin (K + 1) → V) → (Fin (K + 1) → V) → ℝ≥0∞}
    (hF : Measurable fun q : (Fin (K + 1) → V) × (Fin (K + 1) → V) => F q.1 q.2) (h0 : ∀ ys, F ys ys = 0) :
    ∫⁻ ys, ENNReal.ofReal (L ys) * (exactStep L y0 ts fwdYs sdeMean delta key ys).E (F ys) ∂P
      = accForm P Q (fun ys => Real.log (L ys)) F := by
  refine lintegral_congr fun ys => ?_
  have hl : Measurable fun ys => Real.log (L ys) := Real.measurable_log.comp hL
  have hFy : Measurable fun ys' => F ys ys' := hF.comp (measurable_prodMk_left (x := ys))
  have hz : Measurable fun ys' => accProb (Real.log (L ys)) (Real.log (L ys')) * F ys ys' :=
    mMul (measurable_accProb.comp (measurable_const.prodMk hl)) hFy
  rw [E_exactStep]
  simp only [h0, mul_zero, add_zero]
  rw [hpr key ys _ hz, ← lintegral_const_mul _ hz]
  refine lintegral_congr fun ys' => ?_
  rw [← mul_assoc, ← Real.exp_log (hpos ys), Real.log_exp, accW_eq]

/-- Both chains, their targets and how they compare. -/
theorem both_chains [SFinite P] (hgood : GoodProposal y0 ts fwdYs sdeMean delta P) :
    ∃ (η : Kernel (U × ℝ × (Fin (K + 1) → V)) (U × ℝ × (Fin (K + 1) → V))) (M : Measure (U × ℝ × (Fin (K + 1) → V)))
      (ηe : Kernel (Fin (K + 1) → V) (Fin (K + 1) → V)) (π : Measure (Fin (K + 1) → V)),
      IsMarkovKernel η ∧ IsMarkovKernel ηe ∧
      (∀ k s f, Measurable f → (pmcmcNext m res y0 ts fwdYs sdeMean delta i k s).E f = ∫⁻ s', f s' ∂(η s)) ∧
      (∀ key₀ f, Measurable f → extTarget m res ts i P key₀ (fun u l ys => f (u, l, ys)) = ∫⁻ s, f s ∂M) ∧
      (∀ k ys f, Measurable f →
        (exactStep (modelLik S ref ts) y0 ts fwdYs sdeMean delta k ys).E f = ∫⁻ ys', f ys' ∂(ηe ys)) ∧
      (∀ f : (Fin (K + 1) → V) → ℝ≥0∞, Measurable f → ∫⁻ ys, f ys ∂π = ∫⁻ ys, ENNReal.ofReal (modelLik S ref ts ys) * f ys ∂P) ∧
      (∀ f : (Fin (K + 1) → V) → ℝ≥0∞, Measurable f → ∫⁻ s, f s.2.2 ∂M = ∫⁻ ys, f ys ∂π) ∧
      Rev η M ∧ Pos η M ∧ Rev ηe π ∧ Pos ηe π ∧
      (∀ f : (Fin (K + 1) → V) → ℝ≥0∞, Measurable f → ∫⁻ ys, f ys * f ys ∂π ≠ ∞ →
        lagProd ηe π f f 1 ≤ lagProd η M (fun s => f s.2.2) (fun s => f s.2.2) 1) ∧
      (SmallVariance res → IsProbabilityMeasure P → ∀ f : (Fin (K + 1) → V) → ℝ≥0∞, Measurable f →
        ∫⁻ ys, f ys * f ys ∂π ≠ ∞ → (∀ ys, f ys ≤ 1) →
        lagProd η M (fun s => f s.2.2) (fun s => f s.2.2) 1
          ≤ lagProd ηe π f f 1 + ENNReal.ofReal √((2 * K + 1) * Real.exp b ^ (2 * K) / N)) ∧
      (∀ W : ℝ, (∀ key ys, (pmcmcEstimate m res key ys ts i).E (fun p => if Real.exp p.2 ≤ W * modelLik S ref ts ys then 0 else 1) = 0) →
        1 ≤ W ∧ ∀ h : U × ℝ × (Fin (K + 1) → V) → ℝ≥0∞, Measurable h → ∃ h₁ : (Fin (K + 1) → V) → ℝ≥0∞, Measurable h₁ ∧
          (∀ f : (Fin (K + 1) → V) → ℝ≥0∞, Measurable f → ∫⁻ s, f s.2.2 * h s ∂M = ∫⁻ ys, f ys * h₁ ys ∂π) ∧
          ∫⁻ ys, h₁ ys * h₁ ys ∂π ≤ ∫⁻ s, h s * h s ∂M ∧
          (∫⁻ ys, h₁ ys * h₁ ys ∂π) + ENNReal.ofReal W * lagProd η M h h 1
            ≤ ENNReal.ofReal W * (∫⁻ s, h s * h s ∂M) + lagProd ηe π h₁ h₁ 1) := by
  obtain ⟨hL, κ, hκ, hest, hl, hvar⟩ := modelLik_facts (ts := ts) hm hS hres hres' hb i
  have hpos := fun ys => modelLik_pos S ref hb ts ys
  obtain ⟨Q, hQ, hpr, hrev, hposQ⟩ := hgood
  obtain ⟨η, M, hη, hE, hM, hM', hlag⟩ := pmcmc_ker hm hS hres' i P hest hpr
  obtain ⟨ηe, hηe, hEe, hπ, hlage⟩ := exact_ker hL hpos P hpr
  have hw : Measurable fun z : PmState U V K => z.2.2 := by fun_prop
  have hlm : Measurable fun ys => Real.log (modelLik S ref ts ys) := Real.measurable_log.comp hL
  have hu := measurable_unpack (U := U) (V := V) (K := K)
  have hmap : ∀ f : (Fin (K + 1) → V) → ℝ≥0∞, Measurable f →
      ∫⁻ z : PmState U V K, ENNReal.ofReal (Real.exp z.2.2) * f z.1 ∂(P ⊗ₘ κ)
        = ∫⁻ ys, ENNReal.ofReal (modelLik S ref ts ys) * f ys ∂P := fun f hf => by
    have h1 : Measurable fun z : PmState U V K => ENNReal.ofReal (Real.exp z.2.2) * f z.1 :=
      mMul (by fun_prop) (hf.comp measurable_fst)
    rw [Measure.lintegral_compProd h1]
    refine lintegral_congr fun ys => ?_
    have h2 : Measurable fun p : U × ℝ => ENNReal.ofReal (Real.exp p.2) := by fun_prop
    show ∫⁻ p : U × ℝ, ENNReal.ofReal (Real.exp p.2) * f ys ∂(κ ys) = _
    rw [lintegral_mul_const _ h2, hl, Real.exp_log (hpos ys)]
  have hdir : ∀ f : (Fin (K + 1) → V) → ℝ≥0∞, Measurable f →
      2 * lagProd η M (fun s => f s.2.2) (fun s => f s.2.2) 1
          + accForm (P ⊗ₘ κ) (extProp κ Q) (fun z => z.2.2) (fun z z' => sqDiff (f z.1) (f z'.1))
        = 2 * ∫⁻ ys, f ys * f ys ∂(P.withDensity fun ys => ENNReal.ofReal (modelLik S ref ts ys)) ∧
      2 * lagProd ηe (P.withDensity fun ys => ENNReal.ofReal (modelLik S ref ts ys)) f f 1
          + accForm P Q (fun ys => Real.log (modelLik S ref ts ys)) (fun y y' => sqDiff (f y) (f y'))
        = 2 * ∫⁻ ys, f ys * f ys ∂(P.withDensity fun ys => ENNReal.ofReal (modelLik S ref ts ys)) := fun f hf => by
    have hfs : Measurable fun s : U × ℝ × (Fin (K + 1) → V) => f s.2.2 := hf.comp (by fun_prop)
    have hf1 : Measurable fun z : PmState U V K => f z.1 := hf.comp measurable_fst
    constructor
    · rw [hlag _ _ hfs hfs, hπ _ (mMul hf hf), ← hmap _ (mMul hf hf)]
      exact mhForm_dirichlet hw (fun F hF => extProp_rev P κ Q hrev hF) hf1
    · rw [hlage _ _ hf hf, hπ _ (mMul hf hf)]
      refine (mhForm_dirichlet hlm hrev hf).trans ?_
      simp only [Real.exp_log (hpos _)]
  have hsd : ∀ f : (Fin (K + 1) → V) → ℝ≥0∞, Measurable f →
      Measurable fun q : (Fin (K + 1) → V) × (Fin (K + 1) → V) => sqDiff (f q.1) (f q.2) := fun f hf =>
    measurable_sqDiff.comp ((hf.comp measurable_fst).prodMk (hf.comp measurable_snd))
  refine ⟨η, M, ηe, P.withDensity fun ys => ENNReal.ofReal (modelLik S ref ts ys), hη, hηe, hE, hM, hEe, hπ, fun f hf => ?_,
    fun f g hf hg => ?_, fun f g hf hg => ?_, fun f g hf hg => ?_, fun f g hf hg => ?_, fun f hf h2 => ?_, fun hsv hP f hf h2 hf1 => ?_,
    fun W hW => ?_⟩
  · have hfs : Measurable fun s : U × ℝ × (Fin (K + 1) → V) => f s.2.2 := hf.comp (by fun_prop)
    rw [hM' _ hfs, hπ f hf]
    exact hmap f hf
  · rw [hlag f g hf hg, hlag g f hg hf]
    exact mhForm_comm hw (fun F hF => extProp_rev P κ Q hrev hF) (hf.comp hu) (hg.comp hu)
  · rw [hlag f g hf hg, hlag g f hg hf, hlag f f hf hf, hlag g g hg hg]
    exact mhForm_pos hw (extProp_pos P κ Q hposQ) (hf.comp hu) (hg.comp hu)
  · rw [hlage f g hf hg, hlage g f hg hf]
    exact mhForm_comm hlm hrev hf hg
  · rw [hlage f g hf hg, hlage g f hg hf, hlage f f hf hf, hlage g g hg hg]
    exact mhForm_pos hlm hposQ hf hg
  · obtain ⟨h3, h4⟩ := hdir f hf
    have h5 := accForm_le (P := P) (Q := Q) (F := fun y y' => sqDiff (f y) (f y')) hw hl (hsd f hf)
    have hfin : accForm P Q (fun ys => Real.log (modelLik S ref ts ys)) (fun y y' => sqDiff (f y) (f y')) ≠ ∞ :=
      ne_top_of_le_ne_top (ENNReal.mul_ne_top ENNReal.ofNat_ne_top h2) (h4 ▸ le_add_self)
    have h6 := (h4.trans h3.symm).le.trans (add_le_add_right h5 _)
    exact (ENNReal.mul_le_mul_iff_right two_ne_zero ENNReal.ofNat_ne_top).1 ((ENNReal.add_le_add_iff_right hfin).1 h6)
  · obtain ⟨h3, h4⟩ := hdir f hf
    have hN : 0 < (N : ℝ) := by exact_mod_cast Nat.pos_of_ne_zero (NeZero.ne N)
    have h5 := le_accForm (P := P) (Q := Q) (F := fun y y' => sqDiff (f y) (f y')) hw (by positivity) (hvar hsv) (hsd f hf) fun y y' => sqDiff_le_one (hf1 y) (hf1 y')
    have hfin : accForm (P ⊗ₘ κ) (extProp κ Q) (fun z => z.2.2) (fun z z' => sqDiff (f z.1) (f z'.1)) ≠ ∞ :=
      ne_top_of_le_ne_top (ENNReal.mul_ne_top ENNReal.ofNat_ne_top h2) (h3 ▸ le_add_self)
    have h6 := (h3.trans h4.symm).le.trans (add_le_add_right h5 _)
    rw [add_comm (accForm _ _ _ _), ← add_assoc, ENNReal.add_le_add_iff_right hfin, ENNReal.ofReal_mul (by norm_num),
      show ENNReal.ofReal 2 = 2 by simp, ← mul_add] at h6
    exact (ENNReal.mul_le_mul_iff_right two_ne_zero ENNReal.ofNat_ne_top).1 h6
  · have hae := estimateBound_ae i hpos hest hW
    refine ⟨one_le_of_bound (w := fun z : PmState U V K => z.2.2) hl hae, fun h hh => ?_⟩
    have hhu : Measurable fun z : PmState U V K => h (unpack z) := hh.comp hu
    have mp := measurable_projW (κ := κ) hw hlm hhu
    have hlog : ∀ ys, ENNReal.ofReal (Real.exp (Real.log (modelLik S ref ts ys))) = ENNReal.ofReal (modelLik S ref ts ys) := fun ys => by
      rw [Real.exp_log (hpos ys)]
    refine ⟨projW κ (fun z : PmState U V K => z.2.2) (fun ys => Real.log (modelLik S ref ts ys)) fun z => h (unpack z), mp,
      fun f hf => ?_, ?_, ?_⟩
    · have hfs : Measurable fun s : U × ℝ × (Fin (K + 1) → V) => f s.2.2 := hf.comp (by fun_prop)
      have := projW_integral (P := P) (κ := κ) hw hlm hhu hf
      simp only [hlog] at this
      rw [hM' _ (mMul hfs hh), hπ _ (mMul hf mp)]
      exact this
    · have := projW_sq (P := P) (κ := κ) hw hlm hl hhu
      simp only [hlog] at this
      rw [hM' _ (mMul hh hh), hπ _ (mMul mp mp)]
      exact this
    · have := projW_mhForm (P := P) (κ := κ) (Q := Q) hw hlm hl hrev hae hhu
      simp only [hlog] at this
      rw [hM' _ (mMul hh hh), hπ _ (mMul mp mp), hlag h h hh hh, hlage _ _ mp mp]
      exact this

/-- **C105, the same target.**  The law of the path with density proportional to the likelihood is the marginal of the extended target of
`pmcmc_kernel`, and the step with the exact likelihoods leaves it invariant. -/
theorem C105_same_target [SFinite P] (hgood : GoodProposal y0 ts fwdYs sdeMean delta P) (key₀ key : Key)
    {f : (Fin (K + 1) → V) → ℝ≥0∞} (hf : Measurable f) :
    extTarget m res ts i P key₀ (fun _ _ ys => f ys) = ∫⁻ ys, ENNReal.ofReal (modelLik S ref ts ys) * f ys ∂P ∧
      ∫⁻ ys, ENNReal.ofReal (modelLik S ref ts ys) * (exactStep (modelLik S ref ts) y0 ts fwdYs sdeMean delta key ys).E f ∂P
        = ∫⁻ ys, ENNReal.ofReal (modelLik S ref ts ys) * f ys ∂P := by
  obtain ⟨η, M, ηe, π, hη, hηe, hE, hM, hEe, hπ, hmap, -, -, hreve, -⟩ := both_chains hm hS hres hres' hb i hgood
  have hf' : Measurable fun s : U × ℝ × (Fin (K + 1) → V) => f s.2.2 := hf.comp (by fun_prop)
  refine ⟨by rw [hM key₀ _ hf', hmap f hf, hπ f hf], ?_⟩
  rw [← hπ f hf, ← lintegral_iterInt hreve hf 1, hπ _ (measurable_iterInt hf 1)]
  refine lintegral_congr fun ys => ?_
  rw [hEe key ys f hf]
  rfl

/-- **C105, fewer moves.**  Charge a move from the path `ys` to the path `ys'` the price `F ys ys'`, and nothing for staying.  In
stationarity one call of `pmcmc_kernel` costs at most as much, on average, as one step with the exact likelihoods. -/
theorem C105_fewer_moves [SFinite P] (hgood : GoodProposal y0 ts fwdYs sdeMean delta P) (key₀ key : Key)
    {F : (Fin (K + 1) → V) → (Fin (K + 1) → V) → ℝ≥0∞}
    (hF : Measurable fun q : (Fin (K + 1) → V) × (Fin (K + 1) → V) => F q.1 q.2) (h0 : ∀ ys, F ys ys = 0) :
    extTarget m res ts i P key₀ (fun u l ys =>
        (pmcmcKernel m res key u l ys y0 ts fwdYs sdeMean delta i).E fun out => F ys out.2.2.1)
      ≤ ∫⁻ ys, ENNReal.ofReal (modelLik S ref ts ys) *
        (exactStep (modelLik S ref ts) y0 ts fwdYs sdeMean delta key ys).E (F ys) ∂P := by
  obtain ⟨hL, κ, hκ, hest, hl, -⟩ := modelLik_facts (ts := ts) hm hS hres hres' hb i
  obtain ⟨Q, hQ, hpr, -, -⟩ := hgood
  rw [pm_moves i hest hpr key₀ key hF h0, exact_moves hL (fun ys => modelLik_pos S ref hb ts ys) hpr key hF h0]
  exact accForm_le (by fun_prop) hl hF

/-- **C105, but not many fewer.**  For prices of at most one, and resampling schemes with the usual bound on the variance, the difference
is at most `2 √((2 K + 1) e^(2 K b) / N)`, where `e^b` bounds the likelihood factors. -/
theorem C105_moves_close [IsProbabilityMeasure P] (hgood : GoodProposal y0 ts fwdYs sdeMean delta P) (hsv : SmallVariance res)
    (key₀ key : Key) {F : (Fin (K + 1) → V) → (Fin (K + 1) → V) → ℝ≥0∞}
    (hF : Measurable fun q : (Fin (K + 1) → V) × (Fin (K + 1) → V) => F q.1 q.2) (h0 : ∀ ys, F ys ys = 0)
    (h1 : ∀ ys ys', F ys ys' ≤ 1) :
    ∫⁻ ys, ENNReal.ofReal (modelLik S ref ts ys) * (exactStep (modelLik S ref ts) y0 ts fwdYs sdeMean delta key ys).E (F ys) ∂P
      ≤ extTarget m res ts i P key₀ (fun u l ys =>
          (pmcmcKernel m res key u l ys y0 ts fwdYs sdeMean delta i).E fun out => F ys out.2.2.1)
        + ENNReal.ofReal (2 * √((2 * K + 1) * Real.exp b ^ (2 * K) / N)) := by
  obtain ⟨hL, κ, hκ, hest, hl, hvar⟩ := modelLik_facts (ts := ts) hm hS hres hres' hb i
  obtain ⟨Q, hQ, hpr, -, -⟩ := hgood
  have hN : 0 < (N : ℝ) := by exact_mod_cast Nat.pos_of_ne_zero (NeZero.ne N)
  rw [pm_moves i hest hpr key₀ key hF h0, exact_moves hL (fun ys => modelLik_pos S ref hb ts ys) hpr key hF h0]
  exact le_accForm (by fun_prop) (by positivity) (hvar hsv) hF h1

/-- **C105, one step.**  Let `f` be a function of the path with a finite second moment.  The expected product of its values before and after
one call of `pmcmc_kernel` is at least that for one step with the exact likelihoods.  When `f ≤ 1` the difference is at most
`√((2 K + 1) e^(2 K b) / N)`. -/
theorem C105_one_step [IsProbabilityMeasure P] (hgood : GoodProposal y0 ts fwdYs sdeMean delta P) (key₀ key : Key)
    {f : (Fin (K + 1) → V) → ℝ≥0∞} (hf : Measurable f)
    (h2 : ∫⁻ ys, ENNReal.ofReal (modelLik S ref ts ys) * (f ys * f ys) ∂P ≠ ∞) (A B : ℝ≥0∞)
    (hA : A = ∫⁻ ys, ENNReal.ofReal (modelLik S ref ts ys) * (f ys *
      (exactStep (modelLik S ref ts) y0 ts fwdYs sdeMean delta key ys).E f) ∂P)
    (hB : B = extTarget m res ts i P key₀ fun u l ys => f ys *
      (pmcmcKernel m res key u l ys y0 ts fwdYs sdeMean delta i).E fun out => f out.2.2.1) :
    A ≤ B ∧ (SmallVariance res → (∀ ys, f ys ≤ 1) → B ≤ A + ENNReal.ofReal √((2 * K + 1) * Real.exp b ^ (2 * K) / N)) := by
  obtain ⟨η, M, ηe, π, hη, hηe, hE, hM, hEe, hπ, hmap, hrev, -, hreve, -, hcmp, hclose, -⟩ :=
    both_chains hm hS hres hres' hb i hgood
  rw [← hπ _ (mMul hf hf)] at h2
  have hf' : Measurable fun s : U × ℝ × (Fin (K + 1) → V) => f s.2.2 := hf.comp (by fun_prop)
  have eA : A = lagProd ηe π f f 1 := by
    rw [hA, lagProd, hπ _ (mMul hf (measurable_iterInt hf 1))]
    refine lintegral_congr fun ys => ?_
    rw [hEe key ys f hf]
    rfl
  have eB : B = lagProd η M (fun s => f s.2.2) (fun s => f s.2.2) 1 := by
    rw [hB]
    refine Eq.trans ?_ (hM key₀ _ (mMul hf' (measurable_iterInt hf' 1)))
    refine congrArg _ (funext fun u => funext fun l => funext fun ys => ?_)
    rw [iterInt, ← hE key (u, l, ys) _ (measurable_iterInt hf' 0), pmcmcNext, Rand.E_map]
    rfl
  rw [eA, eB]
  exact ⟨hcmp f hf h2, fun hsv h1 => hclose hsv inferInstance f hf h2 h1⟩

/-- **C105, all lags.**  Let `A k` and `B k` be the expected products of the values of a function `f` of the path at the start and `k` steps
later, for the stationary chain with the exact likelihoods and for that of `pmcmc_kernel`; `Z` is the mass of the target and `I` the integral
of `f`.  Then `∑ r^k A k ≤ ∑ r^k B k` for every `r < 1`; no autocovariance `Z A k - I²`, `Z B k - I²` is negative; and the sum of the
autocovariances, which gives the variance of long averages, is at least as large for `pmcmc_kernel`. -/
theorem C105_asymptotic_variance [IsProbabilityMeasure P] (hgood : GoodProposal y0 ts fwdYs sdeMean delta P) (key₀ : Key)
    {keys : ℕ → List Key} (hk : ∀ k, (keys k).length = k) {f : (Fin (K + 1) → V) → ℝ≥0∞} (hf : Measurable f)
    (h2 : ∫⁻ ys, ENNReal.ofReal (modelLik S ref ts ys) * (f ys * f ys) ∂P ≠ ∞) (A B : ℕ → ℝ≥0∞)
    (hA : ∀ k, A k = ∫⁻ ys, ENNReal.ofReal (modelLik S ref ts ys) * (f ys *
      (iterKernel (exactStep (modelLik S ref ts) y0 ts fwdYs sdeMean delta) (keys k) ys).E f) ∂P)
    (hB : ∀ k, B k = extTarget m res ts i P key₀ fun u l ys => f ys *
      (iterKernel (pmcmcNext m res y0 ts fwdYs sdeMean delta i) (keys k) (u, l, ys)).E fun s => f s.2.2)
    (Z I : ℝ≥0∞) (hZ : Z = ∫⁻ ys, ENNReal.ofReal (modelLik S ref ts ys) ∂P)
    (hI : I = ∫⁻ ys, ENNReal.ofReal (modelLik S ref ts ys) * f ys ∂P) :
    (∀ r : ℝ≥0∞, r < 1 → ∑' k, r ^ k * A k ≤ ∑' k, r ^ k * B k) ∧
      (∀ k, I * I ≤ Z * A k ∧ I * I ≤ Z * B k) ∧
      ∑' k, (Z * A k - I * I) ≤ ∑' k, (Z * B k - I * I) := by
  obtain ⟨η, M, ηe, π, hη, hηe, hE, hM, hEe, hπ, hmap, hrev, hpos, hreve, hpose, hcmp, -⟩ :=
    both_chains hm hS hres hres' hb i hgood
  have hZt : Z ≠ ∞ := hZ ▸ modelLik_mass S ref hb ts P
  have hZπ : Z = π Set.univ := by
    rw [← lintegral_one, hπ _ measurable_const, hZ]
    simp
  have hZM : Z = M Set.univ := by rw [← lintegral_one, hmap (fun _ => 1) measurable_const, lintegral_one, hZπ]
  have : IsFiniteMeasure π := ⟨by rw [← hZπ]; exact hZt.lt_top⟩
  have : IsFiniteMeasure M := ⟨by rw [← hZM]; exact hZt.lt_top⟩
  rw [← hπ _ (mMul hf hf)] at h2
  rw [← hπ _ hf] at hI
  have hf' : Measurable fun s : U × ℝ × (Fin (K + 1) → V) => f s.2.2 := hf.comp (by fun_prop)
  have h2' : ∫⁻ s, f s.2.2 * f s.2.2 ∂M ≠ ∞ := by
    rw [hmap (fun ys => f ys * f ys) (mMul hf hf)]
    exact h2
  have eA : ∀ k, A k = lagProd ηe π f f k := fun k => by
    rw [hA, lagProd, hπ _ (mMul hf (measurable_iterInt hf k))]
    simp only [iterKernel_iter hEe hf, hk]
  have eB : ∀ k, B k = lagProd η M (fun s => f s.2.2) (fun s => f s.2.2) k := fun k => by
    rw [hB]
    refine Eq.trans ?_ (hM key₀ _ (mMul hf' (measurable_iterInt hf' k)))
    simp only [iterKernel_iter hE hf', hk]
  have h1 : ∀ r : ℝ≥0∞, r < 1 → ∑' k, r ^ k * A k ≤ ∑' k, r ^ k * B k := fun r hr => by
    simp only [eA, eB]
    exact discounted_le hreve hrev (p := fun s => s.2.2) (by fun_prop) hmap hcmp hf h2 hr
  have hcA : ∀ k, I * I ≤ Z * A k := fun k => by
    rw [hI, hZπ, eA]
    exact cov_nonneg_fin hreve hpose hf h2 k
  have hcB : ∀ k, I * I ≤ Z * B k := fun k => by
    rw [hI, ← hmap f hf, hZM, eB]
    exact cov_nonneg_fin hrev hpos hf' h2' k
  have hAt : ∀ k, Z * A k ≠ ∞ := fun k => by
    refine ENNReal.mul_ne_top hZt (ne_top_of_le_ne_top h2 ?_)
    rw [eA]
    exact lagProd_le hreve hf k
  refine ⟨h1, fun k => ⟨hcA k, hcB k⟩, asymptotic_le (ne_top_of_le_ne_top (hAt 0) (hcA 0)) hcA hcB hAt fun r hr => ?_⟩
  simp only [mul_left_comm _ Z, ENNReal.tsum_mul_left]
  exact mul_le_mul_right (h1 r hr) Z

end

end Exact

section Proposals

variable {V : Type} {K : ℕ} [NormedAddCommGroup V] [NormedSpace ℝ V] [CompleteSpace V]
  [SecondCountableTopology V] [MeasurableSpace V] [BorelSpace V]

/-- **C105, both proposals of `pmcmc_kernel` qualify.**  With `delta = None` whatever the law of the forward paths, and with `delta ≥ 0` when
it is Gaussian with the mean which `sde_mean` computes, the proposal is reversible and positive for that law. -/
theorem C105_proposals {y0 : V} {ts : Fin (K + 1) → ℝ} {fwdYs : Key → V → Rand (Fin (K + 1) → V)}
    {sdeMean : ℝ → ℝ → V → V} {P : Measure (Fin (K + 1) → V)} [IsProbabilityMeasure P] (hP : Draws (fun k => fwdYs k y0) P) :
    GoodProposal y0 ts fwdYs sdeMean none P ∧
      (IsGaussian P → (fun j => sdeMean (ts j) (ts 0) y0) = ∫ ys, ys ∂P → ∀ delta : ℝ, 0 ≤ delta →
        GoodProposal y0 ts fwdYs sdeMean (some delta) P) :=
  ⟨good_none y0 ts sdeMean fun k f hf => hP k f hf, fun _ hmean _ hδ => good_pcn hP hmean hδ⟩

end Proposals

/-! ### Examples -/

section Example

theorem coin_good (ts : Fin 2 → ℝ) : GoodProposal 0 ts (fun k _ => Rand.sample k Set.univ gaussPath) (fun _ _ y => y) (some 2) gaussPath :=
  (C105_proposals (fun k f _ => rfl)).2 inferInstance (by rw [gaussPath_mean]; rfl) 2 (by norm_num)

theorem measurable_moved : Measurable fun q : (Fin 2 → ℝ) × (Fin 2 → ℝ) => if q.1 = q.2 then (0 : ℝ≥0∞) else 1 :=
  Measurable.ite (measurableSet_eq_fun measurable_fst measurable_snd) measurable_const measurable_const

/-- The coin with a hundred particles and Crank–Nicolson proposals: the fraction of paths which move. -/
example (key₀ key : Key) (ts : Fin 2 → ℝ) (i : Fin 100) (a e : ℝ≥0∞)
    (ha : a = extTarget (smcFuns coinSpace 100) Resampling.killing ts i gaussPath key₀ fun u l ys =>
      (pmcmcKernel (smcFuns coinSpace 100) Resampling.killing key u l ys 0 ts (fun k _ => Rand.sample k Set.univ gaussPath)
        (fun _ _ y => y) (some 2) i).E fun out => if ys = out.2.2.1 then 0 else 1)
    (he : e = ∫⁻ ys, ENNReal.ofReal (9 / 2) * (exactStep (fun _ => 9 / 2) 0 ts (fun k _ => Rand.sample k Set.univ gaussPath)
        (fun _ _ y => y) (some 2) key ys).E (fun ys' => if ys = ys' then 0 else 1) ∂gaussPath) :
    a ≤ e ∧ e ≤ a + ENNReal.ofReal (2 * √(3 * 8 ^ 2 / 100)) := by
  have hb : ∀ v v' t u, coinSpace.logG v v' t u ≤ Real.log 8 := fun v v' t u => (abs_le.1 (coin_logG_le v v' t u)).2
  have h1 := C105_fewer_moves (coin_implements 100) coin_jointMeas sums_killing scheme_killing hb i (coin_good ts) key₀ key
    (F := fun ys ys' => if ys = ys' then 0 else 1) measurable_moved fun ys => if_pos rfl
  have h2 := C105_moves_close (coin_implements 100) coin_jointMeas sums_killing scheme_killing hb i (coin_good ts) smallVariance_killing
    key₀ key (F := fun ys ys' => if ys = ys' then 0 else 1) measurable_moved (fun ys => if_pos rfl) fun ys ys' => by
      split_ifs <;> simp
  have em : modelLik coinSpace (Kernel.const ℝ coinSpace.init) ts = fun _ => 9 / 2 := funext fun ys => coin_modelLik ts ys
  rw [em] at h1 h2
  rw [← ha, ← he] at h1 h2
  refine ⟨h1, h2.trans (le_of_eq ?_)⟩
  rw [Real.exp_log (by norm_num)]
  norm_num

theorem coin_sq {f : (Fin 2 → ℝ) → ℝ≥0∞} (h1 : ∀ ys, f ys ≤ 1) (P : Measure (Fin 2 → ℝ)) [IsProbabilityMeasure P] :
    ∫⁻ ys : Fin 2 → ℝ, ENNReal.ofReal (9 / 2) * (f ys * f ys) ∂P ≠ ∞ :=
  ne_top_of_le_ne_top ENNReal.ofReal_ne_top ((lintegral_mono fun ys => mul_le_mul_right (mul_le_one' (h1 ys) (h1 ys)) _).trans (by simp) :
    _ ≤ ENNReal.ofReal (9 / 2))

/-- The same coin, the probability that the path is in `s` before and after a call. -/
example (key₀ key : Key) (ts : Fin 2 → ℝ) (i : Fin 100) {s : Set (Fin 2 → ℝ)} (hs : MeasurableSet s) (A B : ℝ≥0∞)
    (hA : A = ∫⁻ ys, ENNReal.ofReal (9 / 2) * (s.indicator 1 ys * (exactStep (fun _ => 9 / 2) 0 ts
      (fun k _ => Rand.sample k Set.univ gaussPath) (fun _ _ y => y) (some 2) key ys).E (s.indicator 1)) ∂gaussPath)
    (hB : B = extTarget (smcFuns coinSpace 100) Resampling.killing ts i gaussPath key₀ fun u l ys => s.indicator 1 ys *
      (pmcmcKernel (smcFuns coinSpace 100) Resampling.killing key u l ys 0 ts (fun k _ => Rand.sample k Set.univ gaussPath)
        (fun _ _ y => y) (some 2) i).E fun out => s.indicator 1 out.2.2.1) :
    A ≤ B ∧ B ≤ A + ENNReal.ofReal √(3 * 8 ^ 2 / 100) := by
  have hb : ∀ v v' t u, coinSpace.logG v v' t u ≤ Real.log 8 := fun v v' t u => (abs_le.1 (coin_logG_le v v' t u)).2
  have em : modelLik coinSpace (Kernel.const ℝ coinSpace.init) ts = fun _ => 9 / 2 := funext fun ys => coin_modelLik ts ys
  have h1 : ∀ ys, s.indicator (1 : (Fin 2 → ℝ) → ℝ≥0∞) ys ≤ 1 := fun ys => Set.indicator_le_self' (by simp) ys
  have h := C105_one_step (coin_implements 100) coin_jointMeas sums_killing scheme_killing hb i (coin_good ts) key₀ key
    (f := s.indicator 1) (measurable_one.indicator hs)
  rw [em] at h
  obtain ⟨h3, h4⟩ := h (coin_sq h1 gaussPath) A B hA hB
  refine ⟨h3, (h4 smallVariance_killing h1).trans (le_of_eq ?_)⟩
  rw [Real.exp_log (by norm_num)]
  norm_num

/-- The coin with three particles and independent proposals. -/
example (key₀ : Key) {keys : ℕ → List Key} (hk : ∀ k, (keys k).length = k) (ts : Fin 2 → ℝ) (i : Fin 3) (y0 : ℝ)
    {f : (Fin 2 → ℝ) → ℝ≥0∞} (hf : Measurable f) (h1 : ∀ ys, f ys ≤ 1) (A B : ℕ → ℝ≥0∞)
    (hA : ∀ k, A k = ∫⁻ ys, ENNReal.ofReal (9 / 2) * (f ys *
      (iterKernel (exactStep (fun _ => 9 / 2) y0 ts (fun k _ => uniforms k 2) (fun _ _ y => y) none) (keys k) ys).E f)
        ∂(Measure.pi fun _ => unifMeasure))
    (hB : ∀ k, B k = extTarget (smcFuns coinSpace 3) Resampling.killing ts i (Measure.pi fun _ => unifMeasure) key₀ fun u l ys =>
      f ys * (iterKernel (pmcmcNext (smcFuns coinSpace 3) Resampling.killing y0 ts (fun k _ => uniforms k 2)
        (fun _ _ y => y) none i) (keys k) (u, l, ys)).E fun s => f s.2.2)
    (Z I : ℝ≥0∞) (hZ : Z = ∫⁻ _ : Fin 2 → ℝ, ENNReal.ofReal (9 / 2) ∂(Measure.pi fun _ => unifMeasure))
    (hI : I = ∫⁻ ys : Fin 2 → ℝ, ENNReal.ofReal (9 / 2) * f ys ∂(Measure.pi fun _ => unifMeasure)) :
    ∑' k, (Z * A k - I * I) ≤ ∑' k, (Z * B k - I * I) := by
  have hb : ∀ v v' t u, coinSpace.logG v v' t u ≤ Real.log 8 := fun v v' t u => (abs_le.1 (coin_logG_le v v' t u)).2
  have em : modelLik coinSpace (Kernel.const ℝ coinSpace.init) ts = fun _ => 9 / 2 := funext fun ys => coin_modelLik ts ys
  have h := C105_asymptotic_variance (coin_implements 3) coin_jointMeas sums_killing scheme_killing hb i
    (C105_proposals (y0 := y0) (ts := ts) (fwdYs := fun k _ => uniforms k 2) (sdeMean := fun _ _ y => y)
      (P := Measure.pi fun _ => unifMeasure) (fun k f _ => rfl)).1 key₀ hk hf
  rw [em] at h
  exact (h (coin_sq h1 _) A B hA hB Z I hZ hI).2.2

end Example

end Props
end Fbs
