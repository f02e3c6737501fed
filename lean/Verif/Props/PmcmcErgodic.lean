import Verif.Props.PmcmcLaw
import Verif.Props.Chains
import Verif.Props.Ergodic

/-!
# C83: the pseudo-marginal chain with independent proposals forgets its start
-/

open MeasureTheory ProbabilityTheory
open scoped ENNReal

namespace Fbs
namespace Props

open Jax Spec Smc

/-! ### Chains of programs which keep to a set of states -/

theorem AllOut.leaves {α : Type} {P : α → Prop} : ∀ {p : Rand α}, AllOut P p → p.Leaves P
  | .ret _, h => h
  | @Rand.draw _ _ _ _ _ _ _, h => fun b => AllOut.leaves (h b)

/-- A chain which stays in `A` and whose every step from `A` is at least `η` contracts the range of functions on `A`. -/
theorem iter_contract {σ : Type} [MeasurableSpace σ] {next : Key → σ → Rand σ} (hk : HasKer next) {A : Set σ} {s₀ : σ}
    (hs₀ : s₀ ∈ A) (hA : ∀ k s, s ∈ A → AllOut (· ∈ A) (next k s)) {η : (σ → ℝ≥0∞) → ℝ≥0∞} {ε : ℝ≥0∞}
    (hadd : ∀ f g, Measurable f → Measurable g → η (fun x => f x + g x) = η f + η g)
    (hc : ∀ c, η (fun _ => c) = ε * c)
    (hη : ∀ k s, s ∈ A → ∀ f, Measurable f → η f ≤ (next k s).E f)
    {F : σ → ℝ≥0∞} (hF : Measurable F) (h1 : ∀ s ∈ A, F s ≤ 1) : ∀ ks : List Key,
    ∃ a, a ≠ ∞ ∧ ∀ s ∈ A, a ≤ (iterKernel next ks s).E F ∧ (iterKernel next ks s).E F ≤ a + (1 - ε) ^ ks.length
  | [] => ⟨0, ENNReal.zero_ne_top, fun s hs => ⟨bot_le, by simpa [iterKernel] using h1 s hs⟩⟩
  | k :: ks => by
    obtain ⟨a, ha, hr⟩ := iter_contract hk hs₀ hA hadd hc hη hF h1 ks
    have hconst : ∀ k s (c : ℝ≥0∞), (next k s).E (fun _ => c) = c := by
      obtain ⟨κ, hκ, h⟩ := hk
      intro k s c
      rw [h k s _ measurable_const]
      simp
    have hε : ε ≤ 1 := by
      have := hη k s₀ hs₀ (fun _ => 1) measurable_const
      rwa [hc, mul_one, hconst] at this
    have hpow : (1 - ε) ^ ks.length ≠ ∞ := ENNReal.pow_ne_top (ne_top_of_le_ne_top ENNReal.one_ne_top tsub_le_self)
    set δ := (1 - ε) ^ ks.length with hδ
    let G : σ → ℝ≥0∞ := fun s => max a (min ((iterKernel next ks s).E F) (a + δ))
    have hG : Measurable G :=
      measurable_const.max (((hasKer_iter hk ks).measurable () (f := fun _ => F) (hF.comp measurable_snd)).min
        measurable_const)
    have hGr : ∀ s, a ≤ G s ∧ G s ≤ a + δ := fun s =>
      ⟨le_max_left _ _, max_le le_self_add (min_le_right _ _)⟩
    have hGA : ∀ s ∈ A, (iterKernel next ks s).E F = G s := fun s hs => by
      simp only [G, min_eq_left (hr s hs).2, max_eq_right (hr s hs).1]
    have hE : ∀ s ∈ A, (iterKernel next (k :: ks) s).E F = (next k s).E G := fun s hs => by
      rw [iterKernel, Rand.E_bind]
      exact Rand.E_congr_leaves (hA k s hs).leaves hGA
    have hstep : ∀ s ∈ A, _ := fun s hs => doeblin_step hε hadd hc (κ := fun f => (next k s).E f)
      (fun f g => Rand.E_add_le _ _ _) (fun c => hconst k s c) (fun f hf => hη k s hs f hf) hG ha hpow hGr
    refine ⟨(1 - ε) * a + η G, ?_, fun s hs => ?_⟩
    · refine ne_top_of_le_ne_top (ENNReal.add_ne_top.2 ⟨ha, hpow⟩) ((hstep s₀ hs₀).1.trans ?_)
      exact (Rand.E_mono _ fun s => (hGr s).2).trans (hconst _ _ _).le
    · rw [hE s hs, List.length_cons, pow_succ']
      exact hstep s hs

section Chain

variable {U V : Type} [MeasurableSpace U] [MeasurableSpace V] [AddCommGroup V] [Module ℝ V] {N K : ℕ} [NeZero N]

/-- The rate: the likelihood of the model relative to its largest value. -/
noncomputable def pmcmcRate (m : Funs N U V) (res : Smc.Resampling N) (ts : Fin (K + 1) → ℝ) (i : Fin N)
    (P : Measure (Fin (K + 1) → V)) (L : ℝ) : ℝ≥0∞ :=
  ENNReal.ofReal (Real.exp (-L)) * extTarget m res ts i P [] fun _ _ _ => 1

omit [AddCommGroup V] [Module ℝ V] in
theorem measurable_weighted {f : U × ℝ × (Fin (K + 1) → V) → ℝ≥0∞} (hf : Measurable f) :
    Measurable (Function.uncurry fun (ys : Fin (K + 1) → V) (p : U × ℝ) =>
      ENNReal.ofReal (Real.exp p.2) * f (p.1, p.2, ys)) := by
  have h1 : Measurable fun z : (Fin (K + 1) → V) × (U × ℝ) => ENNReal.ofReal (Real.exp z.2.2) := by fun_prop
  have h2 : Measurable fun z : (Fin (K + 1) → V) × (U × ℝ) => f (z.2.1, z.2.2, z.1) := hf.comp (by fun_prop)
  exact h1.mul h2

omit [AddCommGroup V] [Module ℝ V] in
theorem extTarget_add {m : Funs N U V} {ref : Kernel V U} [IsMarkovKernel ref] {S : StateSpace U V}
    (hm : PmcmcImplements m ref S) (hS : S.JointMeas) {res : Smc.Resampling N} (hres : MeasurableScheme res)
    (ts : Fin (K + 1) → ℝ) (i : Fin N) (P : Measure (Fin (K + 1) → V)) (key : Key)
    {f g : U × ℝ × (Fin (K + 1) → V) → ℝ≥0∞} (hf : Measurable f) (hg : Measurable g) :
    extTarget m res ts i P key (fun u l ys => f (u, l, ys) + g (u, l, ys))
      = extTarget m res ts i P key (fun u l ys => f (u, l, ys)) + extTarget m res ts i P key fun u l ys => g (u, l, ys) := by
  have hk := hasKer_estimate hm hS hres ts i
  have mf := measurable_weighted hf
  have mg := measurable_weighted hg
  unfold extTarget
  rw [← lintegral_add_left (hk.measurable key mf)]
  refine lintegral_congr fun ys => ?_
  obtain ⟨κ, hκ, h⟩ := hk
  have sf : Measurable fun p : U × ℝ => ENNReal.ofReal (Real.exp p.2) * f (p.1, p.2, ys) := mf.comp measurable_prodMk_left
  have sg : Measurable fun p : U × ℝ => ENNReal.ofReal (Real.exp p.2) * g (p.1, p.2, ys) := mg.comp measurable_prodMk_left
  simp only [mul_add]
  rw [h _ _ _ sf, h _ _ _ sg, ← lintegral_add_left sf]
  exact h _ _ _ (sf.add sg)

omit [AddCommGroup V] [Module ℝ V] in
theorem extTarget_const {m : Funs N U V} {ref : Kernel V U} [IsMarkovKernel ref] {S : StateSpace U V}
    (hm : PmcmcImplements m ref S) (hS : S.JointMeas) {res : Smc.Resampling N} (hres : MeasurableScheme res)
    (ts : Fin (K + 1) → ℝ) (i : Fin N) (P : Measure (Fin (K + 1) → V)) (key : Key) (c : ℝ≥0∞) :
    extTarget m res ts i P key (fun _ _ _ => c) = extTarget m res ts i P key (fun _ _ _ => 1) * c := by
  have hk := hasKer_estimate hm hS hres ts i
  have m1 := measurable_weighted (U := U) (V := V) (K := K) (f := fun _ => 1) measurable_const
  unfold extTarget
  rw [← lintegral_mul_const _ (hk.measurable key m1)]
  refine lintegral_congr fun ys => ?_
  obtain ⟨κ, hκ, h⟩ := hk
  have s1 : Measurable fun p : U × ℝ => ENNReal.ofReal (Real.exp p.2) := by fun_prop
  simp only [mul_one]
  rw [h _ _ _ s1, h _ _ _ (s1.mul_const c), lintegral_mul_const _ s1]

omit [MeasurableSpace U] [AddCommGroup V] [Module ℝ V] in
/-- Bounds need only hold where the estimates are. -/
theorem extTarget_mono {m : Funs N U V} {res : Smc.Resampling N} {b L : ℝ} (hl : ∀ v us v' t i, m.lik v us v' t i ≤ b) (hL : K * b ≤ L)
    (ts : Fin (K + 1) → ℝ) (i : Fin N) (P : Measure (Fin (K + 1) → V)) (key : Key)
    {φ ψ : U → ℝ → (Fin (K + 1) → V) → ℝ≥0∞} (h : ∀ u l ys, l ≤ L → φ u l ys ≤ ψ u l ys) :
    extTarget m res ts i P key φ ≤ extTarget m res ts i P key ψ :=
  lintegral_mono fun ys => Rand.E_mono_leaves (pmcmcEstimate_le hl key ys ts i).leaves fun _ hp =>
    mul_le_mul' le_rfl (h _ _ _ (le_trans hp hL))

omit [AddCommGroup V] [Module ℝ V] in
theorem extTarget_key {m : Funs N U V} {ref : Kernel V U} [IsMarkovKernel ref] {S : StateSpace U V}
    (hm : PmcmcImplements m ref S) (hS : S.JointMeas) {res : Smc.Resampling N} (hres : MeasurableScheme res)
    (ts : Fin (K + 1) → ℝ) (i : Fin N) (P : Measure (Fin (K + 1) → V)) (key key' : Key)
    {f : U × ℝ × (Fin (K + 1) → V) → ℝ≥0∞} (hf : Measurable f) :
    extTarget m res ts i P key (fun u l ys => f (u, l, ys)) = extTarget m res ts i P key' fun u l ys => f (u, l, ys) := by
  obtain ⟨κ, hκ, h⟩ := hasKer_estimate hm hS hres ts i
  refine lintegral_congr fun ys => ?_
  have sf : Measurable fun p : U × ℝ => ENNReal.ofReal (Real.exp p.2) * f (p.1, p.2, ys) :=
    (measurable_weighted hf).comp measurable_prodMk_left
  rw [h _ _ _ sf, h _ _ _ sf]

/-- **C83, minorisation.**  If the log-likelihoods of a step are at most `b`, then from every state whose `log_ell` is at most
some `L ≥ K b` a call with `delta=None` refreshes the state from the extended target with at least the probability
`exp (-L) · likelihood`, whatever the stored path and particle. -/
theorem C83_pmcmc_minorisation {m : Funs N U V} {ref : Kernel V U} [IsMarkovKernel ref] {S : StateSpace U V}
    (hm : PmcmcImplements m ref S) (hS : S.JointMeas) {res : Smc.Resampling N} (hres : MeasurableScheme res) (y0 : V)
    (ts : Fin (K + 1) → ℝ) {fwdYs : Key → V → Rand (Fin (K + 1) → V)} (sdeMean : ℝ → ℝ → V → V) (i : Fin N)
    {P : Measure (Fin (K + 1) → V)} (hP : ∀ k f, Measurable f → (fwdYs k y0).E f = ∫⁻ ys, f ys ∂P) {b L : ℝ}
    (hl : ∀ v us v' t i, m.lik v us v' t i ≤ b) (hL : K * b ≤ L) (key₀ key : Key) {u : U} {l : ℝ} (hlb : l ≤ L)
    (ys : Fin (K + 1) → V) {φ : U → ℝ → (Fin (K + 1) → V) → ℝ≥0∞}
    (hφ : Measurable fun p : U × ℝ × (Fin (K + 1) → V) => φ p.1 p.2.1 p.2.2) :
    ENNReal.ofReal (Real.exp (-L)) * extTarget m res ts i P key₀ φ
      ≤ (pmcmcKernel m res key u l ys y0 ts fwdYs sdeMean none i).E fun out => φ out.1 out.2.1 out.2.2.1 := by
  have hk := hasKer_estimate hm hS hres ts i
  have hmw := measurable_weighted hφ
  rw [E_pmcmcKernel, extTarget_key hm hS hres ts i P key₀ key hφ]
  have hmeas := hk.measurable key hmw
  have hle : (fwdYs (split key 4 0) y0).E (fun ys' => ENNReal.ofReal (Real.exp (-L))
      * (pmcmcEstimate m res key ys' ts i).E fun p => ENNReal.ofReal (Real.exp p.2) * φ p.1 p.2 ys') ≤
    (pmcmcProposal key ys y0 ts fwdYs sdeMean none).E fun ys' => (pmcmcEstimate m res key ys' ts i).E fun p' =>
        ENNReal.ofReal (min 1 (Real.exp (p'.2 - l))) * φ p'.1 p'.2 ys'
          + (1 - ENNReal.ofReal (min 1 (Real.exp (p'.2 - l)))) * φ u l ys := by
    refine Rand.E_mono _ fun ys' => ?_
    rw [← Rand.E_const_mul _ ENNReal.ofReal_ne_top]
    refine Rand.E_mono_leaves (pmcmcEstimate_le hl key ys' ts i).leaves fun p hp => ?_
    refine le_trans ?_ le_self_add
    rw [← mul_assoc, ← ENNReal.ofReal_mul (Real.exp_pos _).le, ← Real.exp_add]
    refine mul_le_mul' (ENNReal.ofReal_le_ofReal (le_min ?_ ?_)) le_rfl
    · rw [Real.exp_le_one_iff]; linarith
    · exact Real.exp_le_exp.2 (by linarith)
  refine le_trans (le_of_eq ?_) hle
  rw [Rand.E_const_mul _ ENNReal.ofReal_ne_top, hP _ _ hmeas]
  rfl

omit [MeasurableSpace U] [MeasurableSpace V] in
/-- The stored estimate stays below the bound. -/
theorem next_le {m : Funs N U V} {res : Smc.Resampling N} (y0 : V) (ts : Fin (K + 1) → ℝ)
    (fwdYs : Key → V → Rand (Fin (K + 1) → V)) (sdeMean : ℝ → ℝ → V → V) (delta : Option ℝ) (i : Fin N) {b L : ℝ}
    (hl : ∀ v us v' t i, m.lik v us v' t i ≤ b) (hL : K * b ≤ L) (k : Key) (s : U × ℝ × (Fin (K + 1) → V)) (hs : s.2.1 ≤ L) :
    AllOut (fun s' => s'.2.1 ≤ L) (pmcmcNext m res y0 ts fwdYs sdeMean delta i k s) := by
  refine AllOut.bind (P := fun out => out.2.1 ≤ L) ?_ fun out h => h
  refine (allOut_true _).bind fun ys' _ => ?_
  refine (pmcmcEstimate_le hl k ys' ts i).bind fun p hp => ?_
  refine (allOut_true _).bind fun z _ => ?_
  show AllOut _ (Rand.ret _)
  by_cases hz : accepts z (min 0 (p.2 - s.2.1)) = true
  · simpa [hz, AllOut] using le_trans hp hL
  · simpa [hz, AllOut] using hs

theorem pmcmc_contract {m : Funs N U V} {ref : Kernel V U} [IsMarkovKernel ref] {S : StateSpace U V}
    (hm : PmcmcImplements m ref S) (hS : S.JointMeas) {res : Smc.Resampling N} (hres : MeasurableScheme res) (y0 : V)
    (ts : Fin (K + 1) → ℝ) {fwdYs : Key → V → Rand (Fin (K + 1) → V)} (sdeMean : ℝ → ℝ → V → V) (i : Fin N)
    {P : Measure (Fin (K + 1) → V)} [IsProbabilityMeasure P]
    (hP : ∀ k f, Measurable f → (fwdYs k y0).E f = ∫⁻ ys, f ys ∂P) {b L : ℝ}
    (hl : ∀ v us v' t i, m.lik v us v' t i ≤ b) (hL : K * b ≤ L) {F : U × ℝ × (Fin (K + 1) → V) → ℝ≥0∞} (hF : Measurable F)
    (h1 : ∀ s, F s ≤ 1) {s₀ : U × ℝ × (Fin (K + 1) → V)} (hs₀ : s₀.2.1 ≤ L) (ks : List Key) :
    ∃ a, a ≠ ∞ ∧ ∀ s : U × ℝ × (Fin (K + 1) → V), s.2.1 ≤ L →
      a ≤ (iterKernel (pmcmcNext m res y0 ts fwdYs sdeMean none i) ks s).E F ∧
      (iterKernel (pmcmcNext m res y0 ts fwdYs sdeMean none i) ks s).E F
        ≤ a + (1 - pmcmcRate m res ts i P L) ^ ks.length := by
  have hprop : HasKer fun key ys => pmcmcProposal key ys y0 ts fwdYs sdeMean none :=
    ⟨Kernel.const _ P, inferInstance, fun k _ f hf => by rw [Kernel.const_apply]; exact hP _ f hf⟩
  refine iter_contract (A := {s | s.2.1 ≤ L}) (hasKer_pmcmcNext hm hS hres y0 ts fwdYs sdeMean none i hprop) hs₀
    (fun k s hs => next_le y0 ts fwdYs sdeMean none i hl hL k s hs)
    (η := fun f => ENNReal.ofReal (Real.exp (-L)) * extTarget m res ts i P [] fun u l ys => f (u, l, ys))
    (fun f g hf hg => by rw [extTarget_add hm hS hres ts i P [] hf hg, mul_add])
    (fun c => by rw [extTarget_const hm hS hres ts i P [] c, pmcmcRate, mul_assoc])
    (fun k s hs f hf => ?_) hF (fun s _ => h1 s) ks
  rw [pmcmcNext, Rand.E_map]
  exact C83_pmcmc_minorisation hm hS hres y0 ts sdeMean i hP hl hL [] k hs s.2.2 hf

/-- **C83, the chain forgets its start.**  Two chains with `delta=None` from any two states with `log_ell ≤ L`: after `k`
calls the expectations of any function bounded by one differ by at most `(1 - rate)^k`.  The model need not be exact and the
resampling need not be unbiased. -/
theorem C83_pmcmc_forgets {m : Funs N U V} {ref : Kernel V U} [IsMarkovKernel ref] {S : StateSpace U V}
    (hm : PmcmcImplements m ref S) (hS : S.JointMeas) {res : Smc.Resampling N} (hres : MeasurableScheme res) (y0 : V)
    (ts : Fin (K + 1) → ℝ) {fwdYs : Key → V → Rand (Fin (K + 1) → V)} (sdeMean : ℝ → ℝ → V → V) (i : Fin N)
    {P : Measure (Fin (K + 1) → V)} [IsProbabilityMeasure P]
    (hP : ∀ k f, Measurable f → (fwdYs k y0).E f = ∫⁻ ys, f ys ∂P) {b L : ℝ}
    (hl : ∀ v us v' t i, m.lik v us v' t i ≤ b) (hL : K * b ≤ L) {F : U × ℝ × (Fin (K + 1) → V) → ℝ≥0∞} (hF : Measurable F)
    (h1 : ∀ s, F s ≤ 1) {s s' : U × ℝ × (Fin (K + 1) → V)} (hs : s.2.1 ≤ L) (hs' : s'.2.1 ≤ L) (ks : List Key) :
    (iterKernel (pmcmcNext m res y0 ts fwdYs sdeMean none i) ks s).E F
      ≤ (iterKernel (pmcmcNext m res y0 ts fwdYs sdeMean none i) ks s').E F
        + (1 - pmcmcRate m res ts i P L) ^ ks.length := by
  obtain ⟨a, -, h⟩ := pmcmc_contract hm hS hres y0 ts sdeMean i hP hl hL hF h1 hs ks
  exact (h s hs).2.trans (add_le_add (h s' hs').1 le_rfl)

/-- **C83, the chain converges.**  From any state with `log_ell ≤ L` the law of the state after `k` calls is within
`(1 - rate)^k` of the normalised extended target, uniformly over events. -/
theorem C83_pmcmc_converges {m : Funs N U V} {ref : Kernel V U} [IsMarkovKernel ref] {S : StateSpace U V}
    (hm : PmcmcImplements m ref S) (hS : S.JointMeas) {res : Smc.Resampling N} (hres : MeasurableScheme res) (y0 : V)
    (ts : Fin (K + 1) → ℝ) {fwdYs : Key → V → Rand (Fin (K + 1) → V)} (sdeMean : ℝ → ℝ → V → V) (i : Fin N)
    {P : Measure (Fin (K + 1) → V)} [IsProbabilityMeasure P]
    (hP : ∀ k f, Measurable f → (fwdYs k y0).E f = ∫⁻ ys, f ys ∂P) {b L : ℝ}
    (hl : ∀ v us v' t i, m.lik v us v' t i ≤ b) (hL : K * b ≤ L) {F : U × ℝ × (Fin (K + 1) → V) → ℝ≥0∞} (hF : Measurable F)
    (h1 : ∀ s, F s ≤ 1) {s : U × ℝ × (Fin (K + 1) → V)} (hs : s.2.1 ≤ L) (key₀ : Key) (ks : List Key) :
    (iterKernel (pmcmcNext m res y0 ts fwdYs sdeMean none i) ks s).E F * extTarget m res ts i P key₀ (fun _ _ _ => 1)
        ≤ extTarget m res ts i P key₀ (fun u l ys => F (u, l, ys))
          + (1 - pmcmcRate m res ts i P L) ^ ks.length * extTarget m res ts i P key₀ (fun _ _ _ => 1) ∧
      extTarget m res ts i P key₀ (fun u l ys => F (u, l, ys))
        ≤ (iterKernel (pmcmcNext m res y0 ts fwdYs sdeMean none i) ks s).E F * extTarget m res ts i P key₀ (fun _ _ _ => 1)
          + (1 - pmcmcRate m res ts i P L) ^ ks.length * extTarget m res ts i P key₀ (fun _ _ _ => 1) := by
  obtain ⟨a, -, h⟩ := pmcmc_contract hm hS hres y0 ts sdeMean i hP hl hL hF h1 hs ks
  have hprop : HasKer fun key ys => pmcmcProposal key ys y0 ts fwdYs sdeMean none :=
    ⟨Kernel.const _ P, inferInstance, fun k _ f hf => by rw [Kernel.const_apply]; exact hP _ f hf⟩
  have hinv := iter_invariant hm hS hres y0 ts fwdYs sdeMean none i hprop P key₀
    (fun key _ hφ => C21_extended_invariant hm hS hres y0 ts sdeMean i hP key₀ key hφ) hF ks
  set δ := (1 - pmcmcRate m res ts i P L) ^ ks.length
  set Z := extTarget m res ts i P key₀ fun _ _ _ => 1 with hZ
  have lo : a * Z ≤ extTarget m res ts i P key₀ fun u l ys => F (u, l, ys) := by
    rw [← hinv, mul_comm, hZ, ← extTarget_const hm hS hres ts i P key₀ a]
    exact extTarget_mono hl hL ts i P key₀ fun u l ys hl' => (h (u, l, ys) hl').1
  have hi : extTarget m res ts i P key₀ (fun u l ys => F (u, l, ys)) ≤ (a + δ) * Z := by
    rw [← hinv, mul_comm, hZ, ← extTarget_const hm hS hres ts i P key₀ (a + δ)]
    exact extTarget_mono hl hL ts i P key₀ fun u l ys hl' => (h (u, l, ys) hl').2
  constructor
  · calc _ ≤ (a + δ) * Z := mul_le_mul' (h s hs).2 le_rfl
      _ = a * Z + δ * Z := add_mul _ _ _
      _ ≤ _ := add_le_add lo le_rfl
  · refine hi.trans ?_
    rw [add_mul]
    exact add_le_add (mul_le_mul' (h s hs).1 le_rfl) le_rfl

omit [AddCommGroup V] [Module ℝ V] in
/-- **C83, the rate is positive** (and at most one). -/
theorem C83_rate_pos {m : Funs N U V} {ref : Kernel V U} [IsMarkovKernel ref] {S : StateSpace U V}
    (hm : PmcmcImplements m ref S) (hS : S.JointMeas) {res : Smc.Resampling N} (hres : MeasurableScheme res)
    (ts : Fin (K + 1) → ℝ) (i : Fin N) (P : Measure (Fin (K + 1) → V)) [IsProbabilityMeasure P] {b L : ℝ}
    (hl : ∀ v us v' t i, m.lik v us v' t i ≤ b) (hL : K * b ≤ L) :
    0 < pmcmcRate m res ts i P L ∧ pmcmcRate m res ts i P L ≤ 1 := by
  obtain ⟨κ, hκ, h⟩ := hasKer_estimate hm hS hres ts i
  have s1 : Measurable fun p : U × ℝ => ENNReal.ofReal (Real.exp p.2) := by fun_prop
  have hZ : extTarget m res ts i P [] (fun _ _ _ => 1) = ∫⁻ ys, ∫⁻ p, ENNReal.ofReal (Real.exp p.2) ∂(κ ys) ∂P := by
    refine lintegral_congr fun ys => ?_
    simp only [mul_one]
    exact h _ _ _ s1
  constructor
  · rw [pmcmcRate, hZ]
    refine ENNReal.mul_pos (by simpa using Real.exp_pos _) ?_
    have hin : ∀ ys, ∫⁻ p, ENNReal.ofReal (Real.exp p.2) ∂(κ ys) ≠ 0 := by
      intro ys h0
      rw [lintegral_eq_zero_iff s1] at h0
      have : ∀ᵐ p ∂(κ ys), False := h0.mono fun p hp => by
        have : 0 < ENNReal.ofReal (Real.exp p.2) := ENNReal.ofReal_pos.2 (Real.exp_pos _)
        exact this.ne' hp
      have := ae_iff.1 this
      simp at this
    intro h0
    rw [lintegral_eq_zero_iff s1.lintegral_kernel] at h0
    have : ∀ᵐ ys ∂P, False := h0.mono fun ys hy => hin ys hy
    have := ae_iff.1 this
    simp at this
  · rw [pmcmcRate]
    have hE : extTarget m res ts i P [] (fun _ _ _ => 1) ≤ ENNReal.ofReal (Real.exp L) := by
      calc _ ≤ ∫⁻ _, ENNReal.ofReal (Real.exp L) ∂P := by
            refine lintegral_mono fun ys => ?_
            have hc : (pmcmcEstimate m res [] ys ts i).E (fun _ => ENNReal.ofReal (Real.exp L))
                = ENNReal.ofReal (Real.exp L) := by
              rw [h _ _ _ measurable_const]; simp
            refine (Rand.E_mono_leaves (pmcmcEstimate_le hl [] ys ts i).leaves fun p hp => ?_).trans hc.le
            rw [mul_one]
            exact ENNReal.ofReal_le_ofReal (Real.exp_le_exp.2 (le_trans hp hL))
        _ = _ := by simp
    refine (mul_le_mul' le_rfl hE).trans ?_
    rw [← ENNReal.ofReal_mul (Real.exp_pos _).le, ← Real.exp_add]
    simp

omit [AddCommGroup V] [Module ℝ V] in
/-- **C83, the rate does not depend on the particles.**  With unbiased resampling it is `exp (-L)` times the likelihood of
the model averaged over the paths: neither more particles nor another index change it. -/
theorem C83_rate_eq {m : Funs N U V} {ref : Kernel V U} [IsMarkovKernel ref] {S : StateSpace U V}
    (hm : PmcmcImplements m ref S) (hS : S.JointMeas) {res : Smc.Resampling N} (hres : UnbiasedSums res)
    (hres' : MeasurableScheme res) (ts : Fin (K + 1) → ℝ) (i : Fin N) (P : Measure (Fin (K + 1) → V)) (L : ℝ) :
    pmcmcRate m res ts i P L
      = ENNReal.ofReal (Real.exp (-L)) * ∫⁻ ys, backwardInt S ref ts ys (fun _ => 1) ∂P := by
  rw [pmcmcRate, ← C21_average_marginal hm hS hres hres' ts P [] measurable_const]
  have : ∀ j, extTarget m res ts j P [] (fun _ _ _ => 1) = extTarget m res ts i P [] fun _ _ _ => 1 := fun j => by
    unfold extTarget
    refine lintegral_congr fun ys => ?_
    simp only [pmcmcEstimate_eq, Rand.E_map]
  simp only [this, Finset.sum_const, Finset.card_univ, Fintype.card_fin, nsmul_eq_mul]
  rw [← mul_assoc (N : ℝ≥0∞)⁻¹, ENNReal.inv_mul_cancel (by simp [NeZero.ne N]) (by simp), one_mul]

omit [AddCommGroup V] [Module ℝ V] in
/-- **C83, a bound of the rate** when the log-likelihoods of a step are at least `c`. -/
theorem C83_rate_ge {m : Funs N U V} {ref : Kernel V U} [IsMarkovKernel ref] {S : StateSpace U V}
    (hm : PmcmcImplements m ref S) (hS : S.JointMeas) {res : Smc.Resampling N} (hres : MeasurableScheme res)
    (ts : Fin (K + 1) → ℝ) (i : Fin N) (P : Measure (Fin (K + 1) → V)) [IsProbabilityMeasure P] (L : ℝ) {c : ℝ}
    (hl : ∀ v us v' t i, c ≤ m.lik v us v' t i) :
    ENNReal.ofReal (Real.exp (-(L - K * c))) ≤ pmcmcRate m res ts i P L := by
  obtain ⟨κ, hκ, h⟩ := hasKer_estimate hm hS hres ts i
  have hE : ENNReal.ofReal (Real.exp (K * c)) ≤ extTarget m res ts i P [] (fun _ _ _ => 1) := by
    calc _ = ∫⁻ _, ENNReal.ofReal (Real.exp (K * c)) ∂P := by simp
      _ ≤ _ := by
        refine lintegral_mono fun ys => ?_
        have hc : (pmcmcEstimate m res [] ys ts i).E (fun _ => ENNReal.ofReal (Real.exp (K * c)))
            = ENNReal.ofReal (Real.exp (K * c)) := by
          rw [h _ _ _ measurable_const]; simp
        have hall : AllOut (fun r => K * c ≤ r.2) (pmcmcEstimate m res [] ys ts i) :=
          (allOut_true _).bind fun u0s _ => (le_pmcmcFilterStep hl _ _ _ _).bind fun r hr =>
            show AllOut _ (Rand.ret _) from hr
        refine hc.ge.trans (Rand.E_mono_leaves hall.leaves fun p hp => ?_)
        rw [mul_one]
        exact ENNReal.ofReal_le_ofReal (Real.exp_le_exp.2 hp)
  refine le_trans (le_of_eq ?_) (mul_le_mul' le_rfl hE)
  rw [← ENNReal.ofReal_mul (Real.exp_pos _).le, ← Real.exp_add]
  congr 2
  ring

/-- **C83, posterior.**  With exchangeable resampling (`killing`) and the separable dynamics implemented exactly, the law of
the particle after `k` calls is within `(1 - rate)^k` of the posterior `π0`, from any state with `log_ell ≤ L`. -/
theorem C83_posterior_converges {m : Funs N U V} {ref : Kernel V U} [IsMarkovKernel ref] {S : StateSpace U V}
    (hm : PmcmcImplements m ref S) (hS : S.JointMeas) {res : Smc.Resampling N} (hres : UnbiasedSums res)
    (hres' : MeasurableScheme res) (hex : ExchangeableScheme res) (y0 : V)
    {ts : Fin (K + 1) → ℝ} {fwdYs : Key → V → Rand (Fin (K + 1) → V)} (sdeMean : ℝ → ℝ → V → V) (i : Fin N)
    {π0 : Measure U} [IsProbabilityMeasure π0] {P : Measure (Fin (K + 1) → V)} [IsProbabilityMeasure P]
    (hP : ∀ k f, Measurable f → (fwdYs k y0).E f = ∫⁻ ys, f ys ∂P) (hsep : SeparableExact S ref π0 P ts) {b L : ℝ}
    (hl : ∀ v us v' t i, m.lik v us v' t i ≤ b) (hL : K * b ≤ L) {φ : U → ℝ≥0∞} (hφ : Measurable φ) (h1 : ∀ u, φ u ≤ 1)
    {s : U × ℝ × (Fin (K + 1) → V)} (hs : s.2.1 ≤ L) (ks : List Key) :
    (iterKernel (pmcmcNext m res y0 ts fwdYs sdeMean none i) ks s).E (fun s' => φ s'.1)
        ≤ ∫⁻ u, φ u ∂π0 + (1 - pmcmcRate m res ts i P L) ^ ks.length ∧
      ∫⁻ u, φ u ∂π0 ≤ (iterKernel (pmcmcNext m res y0 ts fwdYs sdeMean none i) ks s).E (fun s' => φ s'.1)
        + (1 - pmcmcRate m res ts i P L) ^ ks.length := by
  have h := C83_pmcmc_converges hm hS hres' y0 ts sdeMean i hP hl hL (hφ.comp measurable_fst) (fun s => h1 s.1) hs [] ks
  simp only [Function.comp_apply] at h
  have hpos := C83_rate_pos hm hS hres' ts i P hl hL
  rw [C21_posterior_partial hm hS hres hres' hex i hsep [] hφ, ← add_mul, ← add_mul] at h
  have hZ0 : extTarget m res ts i P [] (fun _ _ _ => 1) ≠ 0 := fun h0 => by
    rw [pmcmcRate, h0, mul_zero] at hpos
    exact lt_irrefl _ hpos.1
  have hZt : extTarget m res ts i P [] (fun _ _ _ => 1) ≠ ∞ := fun h0 => by
    rw [pmcmcRate, h0, ENNReal.mul_top (by simpa using Real.exp_pos _)] at hpos
    simp at hpos
  rwa [ENNReal.mul_le_mul_iff_left hZ0 hZt, ENNReal.mul_le_mul_iff_left hZ0 hZt] at h

/-- **C83, the limit.**  From any start whatever, a wrong stored `log_ell` included, the law of the particle converges to the
posterior. -/
theorem C83_posterior_limit {m : Funs N U V} {ref : Kernel V U} [IsMarkovKernel ref] {S : StateSpace U V}
    (hm : PmcmcImplements m ref S) (hS : S.JointMeas) {res : Smc.Resampling N} (hres : UnbiasedSums res)
    (hres' : MeasurableScheme res) (hex : ExchangeableScheme res) (y0 : V)
    {ts : Fin (K + 1) → ℝ} {fwdYs : Key → V → Rand (Fin (K + 1) → V)} (sdeMean : ℝ → ℝ → V → V) (i : Fin N)
    {π0 : Measure U} [IsProbabilityMeasure π0] {P : Measure (Fin (K + 1) → V)} [IsProbabilityMeasure P]
    (hP : ∀ k f, Measurable f → (fwdYs k y0).E f = ∫⁻ ys, f ys ∂P) (hsep : SeparableExact S ref π0 P ts) {b : ℝ}
    (hl : ∀ v us v' t i, m.lik v us v' t i ≤ b) {φ : U → ℝ≥0∞} (hφ : Measurable φ) (h1 : ∀ u, φ u ≤ 1)
    (s : U × ℝ × (Fin (K + 1) → V)) {keys : ℕ → List Key} (hk : ∀ k, (keys k).length = k) :
    Filter.Tendsto (fun k => (iterKernel (pmcmcNext m res y0 ts fwdYs sdeMean none i) (keys k) s).E
      fun s' => φ s'.1) Filter.atTop (nhds (∫⁻ u, φ u ∂π0)) := by
  have hL : K * b ≤ max s.2.1 (K * b) := le_max_right _ _
  have h := tendsto_of_close (C83_rate_pos hm hS hres' ts i P hl hL).1 one_ne_zero ENNReal.one_ne_top
    (I := ∫⁻ u, φ u ∂π0) (ne_top_of_le_ne_top ENNReal.one_ne_top ((lintegral_mono h1).trans (by simp)))
    (e := fun k => (iterKernel (pmcmcNext m res y0 ts fwdYs sdeMean none i) (keys k) s).E fun s' => φ s'.1) fun k => by
    have := C83_posterior_converges hm hS hres hres' hex y0 sdeMean i hP hsep hl hL hφ h1 (le_max_left _ _) (keys k)
    simpa [hk] using this
  simpa using h

/-- **C83, the image experiments.**  The start with `log_ell = 0` (C69) converges too, at the rate of `L = max 0 (K b)`; if
the log-likelihoods are negative this is the bare likelihood of the model. -/
theorem C83_image_converges [Zero U] {m : Funs N U V} {ref : Kernel V U} [IsMarkovKernel ref] {S : StateSpace U V}
    (hm : PmcmcImplements m ref S) (hS : S.JointMeas) {res : Smc.Resampling N} (hres : UnbiasedSums res)
    (hres' : MeasurableScheme res) (hex : ExchangeableScheme res) (y0 : V)
    {ts : Fin (K + 1) → ℝ} {fwdYs : Key → V → Rand (Fin (K + 1) → V)} (sdeMean : ℝ → ℝ → V → V) (i : Fin N)
    {π0 : Measure U} [IsProbabilityMeasure π0] {P : Measure (Fin (K + 1) → V)} [IsProbabilityMeasure P]
    (hP : ∀ k f, Measurable f → (fwdYs k y0).E f = ∫⁻ ys, f ys ∂P) (hsep : SeparableExact S ref π0 P ts) {b : ℝ}
    (hl : ∀ v us v' t i, m.lik v us v' t i ≤ b) {φ : U → ℝ≥0∞} (hφ : Measurable φ) (h1 : ∀ u, φ u ≤ 1)
    (key : Key) (ks : List Key) :
    (Chains.imgPmcmcInit (fun k => fwdYs k y0) key >>=
          iterKernel (pmcmcNext m res y0 ts fwdYs sdeMean none i) ks).E (fun s' => φ s'.1)
        ≤ ∫⁻ u, φ u ∂π0 + (1 - pmcmcRate m res ts i P (max 0 (K * b))) ^ ks.length ∧
      ∫⁻ u, φ u ∂π0 ≤ (Chains.imgPmcmcInit (fun k => fwdYs k y0) key >>=
          iterKernel (pmcmcNext m res y0 ts fwdYs sdeMean none i) ks).E (fun s' => φ s'.1)
        + (1 - pmcmcRate m res ts i P (max 0 (K * b))) ^ ks.length := by
  have h := fun ys : Fin (K + 1) → V => C83_posterior_converges hm hS hres hres' hex y0 sdeMean i hP hsep hl
    (le_max_right 0 (K * b)) hφ h1 (s := (0, 0, ys)) (le_max_left _ _) ks
  have hconst : ∀ k (c : ℝ≥0∞), (fwdYs k y0).E (fun _ => c) = c := fun k c => by
    rw [hP k _ measurable_const]; simp
  simp only [Chains.imgPmcmcInit, Rand.E_bind, Rand.pure_eq, Rand.E_ret]
  set δ := (1 - pmcmcRate m res ts i P (max 0 (K * b))) ^ ks.length
  constructor
  · exact (Rand.E_mono _ fun ys => (h ys).1).trans (hconst _ _).le
  · have hδ : δ ≠ ∞ := ENNReal.pow_ne_top (ne_top_of_le_ne_top ENNReal.one_ne_top tsub_le_self)
    refine tsub_le_iff_right.1 ?_
    refine (hconst (split key 2 1) _).ge.trans (Rand.E_mono _ fun ys => ?_)
    exact tsub_le_iff_right.2 (h ys).2

end Chain

/-! ### The coin -/

section Example

theorem coin_lik_le (N : ℕ) (v : ℝ) (us : Fin N → Bool) (v' t : ℝ) (i : Fin N) :
    (smcFuns coinSpace N).lik v us v' t i ≤ Real.log 8 := by
  show (if us i then Real.log 8 else 0) ≤ Real.log 8
  split_ifs
  · exact le_rfl
  · exact Real.log_nonneg (by norm_num)

/-- The rate of the coin: likelihood 9/2, largest likelihood 8. -/
example (ts : Fin 2 → ℝ) (i : Fin 3) :
    pmcmcRate (smcFuns coinSpace 3) Resampling.killing ts i (Measure.pi fun _ => unifMeasure) (Real.log 8) = 9 / 16 := by
  rw [C83_rate_eq (coin_implements 3) coin_jointMeas sums_killing scheme_killing]
  simp only [coin_backward, lintegral_const, measure_univ, mul_one]
  rw [Real.exp_neg, Real.exp_log (by norm_num), ENNReal.ofReal_inv_of_pos (by norm_num)]
  have h1 : (8 : ℝ≥0∞) + 1 = 9 := by norm_num
  have h2 : ENNReal.ofReal 8 = 8 := by simp
  rw [h1, h2, ENNReal.div_eq_inv_mul, ← mul_assoc, ← ENNReal.mul_inv (by simp) (by simp)]
  norm_num

/-- From any start with `log_ell ≤ log 8`, twenty calls bring the particle within `(7/16)^20` of the posterior. -/
example (ks : List Key) (ts : Fin 2 → ℝ) (i : Fin 3) (y0 : ℝ) (u : Bool) (ys : Fin 2 → ℝ) {l : ℝ} (hl : l ≤ Real.log 8) :
    (iterKernel (pmcmcNext (smcFuns coinSpace 3) Resampling.killing y0 ts (fun k _ => uniforms k 2)
          (fun _ _ y => y) none i) ks (u, l, ys)).E (fun s => if s.1 then 1 else 0)
      ≤ ∫⁻ u, (if u then 1 else 0) ∂coinPosterior
        + (1 - pmcmcRate (smcFuns coinSpace 3) Resampling.killing ts i (Measure.pi fun _ => unifMeasure) (Real.log 8))
          ^ ks.length :=
  (C83_posterior_converges (coin_implements 3) coin_jointMeas sums_killing scheme_killing exchangeable_killing y0
    (fun _ _ y => y) i (π0 := coinPosterior) (fun k f _ => rfl) (coin_separable _ ts) (coin_lik_le 3) (by simp)
    (φ := fun u => if u then 1 else 0) (measurable_of_finite _) (fun u => by split_ifs <;> simp) hl ks).1

example (keys : ℕ → List Key) (hk : ∀ k, (keys k).length = k) (ts : Fin 2 → ℝ) (i : Fin 3) (y0 : ℝ)
    (s : Bool × ℝ × (Fin 2 → ℝ)) :
    Filter.Tendsto (fun k => (iterKernel (pmcmcNext (smcFuns coinSpace 3) Resampling.killing y0 ts (fun k _ => uniforms k 2)
          (fun _ _ y => y) none i) (keys k) s).E (fun s => if s.1 then 1 else 0)) Filter.atTop
      (nhds (∫⁻ u, (if u then 1 else 0) ∂coinPosterior)) :=
  C83_posterior_limit (coin_implements 3) coin_jointMeas sums_killing scheme_killing exchangeable_killing y0
    (fun _ _ y => y) i (π0 := coinPosterior) (fun k f _ => rfl) (coin_separable _ ts) (coin_lik_le 3)
    (φ := fun u => if u then 1 else 0) (measurable_of_finite _) (fun u => by split_ifs <;> simp) s hk

/-- `stratified` is not exchangeable (C21), but its chain forgets its start too. -/
example (ks : List Key) (ts : Fin 2 → ℝ) (i : Fin 3) (y0 : ℝ) (u u' : Bool) (ys ys' : Fin 2 → ℝ) :
    (iterKernel (pmcmcNext (smcFuns coinSpace 3) Resampling.stratified y0 ts (fun k _ => uniforms k 2)
          (fun _ _ y => y) none i) ks (u, 0, ys)).E (fun s => if s.1 then 1 else 0)
      ≤ (iterKernel (pmcmcNext (smcFuns coinSpace 3) Resampling.stratified y0 ts (fun k _ => uniforms k 2)
          (fun _ _ y => y) none i) ks (u', -1, ys')).E (fun s => if s.1 then 1 else 0)
        + (1 - pmcmcRate (smcFuns coinSpace 3) Resampling.stratified ts i (Measure.pi fun _ => unifMeasure) (Real.log 8))
          ^ ks.length :=
  have h8 : 0 ≤ Real.log 8 := Real.log_nonneg (by norm_num)
  C83_pmcmc_forgets (coin_implements 3) coin_jointMeas scheme_stratified y0 ts (fun _ _ y => y) i (fun k f _ => rfl)
    (coin_lik_le 3) (by simp) (F := fun s => if s.1 then 1 else 0)
    ((measurable_of_finite fun u : Bool => if u then (1 : ℝ≥0∞) else 0).comp measurable_fst)
    (fun s => by split_ifs <;> simp) h8 (by simpa using by linarith) ks

/-- The log-likelihoods of the coin are nonnegative: the rate is at least 1/8 for every scheme. -/
example (ts : Fin 2 → ℝ) (i : Fin 3) : ENNReal.ofReal (Real.exp (-(Real.log 8 - (1 : ℕ) * 0)))
    ≤ pmcmcRate (smcFuns coinSpace 3) Resampling.systematic ts i (Measure.pi fun _ => unifMeasure) (Real.log 8) :=
  C83_rate_ge (coin_implements 3) coin_jointMeas scheme_systematic ts i _ _ fun _ us _ _ i => by
    show (0 : ℝ) ≤ if us i then Real.log 8 else 0
    split_ifs
    · exact Real.log_nonneg (by norm_num)
    · exact le_rfl

example (z : Zero Bool) (key : Key) (ks : List Key) (ts : Fin 2 → ℝ) (i : Fin 3) (y0 : ℝ) :
    ∫⁻ u, (if u then 1 else 0) ∂coinPosterior
      ≤ (Chains.imgPmcmcInit (fun k => uniforms k 2) key >>= iterKernel (pmcmcNext (smcFuns coinSpace 3)
          Resampling.killing y0 ts (fun k _ => uniforms k 2) (fun _ _ y => y) none i) ks).E (fun s => if s.1 then 1 else 0)
        + (1 - pmcmcRate (smcFuns coinSpace 3) Resampling.killing ts i (Measure.pi fun _ => unifMeasure)
          (max 0 ((1 : ℕ) * Real.log 8))) ^ ks.length :=
  (C83_image_converges (coin_implements 3) coin_jointMeas sums_killing scheme_killing exchangeable_killing y0
    (fwdYs := fun k _ => uniforms k 2) (fun _ _ y => y) i (π0 := coinPosterior) (fun k f _ => rfl) (coin_separable _ ts) (coin_lik_le 3)
    (φ := fun u => if u then 1 else 0) (measurable_of_finite _) (fun u => by split_ifs <;> simp) key ks).2

end Example

end Props
end Fbs
