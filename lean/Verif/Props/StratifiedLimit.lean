import Verif.Props.ChainAverages
import Verif.Props.ParticleZero

/-!
# C93: what the averages of the pMCMC chain with `stratified` converge to
-/

open MeasureTheory ProbabilityTheory
open scoped ENNReal

namespace Fbs
namespace Props

open Jax Spec Smc Chains

theorem tilt_lik_le (N : ℕ) (v : ℝ) (us : Fin N → Bool) (v' t : ℝ) (i : Fin N) :
    (smcFuns tiltSpace N).lik v us v' t i ≤ Real.log 3 := by
  show (if us i then Real.log 3 else 0) ≤ Real.log 3
  split_ifs
  · exact le_rfl
  · exact Real.log_nonneg (by norm_num)

/-- **C93, `stratified` with a fixed index (the setting of the experiments) has the wrong limit, for every number of
particles from 3 on.**  In the example of `C21_stratified_inconsistent` the posterior probability of tails is 1/4.  The share of
tails among the samples stored by the chain, which the experiments take for the posterior probability, is eventually larger than
`7/24 - ε` with probability tending to one: whatever the start, the burn-in, and the number of particles, samples and chains. -/
theorem C93_stratified_wrong_limit {n : ℕ} (hn : 1 ≤ n) (y0 : ℝ) (ts : Fin 2 → ℝ) {fwdYs : Key → ℝ → Rand (Fin 2 → ℝ)}
    (sdeMean : ℝ → ℝ → ℝ → ℝ) {P : Measure (Fin 2 → ℝ)} [IsProbabilityMeasure P]
    (hP : ∀ k f, Measurable f → (fwdYs k y0).E f = ∫⁻ ys, f ys ∂P) (burnin : ℕ) (key : Key) {ε : ℝ} (hε : 0 < ε) :
    (∫⁻ u, (if u then 0 else 1) ∂tiltPosterior) = 1 / 4 ∧
    (∀ s : Bool × ℝ × (Fin 2 → ℝ), Filter.Tendsto (fun nsamples =>
      (pmcmcSamples (smcFuns tiltSpace (n + 2)) Resampling.stratified y0 ts fwdYs sdeMean none 0 (burnin + nsamples) key s).E
        fun l => if sampleMean (fun u => if u then 0 else 1) (l.drop burnin) ≤ 7 / 24 - ε then 1 else 0) Filter.atTop (nhds 0)) ∧
    ∀ {C : ℕ}, C ≠ 0 → ∀ s : Fin C → Bool × ℝ × (Fin 2 → ℝ), Filter.Tendsto (fun nsamples =>
      (pmcmcChains C (smcFuns tiltSpace (n + 2)) Resampling.stratified y0 ts fwdYs sdeMean none 0 (burnin + nsamples) key s).E
        fun l => if chainsMean (fun u => if u then 0 else 1) (l.drop burnin) ≤ 7 / 24 - ε then 1 else 0) Filter.atTop (nhds 0) := by
  obtain ⟨hm, hS, -, h4, hlow⟩ := C21_stratified_inconsistent hn ts P []
  refine ⟨h4, ?_⟩
  set m := smcFuns tiltSpace (n + 2) with hmd
  set Z := extTarget m Resampling.stratified ts 0 P [] (fun _ _ _ => 1) with hZ
  set F : Bool → ℝ := fun u => if u then 0 else 1 with hF
  have hFe : ∀ u, ENNReal.ofReal (F u) = if u then 0 else 1 := fun u => by cases u <;> simp [hF]
  set I := extTarget m Resampling.stratified ts 0 P [] (fun u _ _ => ENNReal.ofReal (F u)) with hI
  have hlow' : 7 / 24 * Z ≤ I := by
    rw [hI]
    simpa only [hFe] using hlow
  have hL : ∀ L : ℝ, Real.log 3 ≤ L → ((1 : ℕ) : ℝ) * Real.log 3 ≤ L := fun L h => by simpa using h
  have key1 : ∀ L : ℝ, Real.log 3 ≤ L → 7 / 24 ≤ (I / Z).toReal := by
    intro L hL1
    have hrate := C83_rate_pos hm hS (scheme_stratified (N := n + 2)) ts 0 P (tilt_lik_le _) (hL L hL1)
    have hZ0 : Z ≠ 0 := fun h0 => by
      rw [pmcmcRate, ← hZ, h0, mul_zero] at hrate
      exact lt_irrefl _ hrate.1
    have hZt : Z ≠ ∞ := fun h0 => by
      rw [pmcmcRate, ← hZ, h0, ENNReal.mul_top (by simpa using Real.exp_pos _)] at hrate
      simp at hrate
    have hIZ : I ≤ Z := extTarget_mono (tilt_lik_le _) (hL L hL1) ts 0 P [] fun u _ _ _ =>
      ENNReal.ofReal_le_one.2 (by cases u <;> simp [hF])
    have h7 : (7 / 24 : ℝ≥0∞) ≤ I / Z := (ENNReal.le_div_iff_mul_le (.inl hZ0) (.inl hZt)).2 hlow'
    have := ENNReal.toReal_mono (ne_top_of_le_ne_top ENNReal.one_ne_top (ENNReal.div_le_of_le_mul (by rwa [one_mul]))) h7
    simpa using this
  have hFm : Measurable F := measurable_of_finite _
  have hF0 : ∀ x, 0 ≤ F x := fun u => by cases u <;> simp [hF]
  have hF1 : ∀ x, F x ≤ 1 := fun u => by cases u <;> simp [hF]
  have low : ∀ {α : Type} (q : ℕ → Rand α) (X : ℕ → α → ℝ) (c : ℝ), 7 / 24 ≤ c →
      Filter.Tendsto (fun k => (q k).E fun a => if ε ≤ |X k a - c| then 1 else 0) Filter.atTop (nhds 0) →
      Filter.Tendsto (fun k => (q k).E fun a => if X k a ≤ 7 / 24 - ε then 1 else 0) Filter.atTop (nhds 0) := by
    intro α q X c hc h
    refine tendsto_of_tendsto_of_tendsto_of_le_of_le tendsto_const_nhds h (fun _ => bot_le) fun k => Rand.E_mono _ fun a => ?_
    by_cases ha : X k a ≤ 7 / 24 - ε
    · have h1 : ε ≤ |X k a - c| := by
        rw [abs_sub_comm]
        exact le_trans (by linarith) (le_abs_self _)
      rw [if_pos ha, if_pos h1]
    · rw [if_neg ha]
      exact bot_le
  refine ⟨fun s => ?_, fun {C} hC s => ?_⟩
  · set L := max (Real.log 3) s.2.1 with hLd
    refine low _ _ _ (key1 L (le_max_left _ _)) ?_
    exact tendsto_dev (tendsto_chainErr _) (fun k hk => (C93_pmcmc_averages hm hS (scheme_stratified (N := n + 2)) y0 ts sdeMean 0 hP
      (tilt_lik_le _) (hL L (le_max_left _ _)) hFm hF0 hF1 [] burnin hk key).1 s (le_max_right _ _)) hε
  · have : NeZero C := ⟨hC⟩
    set L := max (Real.log 3) (Finset.univ.sup' ⟨0, Finset.mem_univ _⟩ fun c => (s c).2.1) with hLd
    refine low _ _ _ (key1 L (le_max_left _ _)) ?_
    exact tendsto_dev (tendsto_poolErr _ _ _) (fun k hk => (C93_pmcmc_averages hm hS (scheme_stratified (N := n + 2)) y0 ts sdeMean 0 hP
      (tilt_lik_le _) (hL L (le_max_left _ _)) hFm hF0 hF1 [] burnin hk key).2 hC s fun c =>
        (Finset.le_sup' (fun c => (s c).2.1) (Finset.mem_univ c)).trans (le_max_right _ _)) hε

/-- Ten particles, uniform paths, one chain. -/
example (y0 : ℝ) (ts : Fin 2 → ℝ) (key : Key) (s : Bool × ℝ × (Fin 2 → ℝ)) :
    Filter.Tendsto (fun nsamples => (pmcmcSamples (smcFuns tiltSpace 10) Resampling.stratified y0 ts (fun k _ => uniforms k 2)
      (fun _ _ y => y) none 0 (100 + nsamples) key s).E
        fun l => if sampleMean (fun u => if u then 0 else 1) (l.drop 100) ≤ 7 / 24 - 1 / 48 then 1 else 0) Filter.atTop (nhds 0) :=
  (C93_stratified_wrong_limit (n := 8) (by norm_num) y0 ts (P := Measure.pi fun _ => unifMeasure) (fwdYs := fun k _ => uniforms k 2)
    (fun _ _ y => y) (fun _ _ _ => rfl) 100 key (by norm_num)).2.1 s

end Props
end Fbs
