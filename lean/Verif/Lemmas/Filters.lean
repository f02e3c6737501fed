import Verif.Spec.Smc
import Verif.Lemmas.CsmcLaw
import Verif.Props.Resampling

/-! Helper lemmas for the filters. -/

open MeasureTheory ProbabilityTheory
open scoped ENNReal

namespace Fbs

open Jax Spec Smc Csmc

variable {U V : Type} [MeasurableSpace U] {N : ℕ}

namespace Spec

theorem unbiasedSums_of {res : Smc.Resampling N} (q : (Fin N → ℝ) → Key → (Fin N → Fin N) → ℝ≥0∞)
    (hq : ∀ w key, Weights w → HasLaw (res w key) (q w key)) (h : ∀ key, Unbiased fun w => res w key) :
    UnbiasedSums res := by
  intro w key hw c
  rw [hq w key hw]
  have h1 : ∀ i, ∑ A, q w key A * (copies A i : ℝ≥0∞) = N * ENNReal.ofReal (w i) := fun i => by
    rw [← hq w key hw, h key w hw i]
  have h2 : ∀ A : Fin N → Fin N, ∑ j, c (A j) = ∑ i, (copies A i : ℝ≥0∞) * c i := by
    intro A
    rw [← Finset.sum_fiberwise (s := Finset.univ) (g := A)]
    refine Finset.sum_congr rfl fun i _ => ?_
    rw [Finset.sum_congr rfl (g := fun _ => c i) (fun j hj => by rw [(Finset.mem_filter.1 hj).2])]
    simp [copies]
  simp only [h2, Finset.mul_sum]
  rw [Finset.sum_comm]
  refine Finset.sum_congr rfl fun i _ => ?_
  rw [← mul_assoc, ← h1, Finset.sum_mul]
  exact Finset.sum_congr rfl fun A _ => (mul_assoc _ _ _).symm

/-- A measurable function of one draw with finitely many values has a law. -/
theorem hasLaw_map {α β : Type} [Fintype α] [MeasurableSpace α] [MeasurableSingletonClass α]
    [MeasurableSpace β] {k : Key} {S : Set β} {μ : Measure β} {f : β → α} (hf : Measurable f) :
    HasLaw (f <$> Rand.sample k S μ) (fun a => μ (f ⁻¹' {a})) := by
  intro F
  rw [Rand.E_map, Rand.E_sample, lintegral_comp_fintype hf F]
  rfl

end Spec

/-- Final state of a path. -/
theorem measurable_pathInt_last {φ : U → ℝ≥0∞} (hφ : Measurable φ) : ∀ ss : List (FKStep U),
    Measurable fun u => pathInt ss u (fun l => φ (l.getLastD u))
  | [] => hφ
  | s :: ss => by
    simp only [pathInt, List.getLastD_cons]
    refine Measurable.mul ?_ ((measurable_pathInt_last hφ ss).lintegral_kernel)
    exact ENNReal.measurable_ofReal.comp (Real.measurable_exp.comp s.meas)

theorem smc_scanInputs_cons (v v' : V) (vs : List V) (t t' : ℝ) (ts : List ℝ) (k : Key) (ks : List Key) :
    Smc.scanInputs (v, v' :: vs) (t, t' :: ts) (k :: ks)
      = (v', v, t, k) :: Smc.scanInputs (v', vs) (t', ts) ks := rfl

/-- The update of the likelihood estimate times one normalised weight. -/
theorem estimate_mul_weight [NeZero N] (lw : Fin N → ℝ) (i : Fin N) :
    ENNReal.ofReal (Real.exp (logsumexp lw - Real.log N)) *
      (N * ENNReal.ofReal (Real.exp (lw i - logsumexp lw))) = ENNReal.ofReal (Real.exp (lw i)) := by
  have hN : (0 : ℝ) < N := by exact_mod_cast Nat.pos_of_ne_zero (NeZero.ne N)
  rw [← ENNReal.ofReal_natCast, ← ENNReal.ofReal_mul hN.le, ← ENNReal.ofReal_mul (Real.exp_pos _).le]
  congr 1
  nth_rewrite 2 [← Real.exp_log hN]
  rw [← Real.exp_add, ← Real.exp_add]
  congr 1
  ring

/-- Resampling with the normalised weights, together with the update of the likelihood estimate,
replaces weights by copies without bias. -/
theorem E_resample [NeZero N] {res : Smc.Resampling N} (hres : UnbiasedSums res) (lw : Fin N → ℝ)
    (k : Key) (l : ℝ) (a : Fin N → ℝ≥0∞) :
    (res (fun i => Real.exp (lw i - logsumexp lw)) k).E
      (fun A => ENNReal.ofReal (Real.exp (l + (logsumexp lw - Real.log N))) *
        ((N : ℝ≥0∞)⁻¹ * ∑ j, a (A j)))
      = ENNReal.ofReal (Real.exp l) * ((N : ℝ≥0∞)⁻¹ *
        ∑ i, ENNReal.ofReal (Real.exp (lw i)) * a i) := by
  have hN0 : (N : ℝ≥0∞)⁻¹ ≠ ∞ := by simp [NeZero.ne N]
  have hr : (res (fun i => Real.exp (lw i - logsumexp lw)) k).E (fun A => ∑ j, a (A j))
      = N * ∑ i, ENNReal.ofReal (Real.exp (lw i - logsumexp lw)) * a i :=
    hres _ k (normalise_weights lw) a
  rw [Rand.E_const_mul _ ENNReal.ofReal_ne_top, Rand.E_const_mul _ hN0, hr, Real.exp_add, ENNReal.ofReal_mul (Real.exp_pos _).le, mul_assoc]
  congr 1
  rw [← mul_assoc, mul_comm _ (N : ℝ≥0∞)⁻¹, mul_assoc]
  congr 1
  simp only [Finset.mul_sum]
  refine Finset.sum_congr rfl fun i _ => ?_
  rw [← estimate_mul_weight lw i]
  simp only [mul_assoc]

theorem lintegral_pi_sum {ι : Type} [Fintype ι] (μ : ι → Measure U) [∀ i, IsProbabilityMeasure (μ i)]
    (c : ι → ℝ≥0∞) {h : U → ℝ≥0∞} (hh : Measurable h) :
    ∫⁻ x, ∑ i, c i * h (x i) ∂(Measure.pi μ) = ∑ i, c i * ∫⁻ u, h u ∂(μ i) := by
  have hm : ∀ i, Measurable fun x : ι → U => h (x i) := fun i => hh.comp (measurable_pi_apply i)
  rw [lintegral_finsetSum _ fun i _ => (hm i).const_mul (c i)]
  refine Finset.sum_congr rfl fun i _ => ?_
  rw [lintegral_const_mul _ (hm i)]
  congr 1
  exact (measurePreserving_eval μ i).lintegral_comp hh

/-- One average particle step: resampling after the transition (bootstrap filter). -/
theorem E_filterBody [NeZero N] {ο : Type} {m : Smc.Funs N U V} {S : StateSpace U V} {v0 : V}
    (hm : SmcImplements m S v0) {res : Smc.Resampling N} (hres : UnbiasedSums res)
    (emit : (Fin N → U) → ο) {h : U → ℝ≥0∞} (hh : Measurable h) (x : Fin N → U) (l : ℝ)
    (v v' : V) (t : ℝ) (k : Key) :
    (filterBody m res emit (x, l) (v, v', t, k)).E
        (fun r => ENNReal.ofReal (Real.exp (-r.1.2)) * ((N : ℝ≥0∞)⁻¹ * ∑ i, h (r.1.1 i)))
      = ENNReal.ofReal (Real.exp (-l)) * ((N : ℝ≥0∞)⁻¹ * ∑ i,
          ENNReal.ofReal (Real.exp (S.logG v v' t (x i))) * ∫⁻ u, h u ∂(S.trans v' t (x i))) := by
  have hlik : m.lik v x v' t = fun i => S.logG v v' t (x i) := funext fun i => hm.lik v x v' t i
  simp only [filterBody, Rand.E_bind, Rand.pure_eq, Rand.E_ret, take]
  have h1 : ∀ us : Fin N → U, _ := fun us =>
    E_resample hres (m.lik v x v' t) (split k 2 1) (-l) fun i => h (us i)
  have h2 : -(l - (logsumexp (m.lik v x v' t) - Real.log N))
      = -l + (logsumexp (m.lik v x v' t) - Real.log N) := by ring
  simp only [h2, h1]
  have hmeas : Measurable fun us : Fin N → U =>
      ∑ i, ENNReal.ofReal (Real.exp (m.lik v x v' t i)) * h (us i) :=
    Finset.measurable_fun_sum _ fun i _ => (hh.comp (measurable_pi_apply i)).const_mul _
  rw [hm.trans _ _ _ _ _ ((hmeas.const_mul _).const_mul _),
    lintegral_const_mul _ (hmeas.const_mul _), lintegral_const_mul _ hmeas, lintegral_pi_sum _ _ hh, hlik]

/-- One average particle step: resampling before the transition (pseudo-marginal filter). -/
theorem E_pmcmcBody [NeZero N] {m : Smc.Funs N U V} {S : StateSpace U V} {v0 : V}
    (hm : SmcImplements m S v0) {res : Smc.Resampling N} (hres : UnbiasedSums res)
    {h : U → ℝ≥0∞} (hh : Measurable h) (x : Fin N → U) (l : ℝ) (v v' : V) (t : ℝ) (k : Key) :
    (pmcmcBody m res (x, l) (v, v', t, k)).E
        (fun r => ENNReal.ofReal (Real.exp r.1.2) * ((N : ℝ≥0∞)⁻¹ * ∑ i, h (r.1.1 i)))
      = ENNReal.ofReal (Real.exp l) * ((N : ℝ≥0∞)⁻¹ * ∑ i,
          ENNReal.ofReal (Real.exp (S.logG v v' t (x i))) * ∫⁻ u, h u ∂(S.trans v' t (x i))) := by
  have hlik : m.lik v x v' t = fun i => S.logG v v' t (x i) := funext fun i => hm.lik v x v' t i
  simp only [pmcmcBody, Rand.E_bind, Rand.pure_eq, Rand.E_ret]
  have hmeas : Measurable fun us : Fin N → U => ∑ i, h (us i) :=
    Finset.measurable_fun_sum _ fun i _ => hh.comp (measurable_pi_apply i)
  have h1 : ∀ A : Fin N → Fin N, ∀ c : ℝ≥0∞, (m.transSampler (take x A) v' t (split k 2 0)).E
      (fun us => c * ((N : ℝ≥0∞)⁻¹ * ∑ i, h (us i)))
      = c * ((N : ℝ≥0∞)⁻¹ * ∑ j, (fun i => ∫⁻ u, h u ∂(S.trans v' t (x i))) (A j)) := by
    intro A c
    rw [hm.trans _ _ _ _ _ ((hmeas.const_mul _).const_mul _), lintegral_const_mul _ (hmeas.const_mul _),
      lintegral_const_mul _ hmeas]
    have := lintegral_pi_sum (fun i => S.trans v' t (take x A i)) (fun _ => 1) hh
    simp only [one_mul] at this
    rw [this]
    rfl
  have h2 : l - Real.log N + logsumexp (m.lik v x v' t)
      = l + (logsumexp (m.lik v x v' t) - Real.log N) := by ring
  simp only [h1, h2]
  rw [E_resample hres (m.lik v x v' t) (split k 2 1) l fun i => ∫⁻ u, h u ∂(S.trans v' t (x i)), hlik]

theorem E_filter_scan [NeZero N] {ο : Type} {m : Smc.Funs N U V} {S : StateSpace U V} {v0 : V}
    (hm : SmcImplements m S v0) {res : Smc.Resampling N} (hres : UnbiasedSums res)
    (emit : (Fin N → U) → ο) {φ : U → ℝ≥0∞} (hφ : Measurable φ) :
    ∀ (vs : List V) (ts : List ℝ) (ks : List Key) (v : V) (t : ℝ) (x : Fin N → U) (l : ℝ),
      ts.length = vs.length → ks.length = vs.length →
      (Rand.scan (filterBody m res emit) (x, l) (Smc.scanInputs (v, vs) (t, ts) ks)).E
        (fun r => ENNReal.ofReal (Real.exp (-r.1.2)) * ((N : ℝ≥0∞)⁻¹ * ∑ i, φ (r.1.1 i)))
      = ENNReal.ofReal (Real.exp (-l)) * ((N : ℝ≥0∞)⁻¹ * ∑ i,
          pathInt (S.steps v vs (t :: ts)) (x i) (fun p => φ (p.getLastD (x i))))
  | [], ts, ks, v, t, x, l, _, _ => rfl
  | v' :: vs, t' :: ts, k :: ks, v, t, x, l, ht, hk => by
    rw [smc_scanInputs_cons, E_scan_cons]
    simp only [E_filter_scan hm hres emit hφ vs ts ks _ _ _ _ (by simpa using ht) (by simpa using hk)]
    rw [E_filterBody hm hres emit (measurable_pathInt_last hφ (S.steps v' vs (t' :: ts)))]
    simp only [StateSpace.steps, pathInt, List.getLastD_cons]
  | v' :: vs, [], ks, v, t, x, l, ht, _ => by simp at ht
  | v' :: vs, _ :: _, [], v, t, x, l, _, hk => by simp at hk

theorem E_pmcmc_scan [NeZero N] {m : Smc.Funs N U V} {S : StateSpace U V} {v0 : V}
    (hm : SmcImplements m S v0) {res : Smc.Resampling N} (hres : UnbiasedSums res)
    {φ : U → ℝ≥0∞} (hφ : Measurable φ) :
    ∀ (vs : List V) (ts : List ℝ) (ks : List Key) (v : V) (t : ℝ) (x : Fin N → U) (l : ℝ),
      ts.length = vs.length → ks.length = vs.length →
      (Rand.scan (pmcmcBody m res) (x, l) (Smc.scanInputs (v, vs) (t, ts) ks)).E
        (fun r => ENNReal.ofReal (Real.exp r.1.2) * ((N : ℝ≥0∞)⁻¹ * ∑ i, φ (r.1.1 i)))
      = ENNReal.ofReal (Real.exp l) * ((N : ℝ≥0∞)⁻¹ * ∑ i,
          pathInt (S.steps v vs (t :: ts)) (x i) (fun p => φ (p.getLastD (x i))))
  | [], ts, ks, v, t, x, l, _, _ => rfl
  | v' :: vs, t' :: ts, k :: ks, v, t, x, l, ht, hk => by
    rw [smc_scanInputs_cons, E_scan_cons]
    simp only [E_pmcmc_scan hm hres hφ vs ts ks _ _ _ _ (by simpa using ht) (by simpa using hk)]
    rw [E_pmcmcBody hm hres (measurable_pathInt_last hφ (S.steps v' vs (t' :: ts)))]
    simp only [StateSpace.steps, pathInt, List.getLastD_cons]
  | v' :: vs, [], ks, v, t, x, l, ht, _ => by simp at ht
  | v' :: vs, _ :: _, [], v, t, x, l, _, hk => by simp at hk

/-- The average over independent initial particles is the integral against the initial law. -/
theorem lintegral_init_avg [NeZero N] (ν : Measure U) [IsProbabilityMeasure ν] {h : U → ℝ≥0∞}
    (hh : Measurable h) : ∫⁻ x, (N : ℝ≥0∞)⁻¹ * ∑ i, h (x i) ∂(Measure.pi fun _ : Fin N => ν)
      = ∫⁻ u, h u ∂ν := by
  have := lintegral_pi_sum (fun _ : Fin N => ν) (fun _ => (N : ℝ≥0∞)⁻¹) hh
  simp only [← Finset.mul_sum] at this
  rw [this]
  simp only [Finset.sum_const, Finset.card_univ, Fintype.card_fin, nsmul_eq_mul]
  rw [← mul_assoc, ENNReal.inv_mul_cancel (by simp [NeZero.ne N]) (by simp), one_mul]

end Fbs
