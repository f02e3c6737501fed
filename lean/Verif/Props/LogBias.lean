import Verif.Lemmas.LogBias
import Verif.Props.Consistency
import Verif.Props.InitGuessBound
import Verif.Props.PmcmcErgodic

/-!
# C94: the log-likelihood the particle filters return

`bootstrap_filter` returns a negative log-likelihood and `pmcmc_filter_step` a log-likelihood.  Their exponentials are unbiased
(C17, C18); the logarithms are not.
-/

open MeasureTheory ProbabilityTheory
open scoped ENNReal

namespace Fbs
namespace Props

open Jax Spec Smc

variable {U V : Type} [MeasurableSpace U] [MeasurableSpace V] {N K : ℕ}

omit [MeasurableSpace V] in
/-- The log-likelihoods of the model are at most `b` along every path. -/
theorem steps_le {S : StateSpace U V} {b : ℝ} (hb : ∀ v v' t u, S.logG v v' t u ≤ b) :
    ∀ (v : V) (vs : List V) (ts : List ℝ), ∀ s ∈ S.steps v vs ts, ∀ u, s.g u ≤ b
  | _, [], _, s, h => by simp [StateSpace.steps] at h
  | _, _ :: _, [], s, h => by simp [StateSpace.steps] at h
  | v, v' :: vs, t :: ts, s, h => by
    rw [StateSpace.steps, List.mem_cons] at h
    rcases h with rfl | h
    · exact fun u => hb _ _ _ u
    · exact steps_le hb v' vs ts s h

/-- The likelihood of the observed path in the model. -/
noncomputable def modelLik (S : StateSpace U V) (ref : Kernel V U) [IsMarkovKernel ref] (ts : Fin (K + 1) → ℝ)
    (ys : Fin (K + 1) → V) : ℝ := (backwardInt S ref ts ys fun _ => 1).toReal

theorem smcImplements_at {m : Funs N U V} {ref : Kernel V U} [IsMarkovKernel ref] {S : StateSpace U V}
    (hm : PmcmcImplements m ref S) (ys : Fin (K + 1) → V) :
    SmcImplements m (S.startedAt (ref (ys (Fin.last K)))) (arr fun i => ys (Fin.rev i)).1 :=
  ⟨fun k n F hF => by
    have := hm.init k (ys (Fin.last K)) n F hF
    rw [← Fin.rev_zero] at this ⊢
    exact this, hm.trans, hm.lik⟩

theorem modelLik_pos (S : StateSpace U V) (ref : Kernel V U) [IsMarkovKernel ref] {b : ℝ} (hb : ∀ v v' t u, S.logG v v' t u ≤ b)
    (ts : Fin (K + 1) → ℝ) (ys : Fin (K + 1) → V) : 0 < modelLik S ref ts ys :=
  filterInt_one_pos (S := S.startedAt (ref (ys (Fin.last K)))) _ _ (b := b) (steps_le (S := S.startedAt (ref (ys (Fin.last K)))) hb _ _ _)

theorem ofReal_modelLik (S : StateSpace U V) (ref : Kernel V U) [IsMarkovKernel ref] {b : ℝ}
    (hb : ∀ v v' t u, S.logG v v' t u ≤ b) (ts : Fin (K + 1) → ℝ) (ys : Fin (K + 1) → V) :
    ENNReal.ofReal (modelLik S ref ts ys) = backwardInt S ref ts ys fun _ => 1 :=
  ENNReal.ofReal_toReal fun h => by
    have := modelLik_pos S ref hb ts ys
    rw [modelLik, h] at this
    simp at this

/-! ### The bootstrap filter -/

/-- The bootstrap filter, with both results, is a Markov kernel in the observed path. -/
theorem hasKer_filter_nell [NeZero N] {m : Smc.Funs N U V} {ref : Kernel V U} [IsMarkovKernel ref] {S : StateSpace U V}
    (hm : PmcmcImplements m ref S) (hS : S.JointMeas) {res : Smc.Resampling N} (hres : MeasurableScheme res)
    (ts : Fin (K + 1) → ℝ) : HasKer fun key (ys : Fin (K + 1) → V) =>
      FilterOut.nell <$> bootstrapFilter m res (arr fun i => ys (Fin.rev i)) (arr ts) key true true := by
  have h0 := (hasKer_init hm N).comap (Y := Fin (K + 1) → V) (g := fun ys => ys (Fin.last K)) (by fun_prop) fun key => split key 2 0
  have h1 := hasKer_scan (X := Fin (K + 1) → V) (hasKer_filterBody hm hS hres) (pathInputs ts) (by
    simp only [pathInputs, List.mem_ofFn, forall_exists_index, forall_apply_eq_imp_iff]
    exact fun i => ⟨measurable_pi_apply _, measurable_pi_apply _⟩)
  have h2 := h1.comap (Y := (Fin (K + 1) → V) × (Fin N → U)) (g := fun z => ((z.2, (0 : ℝ)), z.1)) (by fun_prop)
    fun key : Key => ⟨splitAll (split key 2 1) K, by simp [splitAll, pathInputs]⟩
  have h3 := (h0.bind h2).map (g := fun z : (Fin (K + 1) → V) × ((Fin N → U) × ℝ) => z.2.2) (by fun_prop)
  refine h3.congr fun key ys f hf => ?_
  have hsi := scanInputs_eq ts ys (splitAll (split key 2 1) K)
  have hlen : (arr fun i => ys (Fin.rev i)).2.length = K := by simp [arr]
  simp only [bootstrapFilter, Rand.E_map, Rand.E_bind, Rand.pure_eq, Rand.E_ret, if_true, hlen, FilterOut.nell]
  change _ = Rand.E _ fun a => Rand.E (Rand.scan _ _ (List.zipWith _ _ _)) _
  rw [← hsi]
  simp [arr, toArr1]

omit [MeasurableSpace U] [MeasurableSpace V] in
theorem E_nell (m : Smc.Funs N U V) (res : Smc.Resampling N) (vs : Arr1 V) (ts : Arr1 ℝ) (key : Key) (log rl : Bool)
    (f : ℝ → ℝ≥0∞) : (bootstrapFilter m res vs ts key log rl).E (fun out => f out.nell)
      = (FilterOut.nell <$> bootstrapFilter m res vs ts key true true).E f := by
  have h : ∀ log, bootstrapFilter m res vs ts key log true = bootstrapFilter m res vs ts key true true := fun _ => rfl
  cases rl
  · rw [C19_return_last, Rand.E_map, Rand.E_map]
    rfl
  · rw [h, Rand.E_map]

omit [MeasurableSpace U] [MeasurableSpace V] in
theorem nell_leaves [NeZero N] {m : Funs N U V} {res : Smc.Resampling N} {b : ℝ}
    (hl : ∀ v us v' t i, |m.lik v us v' t i| ≤ b) (key : Key) (ys : Fin (K + 1) → V) (ts : Fin (K + 1) → ℝ) :
    (FilterOut.nell <$> bootstrapFilter m res (arr ys) (arr ts) key true true).Leaves fun l => |(-l)| ≤ K * b := by
  have h1 := bootstrapFilter_nell_ge (res := res) (fun v us v' t i => (abs_le.1 (hl v us v' t i)).2) key ys ts
  have h2 := bootstrapFilter_nell_le (res := res) (fun v us v' t i => (abs_le.1 (hl v us v' t i)).1) key ys ts
  refine (h1.leaves.and h2.leaves).bind fun out ho => ?_
  show |(-out.nell)| ≤ K * b
  rw [abs_neg, abs_le]
  exact ⟨ho.1, by have := ho.2; linarith⟩

/-- What the bootstrap filter knows about its estimate. -/
theorem nell_facts [NeZero N] {m : Smc.Funs N U V} {ref : Kernel V U} [IsMarkovKernel ref] {S : StateSpace U V}
    (hm : PmcmcImplements m ref S) {res : Smc.Resampling N} (hres : UnbiasedSums res) {b : ℝ}
    (hb : ∀ v v' t u, S.logG v v' t u ≤ b) (ts : Fin (K + 1) → ℝ) (key : Key) (ys : Fin (K + 1) → V) :
    (FilterOut.nell <$> bootstrapFilter m res (arr fun i => ys (Fin.rev i)) (arr ts) key true true).E
        (fun l => ENNReal.ofReal (Real.exp (-l))) = ENNReal.ofReal (modelLik S ref ts ys) ∧
      (SmallVariance res →
        (FilterOut.nell <$> bootstrapFilter m res (arr fun i => ys (Fin.rev i)) (arr ts) key true true).E
        (fun l => ENNReal.ofReal ((Real.exp (-l) - modelLik S ref ts ys) ^ 2))
          ≤ ENNReal.ofReal ((2 * K + 1) * Real.exp b ^ (2 * K) / N)) := by
  have hi := smcImplements_at hm ys
  have ht : (arr ts).2.length = (arr fun i => ys (Fin.rev i)).2.length := by simp [arr]
  refine ⟨?_, fun hvar => ?_⟩
  · rw [Rand.E_map, ofReal_modelLik S ref hb]
    exact C17_likelihood_unbiased _ _ hi hres ht key true true
  · rw [Rand.E_map]
    have h := C79_likelihood _ _ hi hres hvar ht (b := b) (steps_le (S := S.startedAt (ref (ys (Fin.last K)))) hb _ _ _) key true true
    rwa [show (arr fun i => ys (Fin.rev i)).2.length = K by simp [arr]] at h

/-- **C94, the bias of `bootstrap_filter`.**  Let `Z` be the likelihood of the observed path.  On average the negative log-likelihood
returned is at least `-log Z`. -/
theorem C94_nell_ge [NeZero N] {m : Smc.Funs N U V} {ref : Kernel V U} [IsMarkovKernel ref] {S : StateSpace U V}
    (hm : PmcmcImplements m ref S) (hS : S.JointMeas) {res : Smc.Resampling N} (hres : UnbiasedSums res)
    (hres' : MeasurableScheme res) {b : ℝ} (hb : ∀ v v' t u, S.logG v v' t u ≤ b) (ts : Fin (K + 1) → ℝ) (key : Key)
    (ys : Fin (K + 1) → V) (log rl : Bool) (c : ℝ) :
    ENNReal.ofReal (c - Real.log (modelLik S ref ts ys)) ≤
      (bootstrapFilter m res (arr fun i => ys (Fin.rev i)) (arr ts) key log rl).E fun out => ENNReal.ofReal (c + out.nell) := by
  obtain ⟨κ, hκ, h⟩ := hasKer_filter_nell hm hS hres' ts
  rw [E_nell m res _ _ key log rl fun l => ENNReal.ofReal (c + l)]
  simpa using log_bias_ge (μ := κ ys) (fun f hf => h key ys f hf) measurable_neg (modelLik_pos S ref hb ts ys)
    (nell_facts hm hres hb ts key ys).1 c

/-- **C94, the bias of `bootstrap_filter` vanishes.**  With log-likelihoods between `-b` and `b` the mean of the negative
log-likelihood returned exceeds `-log Z` by at most `(2 K + 1) exp(4 K b) / N`. -/
theorem C94_nell_le [NeZero N] {m : Smc.Funs N U V} {ref : Kernel V U} [IsMarkovKernel ref] {S : StateSpace U V}
    (hm : PmcmcImplements m ref S) (hS : S.JointMeas) {res : Smc.Resampling N} (hres : UnbiasedSums res)
    (hres' : MeasurableScheme res) (hvar : SmallVariance res) {b : ℝ} (hb : ∀ v v' t u, |S.logG v v' t u| ≤ b)
    (ts : Fin (K + 1) → ℝ) (key : Key) (ys : Fin (K + 1) → V) (log rl : Bool) :
    ((bootstrapFilter m res (arr fun i => ys (Fin.rev i)) (arr ts) key log rl).E fun out => ENNReal.ofReal (K * b + out.nell)) ≤
      ENNReal.ofReal (K * b - Real.log (modelLik S ref ts ys) + (2 * K + 1) * Real.exp (4 * (K * b)) / N) := by
  obtain ⟨κ, hκ, h⟩ := hasKer_filter_nell hm hS hres' ts
  rw [E_nell m res _ _ key log rl fun l => ENNReal.ofReal (K * b + l)]
  have hb' : ∀ v v' t u, S.logG v v' t u ≤ b := fun v v' t u => (abs_le.1 (hb v v' t u)).2
  have hl := nell_leaves (m := m) (res := res) (b := b) (fun v us v' t i => by rw [hm.lik]; exact hb _ _ _ _) key
    (fun i => ys (Fin.rev i)) ts
  have hZ := modelLik_pos S ref hb' ts ys
  obtain ⟨hu, hv⟩ := nell_facts hm hres hb' ts key ys
  obtain ⟨h1, h2⟩ := mean_mem (μ := κ ys) (fun f hf => h key ys f hf) hZ hu hl
  have := log_bias_le (μ := κ ys) (fun f hf => h key ys f hf) measurable_neg hZ hu hl h1 h2 (by positivity) (hv hvar)
  have e : Real.exp (2 * (K * b)) * ((2 * K + 1) * Real.exp b ^ (2 * K) / N) = (2 * K + 1) * Real.exp (4 * (K * b)) / N := by
    rw [← Real.exp_nat_mul, show 4 * (K * b) = 2 * (K * b) + ((2 * K : ℕ) : ℝ) * b by push_cast; ring, Real.exp_add]
    ring
  rw [e] at this
  simpa using this

/-- **C94, `bootstrap_filter` in probability.**  The log-likelihood is consistent: its error is `ε` or more with probability at most
`(2 K + 1) exp(2 K b) / (N (Z (1 - exp(-ε)))²)`. -/
theorem C94_nell_consistent [NeZero N] {m : Smc.Funs N U V} {ref : Kernel V U} [IsMarkovKernel ref] {S : StateSpace U V}
    (hm : PmcmcImplements m ref S) {res : Smc.Resampling N} (hres : UnbiasedSums res)
    (hvar : SmallVariance res) {b : ℝ} (hb : ∀ v v' t u, S.logG v v' t u ≤ b)
    (ts : Fin (K + 1) → ℝ) (key : Key) (ys : Fin (K + 1) → V) (log rl : Bool) {ε : ℝ} (hε : 0 < ε) :
    ((bootstrapFilter m res (arr fun i => ys (Fin.rev i)) (arr ts) key log rl).E fun out =>
        if ε ≤ |out.nell + Real.log (modelLik S ref ts ys)| then 1 else 0) ≤
      ENNReal.ofReal ((2 * K + 1) * Real.exp b ^ (2 * K) / N / (modelLik S ref ts ys * (1 - Real.exp (-ε))) ^ 2) := by
  rw [E_nell m res _ _ key log rl fun l => if ε ≤ |l + Real.log (modelLik S ref ts ys)| then 1 else 0]
  have := log_dev_le (modelLik_pos S ref hb ts ys) ((nell_facts hm hres hb ts key ys).2 hvar) hε
  refine le_trans (le_of_eq (Rand.E_congr _ fun l => ?_)) this
  rw [← abs_neg (-l - _), neg_sub, sub_neg_eq_add, add_comm]

/-! ### The filter of `pmcmc_kernel` -/

theorem logEll_facts [NeZero N] {m : Smc.Funs N U V} {ref : Kernel V U} [IsMarkovKernel ref] {S : StateSpace U V}
    (hm : PmcmcImplements m ref S) {res : Smc.Resampling N} (hres : UnbiasedSums res) {b : ℝ}
    (hb : ∀ v v' t u, S.logG v v' t u ≤ b) (ts : Fin (K + 1) → ℝ) (key : Key) (ys : Fin (K + 1) → V) (i : Fin N) :
    (pmcmcEstimate m res key ys ts i).E (fun p => ENNReal.ofReal (Real.exp p.2)) = ENNReal.ofReal (modelLik S ref ts ys) ∧
      (SmallVariance res →
        (pmcmcEstimate m res key ys ts i).E (fun p => ENNReal.ofReal ((Real.exp p.2 - modelLik S ref ts ys) ^ 2))
          ≤ ENNReal.ofReal ((2 * K + 1) * Real.exp b ^ (2 * K) / N)) := by
  have hi := smcImplements_at hm ys
  have ht : (arr ts).2.length = (arr fun i => ys (Fin.rev i)).2.length := by simp [arr]
  have h0 : ys (Fin.last K) = (arr fun i => ys (Fin.rev i)).1 := by simp [arr]
  rw [pmcmcEstimate_eq]
  simp only [Rand.E_map]
  refine ⟨?_, fun hvar => ?_⟩
  · rw [ofReal_modelLik S ref hb, runFilter, h0]
    exact C18_likelihood_unbiased _ _ hi hres ht _ _
  · rw [runFilter, h0]
    have h := C79_pmcmc_likelihood _ _ hi hres hvar ht (b := b)
      (steps_le (S := S.startedAt (ref (ys (Fin.last K)))) hb _ _ _) (split key 4 1) (split key 4 2)
    rwa [show (arr fun i => ys (Fin.rev i)).2.length = K by simp [arr]] at h

/-- **C94, the bias of `pmcmc_filter_step`.**  On average the log-likelihood returned is at most `log Z`. -/
theorem C94_logEll_le [NeZero N] {m : Smc.Funs N U V} {ref : Kernel V U} [IsMarkovKernel ref] {S : StateSpace U V}
    (hm : PmcmcImplements m ref S) (hS : S.JointMeas) {res : Smc.Resampling N} (hres : UnbiasedSums res)
    (hres' : MeasurableScheme res) {b : ℝ} (hb : ∀ v v' t u, S.logG v v' t u ≤ b) (ts : Fin (K + 1) → ℝ) (key : Key)
    (ys : Fin (K + 1) → V) (i : Fin N) (c : ℝ) :
    ENNReal.ofReal (c - Real.log (modelLik S ref ts ys)) ≤
      (pmcmcEstimate m res key ys ts i).E fun p => ENNReal.ofReal (c - p.2) := by
  obtain ⟨κ, hκ, h⟩ := hasKer_estimate hm hS hres' ts i
  exact log_bias_ge (μ := κ ys) (fun f hf => h key ys f hf) measurable_snd (modelLik_pos S ref hb ts ys)
    (logEll_facts hm hres hb ts key ys i).1 c

/-- **C94, the bias of `pmcmc_filter_step` vanishes.** -/
theorem C94_logEll_ge [NeZero N] {m : Smc.Funs N U V} {ref : Kernel V U} [IsMarkovKernel ref] {S : StateSpace U V}
    (hm : PmcmcImplements m ref S) (hS : S.JointMeas) {res : Smc.Resampling N} (hres : UnbiasedSums res)
    (hres' : MeasurableScheme res) (hvar : SmallVariance res) {b : ℝ} (hb : ∀ v v' t u, |S.logG v v' t u| ≤ b)
    (ts : Fin (K + 1) → ℝ) (key : Key) (ys : Fin (K + 1) → V) (i : Fin N) :
    ((pmcmcEstimate m res key ys ts i).E fun p => ENNReal.ofReal (K * b - p.2)) ≤
      ENNReal.ofReal (K * b - Real.log (modelLik S ref ts ys) + (2 * K + 1) * Real.exp (4 * (K * b)) / N) := by
  obtain ⟨κ, hκ, h⟩ := hasKer_estimate hm hS hres' ts i
  have hb' : ∀ v v' t u, S.logG v v' t u ≤ b := fun v v' t u => (abs_le.1 (hb v v' t u)).2
  have hl : (pmcmcEstimate m res key ys ts i).Leaves fun p => |p.2| ≤ K * b := by
    have hm1 : ∀ v us v' t i, m.lik v us v' t i ≤ b := fun v us v' t i => by rw [hm.lik]; exact hb' _ _ _ _
    have hm2 : ∀ v us v' t i, -b ≤ m.lik v us v' t i := fun v us v' t i => by rw [hm.lik]; exact (abs_le.1 (hb _ _ _ _)).1
    refine (Rand.leaves_true _).bind fun u0s _ => ?_
    refine ((pmcmcFilterStep_le (res := res) hm1 _ _ _ _).leaves.and (le_pmcmcFilterStep (res := res) hm2 _ _ _ _).leaves).bind
      fun r hr => ?_
    show |r.2| ≤ K * b
    rw [abs_le]
    exact ⟨by have := hr.2; linarith, hr.1⟩
  have hZ := modelLik_pos S ref hb' ts ys
  obtain ⟨hu, hv⟩ := logEll_facts hm hres hb' ts key ys i
  obtain ⟨h1, h2⟩ := mean_mem (μ := κ ys) (fun f hf => h key ys f hf) hZ hu hl
  have := log_bias_le (μ := κ ys) (fun f hf => h key ys f hf) measurable_snd hZ hu hl h1 h2 (by positivity) (hv hvar)
  have e : Real.exp (2 * (K * b)) * ((2 * K + 1) * Real.exp b ^ (2 * K) / N) = (2 * K + 1) * Real.exp (4 * (K * b)) / N := by
    rw [← Real.exp_nat_mul, show 4 * (K * b) = 2 * (K * b) + ((2 * K : ℕ) : ℝ) * b by push_cast; ring, Real.exp_add]
    ring
  rwa [e] at this

/-- **C94, `pmcmc_filter_step` in probability.** -/
theorem C94_logEll_consistent [NeZero N] {m : Smc.Funs N U V} {ref : Kernel V U} [IsMarkovKernel ref] {S : StateSpace U V}
    (hm : PmcmcImplements m ref S) {res : Smc.Resampling N} (hres : UnbiasedSums res)
    (hvar : SmallVariance res) {b : ℝ} (hb : ∀ v v' t u, S.logG v v' t u ≤ b)
    (ts : Fin (K + 1) → ℝ) (key : Key) (ys : Fin (K + 1) → V) (i : Fin N) {ε : ℝ} (hε : 0 < ε) :
    ((pmcmcEstimate m res key ys ts i).E fun p => if ε ≤ |p.2 - Real.log (modelLik S ref ts ys)| then 1 else 0) ≤
      ENNReal.ofReal ((2 * K + 1) * Real.exp b ^ (2 * K) / N / (modelLik S ref ts ys * (1 - Real.exp (-ε))) ^ 2) :=
  log_dev_le (modelLik_pos S ref hb ts ys) ((logEll_facts hm hres hb ts key ys i).2 hvar) hε

/-! ### How often `pmcmc_kernel` accepts -/

omit [MeasurableSpace U] [MeasurableSpace V] in
theorem E_isAccepted [AddCommGroup V] [Module ℝ V] (m : Funs N U V) (res : Smc.Resampling N) (key : Key) (u : U)
    (l : ℝ) (ys : Fin (K + 1) → V) (y0 : V) (ts : Fin (K + 1) → ℝ) (fwdYs : Key → V → Rand (Fin (K + 1) → V))
    (sdeMean : ℝ → ℝ → V → V) (delta : Option ℝ) (i : Fin N) :
    (pmcmcKernel m res key u l ys y0 ts fwdYs sdeMean delta i).E (fun out => if out.2.2.2.isAccepted then 1 else 0)
      = (pmcmcProposal key ys y0 ts fwdYs sdeMean delta).E fun ys' => (pmcmcEstimate m res key ys' ts i).E fun p' =>
        ENNReal.ofReal (min 1 (Real.exp (p'.2 - l))) := by
  simp only [pmcmcKernel, Rand.E_bind, Rand.pure_eq, Rand.E_ret]
  refine Rand.E_congr _ fun ys' => Rand.E_congr _ fun p' => ?_
  rw [← C20_acceptance_probability (split key 4 3)]
  refine Rand.E_congr _ fun z => ?_
  cases accepts z (min 0 (p'.2 - l)) <;> simp

/-- **C94, acceptance.**  From a state with log-likelihood `l`, a step of `pmcmc_kernel` accepts at most as often as the step which
computes the likelihood of the proposed path exactly, and less often by at most `exp(-l) √((2 K + 1) exp(2 K b) / N)`. -/
theorem C94_acceptance [NeZero N] [AddCommGroup V] [Module ℝ V] {m : Smc.Funs N U V} {ref : Kernel V U} [IsMarkovKernel ref]
    {S : StateSpace U V} (hm : PmcmcImplements m ref S) (hS : S.JointMeas) {res : Smc.Resampling N} (hres : UnbiasedSums res)
    (hres' : MeasurableScheme res) {b : ℝ} (hb : ∀ v v' t u, S.logG v v' t u ≤ b)
    (ts : Fin (K + 1) → ℝ) (key : Key) (u : U) (l : ℝ) (ys : Fin (K + 1) → V) (y0 : V)
    (fwdYs : Key → V → Rand (Fin (K + 1) → V)) (sdeMean : ℝ → ℝ → V → V) (delta : Option ℝ) (i : Fin N) :
    ((pmcmcKernel m res key u l ys y0 ts fwdYs sdeMean delta i).E fun out => if out.2.2.2.isAccepted then 1 else 0) ≤
        ((pmcmcProposal key ys y0 ts fwdYs sdeMean delta).E fun ys' =>
          ENNReal.ofReal (min 1 (modelLik S ref ts ys' * Real.exp (-l)))) ∧
      (SmallVariance res → (pmcmcProposal key ys y0 ts fwdYs sdeMean delta).IsProb →
        ((pmcmcProposal key ys y0 ts fwdYs sdeMean delta).E fun ys' =>
          ENNReal.ofReal (min 1 (modelLik S ref ts ys' * Real.exp (-l)))) ≤
          ((pmcmcKernel m res key u l ys y0 ts fwdYs sdeMean delta i).E fun out => if out.2.2.2.isAccepted then 1 else 0) +
            ENNReal.ofReal (Real.exp (-l) * √((2 * K + 1) * Real.exp b ^ (2 * K) / N))) := by
  obtain ⟨κ, hκ, h⟩ := hasKer_estimate hm hS hres' ts i
  rw [E_isAccepted]
  refine ⟨Rand.E_mono _ fun ys' => ?_, fun hvar hp => ?_⟩
  · exact accept_le (μ := κ ys') (fun f hf => h key ys' f hf) measurable_snd (logEll_facts hm hres hb ts key ys' i).1 l
  · rw [← Rand.E_add_const hp]
    refine Rand.E_mono _ fun ys' => ?_
    have hN : 0 < (N : ℝ) := by exact_mod_cast Nat.pos_of_ne_zero (NeZero.ne N)
    exact le_accept (μ := κ ys') (fun f hf => h key ys' f hf) measurable_snd (by positivity)
      ((logEll_facts hm hres hb ts key ys' i).2 hvar) l

/-! ### The coin: likelihood 8 of heads, 1 of tails -/

theorem coin_logG_le (v v' t : ℝ) (u : Bool) : |coinSpace.logG v v' t u| ≤ Real.log 8 := by
  have h : 0 ≤ Real.log 8 := Real.log_nonneg (by norm_num)
  show |if u then Real.log 8 else 0| ≤ Real.log 8
  split_ifs
  · rw [abs_of_nonneg h]
  · simpa using h

example (ts ys : Fin 2 → ℝ) (key : Key) :
    ENNReal.ofReal (Real.log 8 - Real.log (modelLik coinSpace (Kernel.const ℝ coinSpace.init) ts ys)) ≤
        ((bootstrapFilter (smcFuns coinSpace 3) Resampling.killing (arr fun i => ys (Fin.rev i)) (arr ts) key true true).E
          fun out => ENNReal.ofReal (Real.log 8 + out.nell)) ∧
      ((bootstrapFilter (smcFuns coinSpace 3) Resampling.killing (arr fun i => ys (Fin.rev i)) (arr ts) key true true).E
          fun out => ENNReal.ofReal (Real.log 8 + out.nell)) ≤
        ENNReal.ofReal (Real.log 8 - Real.log (modelLik coinSpace (Kernel.const ℝ coinSpace.init) ts ys) + 3 * Real.exp (4 * Real.log 8) / 3) := by
  refine ⟨C94_nell_ge (coin_implements 3) coin_jointMeas sums_killing scheme_killing
    (fun v v' t u => (abs_le.1 (coin_logG_le v v' t u)).2) ts key ys true true _, ?_⟩
  have := C94_nell_le (coin_implements 3) coin_jointMeas sums_killing scheme_killing smallVariance_killing coin_logG_le ts key ys
    true true
  norm_num at this ⊢
  exact this

theorem coin_modelLik (ts ys : Fin 2 → ℝ) : modelLik coinSpace (Kernel.const ℝ coinSpace.init) ts ys = 9 / 2 := by
  rw [modelLik, coin_backward, show (8 : ℝ≥0∞) * 1 + 1 = 9 by norm_num]
  norm_num [ENNReal.toReal_mul]

/-- **C94, the log-likelihood is biased.**  With one particle the inequality of `C94_nell_ge` is strict for the coin: with
likelihood `9/2`, the average negative log-likelihood is `-(log 8) / 2`, more than `-log (9/2)`. -/
theorem C94_nell_biased (ts ys : Fin 2 → ℝ) (key : Key) :
    ENNReal.ofReal (Real.log 8 - Real.log (modelLik coinSpace (Kernel.const ℝ coinSpace.init) ts ys)) <
      (bootstrapFilter (smcFuns coinSpace 1) Resampling.stratified (arr fun i => ys (Fin.rev i)) (arr ts) key true true).E
        fun out => ENNReal.ofReal (Real.log 8 + out.nell) := by
  have hd : ∀ a : Fin 1 → Bool, (Measure.pi fun i => Kernel.id (a i)) = Measure.dirac a := by
    intro a
    simp only [Kernel.id_apply]
    exact Csmc.pi_dirac a
  have hE : ((bootstrapFilter (smcFuns coinSpace 1) Resampling.stratified (arr fun i => ys (Fin.rev i)) (arr ts) key true true).E
        fun out => ENNReal.ofReal (Real.log 8 + out.nell))
      = ∫⁻ x : Fin 1 → Bool, ENNReal.ofReal (Real.log 8 - if x 0 then Real.log 8 else 0) ∂(Measure.pi fun _ => coinSpace.init) := by
    simp only [bootstrapFilter, Rand.E_bind, Rand.pure_eq, if_true]
    refine lintegral_congr fun x => ?_
    have hr : ∀ (w : Fin 1 → ℝ) k c, (Resampling.stratified w k).E (fun _ => c) = c := fun w k c =>
      Rand.E_const (prob_stratified w k) c
    simp [Smc.scanInputs, arr, Arr1.init, splitAll, Rand.scan, Rand.E_bind, filterBody, smcFuns, coinSpace, hd,
      FilterOut.nell, hr, logsumexp]
    rw [← sub_eq_add_neg]
  have hI : ∫⁻ x : Fin 1 → Bool, ENNReal.ofReal (Real.log 8 - if x 0 then Real.log 8 else 0) ∂(Measure.pi fun _ => coinSpace.init)
      = ENNReal.ofReal (Real.log 8 / 2) := by
    rw [(measurePreserving_eval (fun _ : Fin 1 => coinSpace.init) 0).lintegral_comp
      (f := fun u : Bool => ENNReal.ofReal (Real.log 8 - if u then Real.log 8 else 0)) (measurable_of_finite _)]
    simp only [coinSpace, lintegral_smul_measure, lintegral_add_measure, lintegral_dirac, if_true, sub_self, ENNReal.ofReal_zero,
      zero_add, smul_eq_mul, Bool.false_eq_true, if_false, sub_zero]
    rw [ENNReal.ofReal_div_of_pos (by norm_num), ENNReal.div_eq_inv_mul]
    simp
  rw [hE, coin_modelLik, hI]
  refine (ENNReal.ofReal_lt_ofReal_iff (by positivity)).2 ?_
  have : Real.log 8 < 2 * Real.log (9 / 2) := by
    rw [← Real.log_rpow (by norm_num)]
    exact Real.log_lt_log (by norm_num) (by norm_num)
  linarith

/-- With 100 particles and the current log-likelihood at `log 8`, the step accepts at most as often as the exact one (at most 9/16)
and at most 0.18 less often. -/
example (ts : Fin 2 → ℝ) (key : Key) (u : Bool) (ys : Fin 2 → ℝ) (y0 : ℝ) (i : Fin 100) :
    ((pmcmcKernel (smcFuns coinSpace 100) Resampling.killing key u (Real.log 8) ys y0 ts (fun k _ => uniforms k 2) (fun _ _ y => y)
        none i).E fun out => if out.2.2.2.isAccepted then 1 else 0) ≤ ENNReal.ofReal (9 / 16) ∧
      ENNReal.ofReal (9 / 16) ≤ ((pmcmcKernel (smcFuns coinSpace 100) Resampling.killing key u (Real.log 8) ys y0 ts
        (fun k _ => uniforms k 2) (fun _ _ y => y) none i).E fun out => if out.2.2.2.isAccepted then 1 else 0) +
          ENNReal.ofReal (18 / 100) := by
  have hp : (pmcmcProposal key ys y0 ts (fun k _ => uniforms k 2) (fun _ _ y => y) none).IsProb :=
    ⟨inferInstance, fun _ => trivial⟩
  obtain ⟨h1, h2⟩ := C94_acceptance (coin_implements 100) coin_jointMeas sums_killing scheme_killing
    (fun v v' t u => (abs_le.1 (coin_logG_le v v' t u)).2) ts key u (Real.log 8) ys y0 (fun k _ => uniforms k 2)
    (fun _ _ y => y) none i
  have h2 := h2 smallVariance_killing hp
  have e : min 1 (9 / 2 * Real.exp (-Real.log 8)) = 9 / 16 := by
    rw [Real.exp_neg, Real.exp_log (by norm_num)]; norm_num
  simp only [coin_modelLik, e, Rand.E_const hp] at h1 h2
  refine ⟨h1, h2.trans (add_le_add_right (ENNReal.ofReal_le_ofReal ?_) _)⟩
  rw [Real.exp_neg, Real.exp_log (by norm_num), inv_mul_le_iff₀ (by norm_num), Real.sqrt_le_iff]
  norm_num

end Props
end Fbs
