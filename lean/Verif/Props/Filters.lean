import Verif.Lemmas.Filters
import Verif.Lemmas.Live

/-!
# Bootstrap filter and pseudo-marginal filter: C17, C18, C19
-/

open MeasureTheory ProbabilityTheory
open scoped ENNReal

namespace Fbs
namespace Props

open Jax Spec Smc

variable {U V : Type} {N : ℕ}

/-! ### The resampling schemes of the library are unbiased for sums -/

theorem sums_killing [NeZero N] : UnbiasedSums (N := N) Resampling.killing :=
  unbiasedSums_of _ (fun _ key hw F => E_killing hw key F) C02_killing_unbiased

theorem measurable_comb [NeZero N] (w : Fin N → ℝ) : Measurable (Resampling.comb w) := by
  refine measurable_pi_lambda _ fun i => ?_
  refine measurable_clipIdx.comp ((measurable_searchsorted _).comp ?_)
  exact ((measurable_pi_apply i).const_add _).div_const _

theorem sums_stratified [NeZero N] : UnbiasedSums (N := N) Resampling.stratified :=
  unbiasedSums_of _ (fun w _ _ => hasLaw_map (measurable_comb w)) C02_stratified_unbiased

theorem sums_systematic [NeZero N] : UnbiasedSums (N := N) Resampling.systematic :=
  unbiasedSums_of _ (fun w _ _ => hasLaw_map
    ((measurable_comb w).comp (measurable_pi_lambda _ fun _ => measurable_id))) C02_systematic_unbiased

theorem sums_multinomial [NeZero N] (i j : Fin N) :
    UnbiasedSums (N := N) fun w k => CsmcResampling.multinomial k w i j false :=
  unbiasedSums_of (fun w _ A => ∏ m, ENNReal.ofReal (w (A m)))
    (fun w key hw F => by
      simp only [CsmcResampling.multinomial, Rand.E_bind, Rand.pure_eq, Rand.E_ret, Bool.false_eq_true,
        if_false]
      rw [E_choices hw.nonneg (Weights.total_pos hw)]
      refine Finset.sum_congr rfl fun A _ => ?_
      simp only [cat_normalised hw])
    fun key => C02_csmc_multinomial_unbiased key i j

/-! ### C19: output structure -/

theorem filter_scan_emit (m : Funs N U V) (res : Smc.Resampling N) : ∀ (is : List (StepIn V))
    (s : (Fin N → U) × ℝ),
    (fun r => (r.2.getLastD s.1, r.1.2)) <$> Rand.scan (filterBody m res id) s is
      = Prod.fst <$> Rand.scan (filterBody m res fun _ => ()) s is
  | [], s => rfl
  | i :: is, s => by
    simp only [Rand.scan, filterBody, map_bind, bind_assoc, pure_bind, map_pure, id,
      List.getLastD_cons]
    refine bind_congr fun us => bind_congr fun A => ?_
    have := filter_scan_emit m res is (take us A, s.2 - (logsumexp (m.lik i.1 s.1 i.2.1 i.2.2.1) - Real.log N))
    simp only [map_eq_pure_bind] at this
    exact this

/-- **C19.** Asking for the last particles only gives the same particles and the same `nell` as the last
row of the full result: the two programs, run with the same key, are the same up to this projection. -/
theorem C19_return_last (m : Funs N U V) (res : Smc.Resampling N) (vs : Arr1 V) (ts : Arr1 ℝ) (key : Key)
    (log : Bool) :
    bootstrapFilter m res vs ts key log true
      = (fun out => FilterOut.last out.final out.nell) <$> bootstrapFilter m res vs ts key log false := by
  simp only [bootstrapFilter, if_true, Bool.false_eq_true, if_false, map_bind, map_pure, FilterOut.final,
    FilterOut.nell]
  refine bind_congr fun x => ?_
  have := congrArg (fun p => (fun r => FilterOut.last r.1 r.2) <$> p)
    (filter_scan_emit m res (Smc.scanInputs vs ts (splitAll (split key 2 1) vs.2.length)) (x, 0))
  simp only [map_eq_pure_bind, bind_assoc, pure_bind] at this
  rw [← this]
  refine bind_congr fun r => ?_
  congr 2
  cases hr : r.2 <;> simp [Arr1.last, List.getLastD]

theorem returns_filterBody {ο : Type} {m : Funs N U V} {res : Smc.Resampling N} {emit : (Fin N → U) → ο}
    {x : Fin N → U} {l : ℝ} {i : StepIn V} {r : ((Fin N → U) × ℝ) × ο}
    (h : (filterBody m res emit (x, l) i).Returns r) :
    r.1.2 = l - (logsumexp (m.lik i.1 x i.2.1 i.2.2.1) - Real.log N) ∧ r.2 = emit r.1.1 := by
  simp only [filterBody] at h
  obtain ⟨us, -, h⟩ := Rand.returns_bind.1 h
  obtain ⟨A, -, h⟩ := Rand.returns_bind.1 h
  simp only [Rand.pure_eq, Rand.returns_ret] at h
  subst h
  exact ⟨rfl, rfl⟩

theorem returns_filter_scan_length {ο : Type} {m : Funs N U V} {res : Smc.Resampling N}
    {emit : (Fin N → U) → ο} : ∀ (is : List (StepIn V)) (s : (Fin N → U) × ℝ)
    (r : ((Fin N → U) × ℝ) × List ο), (Rand.scan (filterBody m res emit) s is).Returns r →
    r.2.length = is.length
  | [], s, r, h => by
    simp only [Rand.scan, Rand.pure_eq, Rand.returns_ret] at h
    simp [h]
  | i :: is, s, r, h => by
    obtain ⟨r1, h1, h⟩ := Rand.returns_bind.1 h
    obtain ⟨rs, h2, h⟩ := Rand.returns_bind.1 h
    simp only [Rand.pure_eq, Rand.returns_ret] at h
    subst h
    simp [returns_filter_scan_length is _ _ h2]

theorem smc_scanInputs_length (vs : Arr1 V) (ts : Arr1 ℝ) (ks : List Key) (ht : ts.2.length = vs.2.length)
    (hk : ks.length = vs.2.length) : (Smc.scanInputs vs ts ks).length = vs.2.length := by
  simp [Smc.scanInputs, Arr1.init, ht, hk]

/-- **C19.** The full result has one row per observation time; row 0 is the initial draw. -/
theorem C19_rows (m : Funs N U V) (res : Smc.Resampling N) (vs : Arr1 V) (ts : Arr1 ℝ) (key : Key)
    (log : Bool) (ht : ts.2.length = vs.2.length) {out : FilterOut N U}
    (h : (bootstrapFilter m res vs ts key log false).Returns out) :
    ∃ uss nell, out = .path uss nell ∧ uss.toList.length = vs.2.length + 1 ∧
      (m.initSampler (split key 2 0) vs.1 N).Returns uss.1 := by
  simp only [bootstrapFilter, Bool.false_eq_true, if_false] at h
  obtain ⟨x, hx, h⟩ := Rand.returns_bind.1 h
  obtain ⟨r, hr, h⟩ := Rand.returns_bind.1 h
  simp only [Rand.pure_eq, Rand.returns_ret] at h
  refine ⟨_, _, h, ?_, hx⟩
  have := returns_filter_scan_length _ _ _ hr
  rw [smc_scanInputs_length vs ts _ ht (by simp [splitAll])] at this
  simp [Arr1.toList, this]

theorem filter_scan_nell_zero [NeZero N] {ο : Type} {m : Funs N U V} (hm : ∀ v us v' t i, m.lik v us v' t i = 0)
    {res : Smc.Resampling N} {emit : (Fin N → U) → ο} : ∀ (is : List (StepIn V)) (s : (Fin N → U) × ℝ)
    (r : ((Fin N → U) × ℝ) × List ο), (Rand.scan (filterBody m res emit) s is).Returns r → r.1.2 = s.2
  | [], s, r, h => by
    simp only [Rand.scan, Rand.pure_eq, Rand.returns_ret] at h
    simp [h]
  | i :: is, s, r, h => by
    obtain ⟨r1, h1, h⟩ := Rand.returns_bind.1 h
    obtain ⟨rs, h2, h⟩ := Rand.returns_bind.1 h
    simp only [Rand.pure_eq, Rand.returns_ret] at h
    subst h
    show rs.1.2 = s.2
    rw [filter_scan_nell_zero hm is _ _ h2, (returns_filterBody h1).1]
    simp [logsumexp, hm]

/-- **C19.** If every likelihood is one (log likelihood zero), `nell` is zero, for every draw. -/
theorem C19_unit_likelihood [NeZero N] {m : Funs N U V} (hm : ∀ v us v' t i, m.lik v us v' t i = 0)
    (res : Smc.Resampling N) (vs : Arr1 V) (ts : Arr1 ℝ) (key : Key) (log rl : Bool) {out : FilterOut N U}
    (h : (bootstrapFilter m res vs ts key log rl).Returns out) : out.nell = 0 := by
  simp only [bootstrapFilter] at h
  obtain ⟨x, hx, h⟩ := Rand.returns_bind.1 h
  cases rl <;> simp only [Bool.false_eq_true, if_false, if_true] at h <;>
  · obtain ⟨r, hr, h⟩ := Rand.returns_bind.1 h
    simp only [Rand.pure_eq, Rand.returns_ret] at h
    subst h
    exact filter_scan_nell_zero hm _ _ _ hr

/-- **C19 fails for the `log` flag.** The documentation promises that with `log=False` the function
receives the density itself.  The flag is ignored: for a model with constant density one the two calls
always return different values. -/
theorem C19_log_flag_wrong :
    ∃ (m : Funs 1 Unit Unit) (vs : Arr1 Unit) (ts : Arr1 ℝ), (∀ v us v' t i, 0 < m.lik v us v' t i) ∧
      ∀ (key : Key) (rl : Bool),
        (∃ out, (bootstrapFilter m Resampling.stratified vs ts key false rl).Returns out) ∧
        ∀ out out',
          (bootstrapFilter m Resampling.stratified vs ts key false rl).Returns out →
          (bootstrapFilter { m with lik := fun v us v' t i => Real.log (m.lik v us v' t i) }
            Resampling.stratified vs ts key true rl).Returns out' → out.nell ≠ out'.nell := by
  let m : Funs 1 Unit Unit := ⟨fun _ _ _ => pure fun _ => (), fun x _ _ _ => pure x, fun _ _ _ _ _ => 1⟩
  refine ⟨m, ((), [()]), (0, [1]), fun _ _ _ _ _ => one_pos, fun key rl => ⟨?_, ?_⟩⟩
  · refine Rand.Live.returns ?_
    have hres : ∀ w k, (Resampling.stratified (n := 1) w k).Live := fun w k =>
      Rand.Live.map _ (live_uniforms k 1)
    unfold bootstrapFilter
    refine Rand.Live.bind (Rand.live_pure _) fun x => ?_
    cases rl <;> simp only [Bool.false_eq_true, if_false, if_true] <;>
    · refine Rand.Live.bind (Rand.Live.scan (fun s i => ?_) _ _) fun r => Rand.live_pure _
      exact Rand.Live.bind (Rand.live_pure _) fun us => Rand.Live.bind (hres _ _) fun A => Rand.live_pure _
  · intro out out' h h'
    rw [C19_unit_likelihood (by intros; exact Real.log_one) _ _ _ _ _ _ h']
    simp only [bootstrapFilter] at h
    obtain ⟨x, hx, h⟩ := Rand.returns_bind.1 h
    cases rl <;> simp only [Bool.false_eq_true, if_false, if_true] at h <;>
    · obtain ⟨r, hr, h⟩ := Rand.returns_bind.1 h
      simp only [Rand.pure_eq, Rand.returns_ret] at h
      subst h
      obtain ⟨r1, h1, hr⟩ := Rand.returns_bind.1 hr
      simp only [FilterOut.nell]
      have h2 := (returns_filterBody h1).1
      have h3 : r.1 = r1.1 := by
        obtain ⟨rs, h4, hr⟩ := Rand.returns_bind.1 hr
        have h5 : (pure (r1.1, []) : Rand _).Returns rs := h4
        simp only [Rand.pure_eq, Rand.returns_ret] at h5 hr
        rw [hr, h5]
      rw [h3, h2]
      simp [logsumexp, m]

/-! ### C17, C18: unbiasedness -/

variable [MeasurableSpace U]

/-- **C17.** The particle average of any function, weighted by `exp(-nell)`, has the unnormalised
filtering integral as its expectation. -/
theorem C17_filter_unbiased [NeZero N] {m : Funs N U V} {S : StateSpace U V} {res : Smc.Resampling N}
    (vs : Arr1 V) (ts : Arr1 ℝ) (hm : SmcImplements m S vs.1) (hres : UnbiasedSums res)
    (ht : ts.2.length = vs.2.length) (key : Key) (log rl : Bool) {φ : U → ℝ≥0∞} (hφ : Measurable φ) :
    (bootstrapFilter m res vs ts key log rl).E
        (fun out => ENNReal.ofReal (Real.exp (-out.nell)) * ((N : ℝ≥0∞)⁻¹ * ∑ i, φ (out.final i)))
      = S.filterInt vs ts φ := by
  have hrl : (bootstrapFilter m res vs ts key log rl).E
        (fun out => ENNReal.ofReal (Real.exp (-out.nell)) * ((N : ℝ≥0∞)⁻¹ * ∑ i, φ (out.final i)))
      = (bootstrapFilter m res vs ts key log true).E
        (fun out => ENNReal.ofReal (Real.exp (-out.nell)) * ((N : ℝ≥0∞)⁻¹ * ∑ i, φ (out.final i))) := by
    cases rl
    · rw [C19_return_last, Rand.E_map]
      rfl
    · rfl
  rw [hrl]
  simp only [bootstrapFilter, Rand.E_bind, Rand.pure_eq, Rand.E_ret, if_true, FilterOut.nell,
    FilterOut.final]
  have h1 : ∀ x, _ := fun x : Fin N → U => E_filter_scan hm hres (fun _ => ()) hφ vs.2 ts.2
    (splitAll (split key 2 1) vs.2.length) vs.1 ts.1 x 0 ht (by simp [splitAll])
  simp only [Prod.mk.eta] at h1
  simp only [h1, neg_zero, Real.exp_zero, ENNReal.ofReal_one, one_mul]
  have hmeas := measurable_pathInt_last hφ (S.steps vs.1 vs.2 (ts.1 :: ts.2))
  rw [hm.init, lintegral_init_avg S.init hmeas]
  · rfl
  · exact (Finset.measurable_fun_sum _ fun i _ => hmeas.comp (measurable_pi_apply i)).const_mul _

/-- **C17, marginal likelihood.** -/
theorem C17_likelihood_unbiased [NeZero N] {m : Funs N U V} {S : StateSpace U V} {res : Smc.Resampling N}
    (vs : Arr1 V) (ts : Arr1 ℝ) (hm : SmcImplements m S vs.1) (hres : UnbiasedSums res)
    (ht : ts.2.length = vs.2.length) (key : Key) (log rl : Bool) :
    (bootstrapFilter m res vs ts key log rl).E (fun out => ENNReal.ofReal (Real.exp (-out.nell)))
      = S.filterInt vs ts (fun _ => 1) := by
  rw [← C17_filter_unbiased vs ts hm hres ht key log rl measurable_const]
  refine Rand.E_congr _ fun out => ?_
  simp only [Finset.sum_const, Finset.card_univ, Fintype.card_fin, nsmul_eq_mul, mul_one]
  rw [ENNReal.inv_mul_cancel (by simp [NeZero.ne N]) (by simp), mul_one]

/-- **C18.** With initial particles drawn from the reference sampler, the particle average weighted by
`exp(log_ell)` of `pmcmc_filter_step` is unbiased. -/
theorem C18_pmcmc_filter_unbiased [NeZero N] {m : Funs N U V} {S : StateSpace U V}
    {res : Smc.Resampling N} (vs : Arr1 V) (ts : Arr1 ℝ) (hm : SmcImplements m S vs.1)
    (hres : UnbiasedSums res) (ht : ts.2.length = vs.2.length) (k₀ key : Key)
    {φ : U → ℝ≥0∞} (hφ : Measurable φ) :
    (m.initSampler k₀ vs.1 N >>= fun u0s => pmcmcFilterStep m res key vs u0s ts).E
        (fun out => ENNReal.ofReal (Real.exp out.2) * ((N : ℝ≥0∞)⁻¹ * ∑ i, φ (out.1 i)))
      = S.filterInt vs ts φ := by
  simp only [pmcmcFilterStep, Rand.E_bind, Rand.pure_eq, Rand.E_ret]
  have h1 : ∀ x, _ := fun x : Fin N → U => E_pmcmc_scan hm hres hφ vs.2 ts.2
    (splitAll key ts.2.length) vs.1 ts.1 x 0 ht (by simp [splitAll, ht])
  simp only [Prod.mk.eta] at h1
  simp only [h1, Real.exp_zero, ENNReal.ofReal_one, one_mul]
  have hmeas := measurable_pathInt_last hφ (S.steps vs.1 vs.2 (ts.1 :: ts.2))
  rw [hm.init, lintegral_init_avg S.init hmeas]
  · rfl
  · exact (Finset.measurable_fun_sum _ fun i _ => hmeas.comp (measurable_pi_apply i)).const_mul _

/-- **C18, marginal likelihood.** -/
theorem C18_likelihood_unbiased [NeZero N] {m : Funs N U V} {S : StateSpace U V}
    {res : Smc.Resampling N} (vs : Arr1 V) (ts : Arr1 ℝ) (hm : SmcImplements m S vs.1)
    (hres : UnbiasedSums res) (ht : ts.2.length = vs.2.length) (k₀ key : Key) :
    (m.initSampler k₀ vs.1 N >>= fun u0s => pmcmcFilterStep m res key vs u0s ts).E
        (fun out => ENNReal.ofReal (Real.exp out.2))
      = S.filterInt vs ts (fun _ => 1) := by
  rw [← C18_pmcmc_filter_unbiased vs ts hm hres ht k₀ key measurable_const]
  refine Rand.E_congr _ fun out => ?_
  simp only [Finset.sum_const, Finset.card_univ, Fintype.card_fin, nsmul_eq_mul, mul_one]
  rw [ENNReal.inv_mul_cancel (by simp [NeZero.ne N]) (by simp), mul_one]

/-! ### The hypotheses can be met -/

/-- Exact samplers for a model. -/
noncomputable def smcFuns (S : StateSpace U V) (N : ℕ) : Funs N U V where
  initSampler k _ _ := Rand.sample k Set.univ (Measure.pi fun _ => S.init)
  transSampler xs v t k := Rand.sample k Set.univ (Measure.pi fun i => S.trans v t (xs i))
  lik v xs v' t i := S.logG v v' t (xs i)

theorem implements_smcFuns (S : StateSpace U V) (N : ℕ) (v0 : V) : SmcImplements (smcFuns S N) S v0 where
  init _ _ _ _ := rfl
  trans _ _ _ _ _ _ := rfl
  lik _ _ _ _ _ := rfl

example (key : Key) : (bootstrapFilter (smcFuns exampleModel 3) Resampling.stratified (0, [1, 2]) (0, [1, 2])
    key true true).E (fun out => ENNReal.ofReal (Real.exp (-out.nell)))
      = exampleModel.filterInt (0, [1, 2]) (0, [1, 2]) (fun _ => 1) :=
  C17_likelihood_unbiased (0, [1, 2]) (0, [1, 2]) (implements_smcFuns exampleModel 3 0) sums_stratified rfl
    key true true

example (key : Key) : ((smcFuns exampleModel 3).initSampler (split key 2 0) 0 3 >>= fun u0s =>
    pmcmcFilterStep (smcFuns exampleModel 3) Resampling.systematic (split key 2 1) (0, [1, 2]) u0s (0, [1, 2])).E
      (fun out => ENNReal.ofReal (Real.exp out.2))
      = exampleModel.filterInt (0, [1, 2]) (0, [1, 2]) (fun _ => 1) :=
  C18_likelihood_unbiased (0, [1, 2]) (0, [1, 2]) (implements_smcFuns exampleModel 3 0) sums_systematic rfl
    (split key 2 0) (split key 2 1)

end Props
end Fbs
