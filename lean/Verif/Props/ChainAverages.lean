import Verif.Lemmas.StoreLoop
import Verif.Lemmas.GibbsKer
import Verif.Props.Ergodic
import Verif.Props.PmcmcErgodic
import Verif.Props.ExpKeys
import Mathlib.MeasureTheory.Integral.Average

/-!
# C93: averages over the stored samples
-/

open MeasureTheory ProbabilityTheory
open scoped ENNReal

namespace Fbs
namespace Props

open Jax Spec Csmc Gibbs Chains

variable {n : ℕ} {U V Z : Type} [MeasurableSpace U] [MeasurableSpace V]

/-- Mean square error of one chain with contraction factor `ρ`. -/
noncomputable def chainErr (ρ : ℝ) (nsamples : ℕ) : ℝ := (1 + ρ) / (1 - ρ) / nsamples

/-- Mean square error of `nchains` independent chains with contraction factor `ρ`: a variance divided by the number of kept
samples of all chains, and the squared bias of the start, which decays geometrically with the burn-in. -/
noncomputable def poolErr (ρ : ℝ) (burnin nsamples nchains : ℕ) : ℝ :=
  (1 + ρ) / (1 - ρ) / (nsamples * nchains) + (ρ ^ burnin * (ρ / (1 - ρ)) / nsamples) ^ 2

/-- The average of the values of `F` over a list of samples. -/
noncomputable def sampleMean (F : U → ℝ) (l : List U) : ℝ := (l.map F).sum / l.length

/-- The average over the samples of all chains. -/
noncomputable def chainsMean {C : ℕ} (F : U → ℝ) (l : List (Fin C → U)) : ℝ :=
  (l.map fun x => ∑ c, F (x c)).sum / (l.length * C)

omit [MeasurableSpace V] in
theorem gibbs_runs [NeZero n] {ef : Bool} {m : Gibbs.Funs (rows n ef) U V Z} {K : ℕ} (hsh : PathShape m K) (margY eb : Bool)
    {y0 : V} {ts : Arr1 ℝ} (hts : ts.2.length = K) {η : Kernel U U}
    (hη : ∀ key x (bs : Arr1 (Fin (rows n ef))), bs.2.length = K → ∀ F, Measurable F →
      (gibbsKernel ef m margY eb key x y0 bs ts).E (fun out => F out.1) = ∫⁻ u, F u ∂(η x)) :
    Runs (gibbsNext ef m margY eb y0 ts) Prod.fst (fun s => s.2.2.length = K) η where
  keep k s hs := (leaves_gibbs_length hsh margY eb k s.1 y0 hs hts).bind fun out h => by
    show (asIdx s.2 out.2.2.1).2.length = K
    match hl : out.2.2.1 with
    | [] => simp [hl] at h
    | b :: l => simpa [hl, asIdx] using h
  law k s hs F hF := by
    simp only [gibbsNext, Rand.E_bind, Rand.pure_eq, Rand.E_ret]
    exact hη k s.1 s.2 hs F hF

omit [MeasurableSpace V] in
theorem gibbsLoop_iter [NeZero n] {ef : Bool} {m : Gibbs.Funs (rows n ef) U V Z} {K : ℕ} {margY eb : Bool}
    {y0 : V} {ts : Arr1 ℝ} {η : Kernel U U}
    (hr : Runs (gibbsNext ef m margY eb y0 ts) Prod.fst (fun s => s.2.2.length = K) η) {F : U → ℝ≥0∞} (hF : Measurable F) :
    ∀ (k : ℕ) (key : Key) (x : U) (bs : Arr1 (Fin (rows n ef))), bs.2.length = K →
      (gibbsLoop ef m margY eb y0 ts k key x bs).E (fun out => F out.1) = iterInt η F k x
  | 0, _, _, _, _ => rfl
  | k + 1, key, x, bs, hb => by
    rw [iterInt, ← hr.law (split key 2 1) (x, bs) hb _ (measurable_iterInt hF k)]
    have e : (gibbsLoop ef m margY eb y0 ts (k + 1) key x bs).E (fun out => F out.1)
        = (gibbsNext ef m margY eb y0 ts (split key 2 1) (x, bs)).E fun s =>
          (gibbsLoop ef m margY eb y0 ts k (split key 2 0) s.1 s.2).E fun out => F out.1 := by
      simp only [gibbsLoop, gibbsNext, Rand.E_bind, Rand.pure_eq, Rand.E_ret]
    rw [e]
    exact Rand.E_congr_leaves (hr.keep _ (x, bs) hb) fun s hs => gibbsLoop_iter hr hF k _ s.1 s.2 hs

/-- From closeness of expectations to closeness to the normalised target. -/
theorem near_average {π0 : Measure U} [IsFiniteMeasure π0] (h0 : π0 ≠ 0) {F : U → ℝ} (hF : Measurable F) (hF0 : ∀ x, 0 ≤ F x)
    (hF1 : ∀ x, F x ≤ 1) {a r : ℝ≥0∞} (ha : a ≤ 1) (hr : r ≤ 1) (k : ℕ)
    (h : a * π0 Set.univ ≤ ∫⁻ u, ENNReal.ofReal (F u) ∂π0 + r ^ k * π0 Set.univ)
    (h' : ∫⁻ u, ENNReal.ofReal (F u) ∂π0 ≤ a * π0 Set.univ + r ^ k * π0 Set.univ) :
    |a.toReal - ⨍ u, F u ∂π0| ≤ r.toReal ^ k := by
  have hz : 0 < π0.real Set.univ := by
    rw [measureReal_def]
    exact ENNReal.toReal_pos (fun h => h0 (Measure.measure_univ_eq_zero.1 h)) (measure_ne_top _ _)
  have hat : a ≠ ∞ := ne_top_of_le_ne_top ENNReal.one_ne_top ha
  have hrt : r ^ k ≠ ∞ := ENNReal.pow_ne_top (ne_top_of_le_ne_top ENNReal.one_ne_top hr)
  have hI : ∫⁻ u, ENNReal.ofReal (F u) ∂π0 ≠ ∞ := by
    refine ne_top_of_le_ne_top (measure_ne_top π0 Set.univ) ?_
    rw [← lintegral_one]
    exact lintegral_mono fun u => ENNReal.ofReal_le_one.2 (hF1 u)
  have hm := abs_toReal_sub_le (ENNReal.mul_ne_top hat (measure_ne_top _ _)) hI
    (ENNReal.mul_ne_top hrt (measure_ne_top _ _)) h h'
  rw [average_eq, integral_eq_lintegral_of_nonneg_ae (.of_forall hF0) hF.aestronglyMeasurable, smul_eq_mul]
  rw [ENNReal.toReal_mul, ENNReal.toReal_mul, ENNReal.toReal_pow, ← measureReal_def] at hm
  set z := π0.real Set.univ
  set i := (∫⁻ u, ENNReal.ofReal (F u) ∂π0).toReal
  have e : a.toReal - z⁻¹ * i = (a.toReal * z - i) / z := by field_simp
  rw [e, abs_div, abs_of_pos hz, div_le_iff₀ hz]
  exact hm

theorem average_mem {π0 : Measure U} [IsFiniteMeasure π0] (h0 : π0 ≠ 0) {F : U → ℝ} (hF : Measurable F) (hF0 : ∀ x, 0 ≤ F x)
    (hF1 : ∀ x, F x ≤ 1) : 0 ≤ ⨍ u, F u ∂π0 ∧ ⨍ u, F u ∂π0 ≤ 1 := by
  have hz : 0 < π0.real Set.univ := by
    rw [measureReal_def]
    exact ENNReal.toReal_pos (fun h => h0 (Measure.measure_univ_eq_zero.1 h)) (measure_ne_top _ _)
  rw [average_eq, smul_eq_mul]
  refine ⟨mul_nonneg (inv_nonneg.2 hz.le) (integral_nonneg hF0), ?_⟩
  rw [inv_mul_le_one₀ hz]
  have hi : Integrable F π0 := .of_bound hF.aestronglyMeasurable 1
    (.of_forall fun u => by rw [Real.norm_eq_abs, abs_of_nonneg (hF0 u)]; exact hF1 u)
  calc ∫ u, F u ∂π0 ≤ ∫ _, (1 : ℝ) ∂π0 := integral_mono hi (integrable_const _) hF1
    _ = _ := by simp

theorem iterInt_le_one {κ : Kernel U U} [IsMarkovKernel κ] {F : U → ℝ≥0∞} (h1 : ∀ x, F x ≤ 1) : ∀ k x, iterInt κ F k x ≤ 1
  | 0, x => h1 x
  | k + 1, x => (lintegral_mono (iterInt_le_one h1 k)).trans (by simp)

theorem one_sub_lt {r : ℝ≥0∞} (hr : r ≠ 0) : (1 - r).toReal < 1 := by
  have h : 1 - r < 1 := ENNReal.sub_lt_self ENNReal.one_ne_top one_ne_zero hr
  simpa using (ENNReal.toReal_lt_toReal h.ne_top ENNReal.one_ne_top).2 h

/-- Both bounds, from a chain whose expectations are close to those of the target. -/
theorem averages_of_close {σ τ : Type} [MeasurableSpace τ] {next : Key → σ → Rand σ} {p : σ → τ} {G : σ → Prop}
    {κ : Kernel τ τ} [IsMarkovKernel κ] (hr : Runs next p G κ) {A : Set τ} (hA : ∀ x ∈ A, ∀ᵐ u ∂(κ x), u ∈ A)
    (hGA : ∀ s, G s → p s ∈ A) {F : τ → ℝ} (hF : Measurable F) (h0 : ∀ x, 0 ≤ F x) (h1 : ∀ x, F x ≤ 1)
    {m ρ : ℝ} (hm0 : 0 ≤ m) (hm1 : m ≤ 1) (hρ0 : 0 ≤ ρ) (hρ : ρ < 1)
    (he : ∀ k, ∀ x ∈ A, |(iterInt κ (fun x => ENNReal.ofReal (F x)) k x).toReal - m| ≤ ρ ^ k) (burnin : ℕ) {nsamples : ℕ}
    (hn : nsamples ≠ 0) (key : Key) :
    (∀ s, G s → (storeLoop next p (burnin + nsamples) key s).E
        (fun l => ENNReal.ofReal ((sampleMean F (l.drop burnin) - m) ^ 2)) ≤ ENNReal.ofReal (chainErr ρ nsamples)) ∧
    ∀ {C : ℕ}, C ≠ 0 → ∀ s : Fin C → σ, (∀ c, G (s c)) →
      (storeLoop (vmapNext C next) (fun s c => p (s c)) (burnin + nsamples) key s).E
        (fun l => ENNReal.ofReal ((chainsMean F (l.drop burnin) - m) ^ 2)) ≤ ENNReal.ofReal (poolErr ρ burnin nsamples C) := by
  constructor
  · intro s hs
    refine le_of_eq_of_le (Rand.E_congr_leaves (leaves_store_length _ key s) fun l hl => ?_)
      (one_chain_mse hr hF h0 h1 hm0 hm1 hρ0 hρ hA he burnin hn key hs (hGA s hs))
    rw [sampleMean, List.length_drop, hl, Nat.add_sub_cancel_left]
  · intro C hC s hs
    refine le_of_eq_of_le (Rand.E_congr_leaves (leaves_store_length _ key s) fun l hl => ?_)
      (pooled_mse hr hF h0 h1 hm0 hm1 hρ0 hρ hA he burnin hn hC key hs fun c => hGA _ (hs c))
    rw [chainsMean, List.length_drop, hl, Nat.add_sub_cancel_left]

theorem tendsto_chainErr (ρ : ℝ) : Filter.Tendsto (chainErr ρ) Filter.atTop (nhds 0) :=
  tendsto_const_div_atTop_nhds_zero_nat _

theorem tendsto_poolErr (ρ : ℝ) (b C : ℕ) : Filter.Tendsto (fun n => poolErr ρ b n C) Filter.atTop (nhds 0) := by
  have h1 : Filter.Tendsto (fun n : ℕ => (1 + ρ) / (1 - ρ) / C / (n : ℝ)) Filter.atTop (nhds 0) :=
    tendsto_const_div_atTop_nhds_zero_nat _
  have h2 : Filter.Tendsto (fun n : ℕ => ρ ^ b * (ρ / (1 - ρ)) / (n : ℝ)) Filter.atTop (nhds 0) :=
    tendsto_const_div_atTop_nhds_zero_nat _
  have h := h1.add (h2.pow 2)
  simp only [ne_eq, OfNat.ofNat_ne_zero, not_false_eq_true, zero_pow, add_zero] at h
  refine h.congr fun n => ?_
  rw [poolErr, div_div _ (C : ℝ), mul_comm (C : ℝ)]

/-- A vanishing mean square error makes large deviations unlikely. -/
theorem tendsto_dev {α : Type} {q : ℕ → Rand α} {X : ℕ → α → ℝ} {B : ℕ → ℝ} (hB : Filter.Tendsto B Filter.atTop (nhds 0))
    (h : ∀ n, n ≠ 0 → (q n).E (fun a => ENNReal.ofReal (X n a ^ 2)) ≤ ENNReal.ofReal (B n)) {ε : ℝ} (hε : 0 < ε) :
    Filter.Tendsto (fun n => (q n).E fun a => if ε ≤ |X n a| then 1 else 0) Filter.atTop (nhds 0) := by
  have hl : Filter.Tendsto (fun n => ENNReal.ofReal (B n / ε ^ 2)) Filter.atTop (nhds 0) := by
    have := ENNReal.tendsto_ofReal (hB.div_const (ε ^ 2))
    simpa using this
  refine tendsto_of_tendsto_of_tendsto_of_le_of_le' tendsto_const_nhds hl (.of_forall fun _ => bot_le) ?_
  filter_upwards [Filter.eventually_ne_atTop 0] with n hn
  exact E_dev_le _ _ (h n hn) hε

/-! ### The Gibbs chains -/

section

variable {K : ℕ} [NeZero n] {S : StateSpace U V} {π0 : Measure U} [IsFiniteMeasure π0] {y0 : V} {ts : Arr1 ℝ}
  {F : U → ℝ}

/-- **C93, Gibbs chains, `explicit_final=False`.**  For every function with values in `[0, 1]`, every start and every burn-in,
the mean square error of the average over the kept samples, as an estimate of the expectation under the normalised target, is
at most `(1 + ρ) / ((1 - ρ) nsamples)` for one chain, where `1 - ρ` is the rate of C82; for `nchains` chains run side by side
the first term is divided by `nchains`, and the second, the squared bias of the start, is of order `ρ ^ (2 burnin) / nsamples ^ 2`. -/
theorem C93_gibbs_averages {m : Gibbs.Funs (rows n false) U V Z} (hS : S.JointMeas) (hm : BackwardExact m S π0 y0 ts K)
    (h0 : π0 ≠ 0) (hsh : PathShape m K) (hfm : FwdMeas m y0 K) (hpk : PathsKer m false y0 ts K) (hts : ts.2.length = K) (eb : Bool)
    (hreg : eb = true → ∀ v v' t (x : Fin (rows n false) → U), Regular (normalise fun i => S.logG v v' t (x i)))
    {β : ℝ} (hβ : ∀ v v' t u, S.logG v v' t u ≤ β) {Λ : Measure (U × (Fin (K + 1) → V))} (hΛ : MinorPinned m false y0 ts Λ)
    (hrate : pinnedRate eb n β S ts Λ ≠ 0) (hF : Measurable F) (hF0 : ∀ x, 0 ≤ F x) (hF1 : ∀ x, F x ≤ 1) (burnin : ℕ)
    {nsamples : ℕ} (hns : nsamples ≠ 0) (key : Key) :
    (∀ s : U × Arr1 (Fin (rows n false)), s.2.2.length = K →
      (gibbsSamples false m false eb y0 ts (burnin + nsamples) key s).E
        (fun l => ENNReal.ofReal ((sampleMean F (l.drop burnin) - ⨍ u, F u ∂π0) ^ 2))
          ≤ ENNReal.ofReal (chainErr (1 - pinnedRate eb n β S ts Λ).toReal nsamples)) ∧
    ∀ {C : ℕ}, C ≠ 0 → ∀ s : Fin C → U × Arr1 (Fin (rows n false)), (∀ c, (s c).2.2.length = K) →
      (gibbsChains C false m false eb y0 ts (burnin + nsamples) key s).E
        (fun l => ENNReal.ofReal ((chainsMean F (l.drop burnin) - ⨍ u, F u ∂π0) ^ 2))
          ≤ ENNReal.ofReal (poolErr (1 - pinnedRate eb n β S ts Λ).toReal burnin nsamples C) := by
  obtain ⟨η, hη, hE⟩ := gibbs_ker hS hm.trans hm.lik hm.starts hsh false eb hts hpk
  have hr := gibbs_runs hsh false eb hts hE
  have hFm : Measurable fun u => ENNReal.ofReal (F u) := ENNReal.measurable_ofReal.comp hF
  have hb0 : ((0, List.replicate K 0) : Arr1 (Fin (rows n false))).2.length = K := by simp
  obtain ⟨a0, a1⟩ := average_mem h0 hF hF0 hF1
  refine averages_of_close hr (A := Set.univ) (fun _ _ => .of_forall fun _ => trivial) (fun _ _ => trivial) hF hF0 hF1 a0 a1
    ENNReal.toReal_nonneg (one_sub_lt hrate) (fun k x _ => ?_) burnin hns key
  have h := C82_gibbs_converges hS hm hsh hfm hts eb hreg hβ hΛ hFm (fun x => ENNReal.ofReal_le_one.2 (hF1 x)) x hb0 k key
  rw [gibbsLoop_iter hr hFm k key x _ hb0] at h
  exact near_average h0 hF hF0 hF1 (iterInt_le_one (fun x => ENNReal.ofReal_le_one.2 (hF1 x)) k x) tsub_le_self k h.1 h.2

/-- **C93, Gibbs chains, `explicit_final=True`**, for the target of `C15_explicit_backward_partial`. -/
theorem C93_gibbs_final_averages {m : Gibbs.Funs (rows n true) U V Z} (hS : S.JointMeas) {ν : Measure U} [IsProbabilityMeasure ν]
    (hm : ReferenceExact m S ν π0 y0 ts K fun v u => S.logG (arr v).1 ((arr v).2.headD (arr v).1) ts.1 u)
    (h0 : π0 ≠ 0) (hsh : PathShape m K) (hfm : FwdMeas m y0 K) (hpk : PathsKer m false y0 ts K) (hts : ts.2.length = K) (eb : Bool)
    (hreg : eb = true → ∀ v v' t (x : Fin (rows n true) → U), Regular (normalise fun i => S.logG v v' t (x i)))
    {β : ℝ} (hβ : ∀ v v' t u, S.logG v v' t u ≤ β) {Λ : Measure (Fin (K + 1) → V)} (hΛ : MinorObs m false y0 ts Λ)
    (hrate : refRate eb n β S ν ts Λ ≠ 0) (hF : Measurable F) (hF0 : ∀ x, 0 ≤ F x) (hF1 : ∀ x, F x ≤ 1) (burnin : ℕ)
    {nsamples : ℕ} (hns : nsamples ≠ 0) (key : Key) :
    (∀ s : U × Arr1 (Fin (rows n true)), s.2.2.length = K →
      (gibbsSamples true m false eb y0 ts (burnin + nsamples) key s).E
        (fun l => ENNReal.ofReal ((sampleMean F (l.drop burnin) - ⨍ u, F u ∂π0) ^ 2))
          ≤ ENNReal.ofReal (chainErr (1 - refRate eb n β S ν ts Λ).toReal nsamples)) ∧
    ∀ {C : ℕ}, C ≠ 0 → ∀ s : Fin C → U × Arr1 (Fin (rows n true)), (∀ c, (s c).2.2.length = K) →
      (gibbsChains C true m false eb y0 ts (burnin + nsamples) key s).E
        (fun l => ENNReal.ofReal ((chainsMean F (l.drop burnin) - ⨍ u, F u ∂π0) ^ 2))
          ≤ ENNReal.ofReal (poolErr (1 - refRate eb n β S ν ts Λ).toReal burnin nsamples C) := by
  obtain ⟨η, hη, hE⟩ := gibbs_final_ker hS hm.trans hm.lik hm.normal hm.starts hsh false eb hts hpk
  have hr := gibbs_runs hsh false eb hts hE
  have hFm : Measurable fun u => ENNReal.ofReal (F u) := ENNReal.measurable_ofReal.comp hF
  have hb0 : ((0, List.replicate K 0) : Arr1 (Fin (rows n true))).2.length = K := by simp
  obtain ⟨a0, a1⟩ := average_mem h0 hF hF0 hF1
  refine averages_of_close hr (A := Set.univ) (fun _ _ => .of_forall fun _ => trivial) (fun _ _ => trivial) hF hF0 hF1 a0 a1
    ENNReal.toReal_nonneg (one_sub_lt hrate) (fun k x _ => ?_) burnin hns key
  have h := C82_gibbs_final_converges hS hm hsh hfm hts eb hreg hβ hΛ hFm (fun x => ENNReal.ofReal_le_one.2 (hF1 x)) x hb0 k key
  rw [gibbsLoop_iter hr hFm k key x _ hb0] at h
  exact near_average h0 hF hF0 hF1 (iterInt_le_one (fun x => ENNReal.ofReal_le_one.2 (hF1 x)) k x) tsub_le_self k h.1 h.2

/-- **C93, Gibbs chains, consistency.**  The averages over the kept samples converge in probability as `nsamples` grows. -/
theorem C93_gibbs_consistent {m : Gibbs.Funs (rows n false) U V Z} (hS : S.JointMeas) (hm : BackwardExact m S π0 y0 ts K)
    (h0 : π0 ≠ 0) (hsh : PathShape m K) (hfm : FwdMeas m y0 K) (hpk : PathsKer m false y0 ts K) (hts : ts.2.length = K) (eb : Bool)
    (hreg : eb = true → ∀ v v' t (x : Fin (rows n false) → U), Regular (normalise fun i => S.logG v v' t (x i)))
    {β : ℝ} (hβ : ∀ v v' t u, S.logG v v' t u ≤ β) {Λ : Measure (U × (Fin (K + 1) → V))} (hΛ : MinorPinned m false y0 ts Λ)
    (hΛ0 : Λ ≠ 0) (h2 : 2 ≤ n) (hF : Measurable F) (hF0 : ∀ x, 0 ≤ F x) (hF1 : ∀ x, F x ≤ 1) (burnin : ℕ) (key : Key)
    {ε : ℝ} (hε : 0 < ε) :
    (∀ s, s.2.2.length = K → Filter.Tendsto (fun nsamples => (gibbsSamples false m false eb y0 ts (burnin + nsamples) key s).E
        fun l => if ε ≤ |sampleMean F (l.drop burnin) - ⨍ u, F u ∂π0| then 1 else 0) Filter.atTop (nhds 0)) ∧
    ∀ {C : ℕ}, C ≠ 0 → ∀ s, (∀ c, (s c).2.2.length = K) → Filter.Tendsto (fun nsamples =>
      (gibbsChains C false m false eb y0 ts (burnin + nsamples) key s).E
        fun l => if ε ≤ |chainsMean F (l.drop burnin) - ⨍ u, F u ∂π0| then 1 else 0) Filter.atTop (nhds 0) :=
  ⟨fun s hs => tendsto_dev (tendsto_chainErr _) (fun _ hn => (C93_gibbs_averages hS hm h0 hsh hfm hpk hts eb hreg hβ hΛ
      (C82_pinned_rate_pos hS hts eb h2 β hΛ0).ne' hF hF0 hF1 burnin hn key).1 s hs) hε,
    fun hC s hs => tendsto_dev (tendsto_poolErr _ _ _) (fun _ hn => (C93_gibbs_averages hS hm h0 hsh hfm hpk hts eb hreg hβ hΛ
      (C82_pinned_rate_pos hS hts eb h2 β hΛ0).ne' hF hF0 hF1 burnin hn key).2 hC s hs) hε⟩

/-- **C93, Gibbs chains with `explicit_final=True`, consistency.**  The averages over the kept samples converge in probability as `nsamples` grows. -/
theorem C93_gibbs_final_consistent {m : Gibbs.Funs (rows n true) U V Z} (hS : S.JointMeas) {ν : Measure U} [IsProbabilityMeasure ν]
    (hm : ReferenceExact m S ν π0 y0 ts K fun v u => S.logG (arr v).1 ((arr v).2.headD (arr v).1) ts.1 u)
    (h0 : π0 ≠ 0) (hsh : PathShape m K) (hfm : FwdMeas m y0 K) (hpk : PathsKer m false y0 ts K) (hts : ts.2.length = K) (eb : Bool)
    (hreg : eb = true → ∀ v v' t (x : Fin (rows n true) → U), Regular (normalise fun i => S.logG v v' t (x i)))
    {β : ℝ} (hβ : ∀ v v' t u, S.logG v v' t u ≤ β) {Λ : Measure (Fin (K + 1) → V)} (hΛ : MinorObs m false y0 ts Λ)
    (hΛ0 : Λ ≠ 0) (hF : Measurable F) (hF0 : ∀ x, 0 ≤ F x) (hF1 : ∀ x, F x ≤ 1) (burnin : ℕ) (key : Key)
    {ε : ℝ} (hε : 0 < ε) :
    (∀ s, s.2.2.length = K → Filter.Tendsto (fun nsamples => (gibbsSamples true m false eb y0 ts (burnin + nsamples) key s).E
        fun l => if ε ≤ |sampleMean F (l.drop burnin) - ⨍ u, F u ∂π0| then 1 else 0) Filter.atTop (nhds 0)) ∧
    ∀ {C : ℕ}, C ≠ 0 → ∀ s, (∀ c, (s c).2.2.length = K) → Filter.Tendsto (fun nsamples =>
      (gibbsChains C true m false eb y0 ts (burnin + nsamples) key s).E
        fun l => if ε ≤ |chainsMean F (l.drop burnin) - ⨍ u, F u ∂π0| then 1 else 0) Filter.atTop (nhds 0) :=
  ⟨fun s hs => tendsto_dev (tendsto_chainErr _) (fun _ hn => (C93_gibbs_final_averages hS hm h0 hsh hfm hpk hts eb hreg hβ hΛ
      (C82_ref_rate_pos hS hts eb β hΛ0).ne' hF hF0 hF1 burnin hn key).1 s hs) hε,
    fun hC s hs => tendsto_dev (tendsto_poolErr _ _ _) (fun _ hn => (C93_gibbs_final_averages hS hm h0 hsh hfm hpk hts eb hreg hβ hΛ
      (C82_ref_rate_pos hS hts eb β hΛ0).ne' hF hF0 hF1 burnin hn key).2 hC s hs) hε⟩

end

/-! ### The pMCMC chains -/

section

open Smc

variable {N K : ℕ} [NeZero N] [AddCommGroup V] [Module ℝ V]

theorem iterKernel_iter {σ : Type} [MeasurableSpace σ] {next : Key → σ → Rand σ} {κ : Kernel σ σ}
    (h : ∀ k s f, Measurable f → (next k s).E f = ∫⁻ u, f u ∂(κ s)) {f : σ → ℝ≥0∞} (hf : Measurable f) : ∀ (ks : List Key) (s : σ),
    (iterKernel next ks s).E f = iterInt κ f ks.length s
  | [], _ => rfl
  | k :: ks, s => by
    rw [iterKernel, Rand.E_bind, List.length_cons, iterInt, Rand.E_congr _ fun s' => iterKernel_iter h hf ks s']
    exact h k s _ (measurable_iterInt hf _)

/-- **C93, pMCMC chains.**  The same for the particles stored by the pMCMC loops with `delta=None`, any measurable resampling
and any start with `log_ell ≤ L`; the average estimates the expectation under the normalised extended target. -/
theorem C93_pmcmc_averages {m : Smc.Funs N U V} {ref : Kernel V U} [IsMarkovKernel ref] {S : StateSpace U V}
    (hm : PmcmcImplements m ref S) (hS : S.JointMeas) {res : Smc.Resampling N} (hres : MeasurableScheme res) (y0 : V)
    (ts : Fin (K + 1) → ℝ) {fwdYs : Key → V → Rand (Fin (K + 1) → V)} (sdeMean : ℝ → ℝ → V → V) (i : Fin N)
    {P : Measure (Fin (K + 1) → V)} [IsProbabilityMeasure P]
    (hP : ∀ k f, Measurable f → (fwdYs k y0).E f = ∫⁻ ys, f ys ∂P) {b L : ℝ}
    (hl : ∀ v us v' t i, m.lik v us v' t i ≤ b) (hL : K * b ≤ L) {F : U → ℝ} (hF : Measurable F) (hF0 : ∀ x, 0 ≤ F x)
    (hF1 : ∀ x, F x ≤ 1) (key₀ : Key) (burnin : ℕ) {nsamples : ℕ} (hns : nsamples ≠ 0) (key : Key) :
    (∀ s : U × ℝ × (Fin (K + 1) → V), s.2.1 ≤ L →
      (pmcmcSamples m res y0 ts fwdYs sdeMean none i (burnin + nsamples) key s).E
        (fun l => ENNReal.ofReal ((sampleMean F (l.drop burnin) -
          (extTarget m res ts i P key₀ (fun u _ _ => ENNReal.ofReal (F u)) / extTarget m res ts i P key₀ fun _ _ _ => 1).toReal) ^ 2))
          ≤ ENNReal.ofReal (chainErr (1 - pmcmcRate m res ts i P L).toReal nsamples)) ∧
    ∀ {C : ℕ}, C ≠ 0 → ∀ s : Fin C → U × ℝ × (Fin (K + 1) → V), (∀ c, (s c).2.1 ≤ L) →
      (pmcmcChains C m res y0 ts fwdYs sdeMean none i (burnin + nsamples) key s).E
        (fun l => ENNReal.ofReal ((chainsMean F (l.drop burnin) -
          (extTarget m res ts i P key₀ (fun u _ _ => ENNReal.ofReal (F u)) / extTarget m res ts i P key₀ fun _ _ _ => 1).toReal) ^ 2))
          ≤ ENNReal.ofReal (poolErr (1 - pmcmcRate m res ts i P L).toReal burnin nsamples C) := by
  have hprop : HasKer fun key ys => pmcmcProposal key ys y0 ts fwdYs sdeMean none :=
    ⟨Kernel.const _ P, inferInstance, fun k _ f hf => by rw [Kernel.const_apply]; exact hP _ f hf⟩
  obtain ⟨κ, hκ, hE⟩ := hasKer_pmcmcNext hm hS hres y0 ts fwdYs sdeMean none i hprop
  have hkeep : ∀ k (s : U × ℝ × (Fin (K + 1) → V)), s.2.1 ≤ L →
      (pmcmcNext m res y0 ts fwdYs sdeMean none i k s).Leaves fun s' => s'.2.1 ≤ L := fun k s hs =>
    (next_le y0 ts fwdYs sdeMean none i hl hL k s hs).leaves
  have hr : Runs (pmcmcStep m res y0 ts fwdYs sdeMean none i) id (fun s => s.2.1 ≤ L) κ :=
    ⟨hkeep, fun k s _ f hf => hE k s f hf⟩
  have hFm : Measurable fun s : U × ℝ × (Fin (K + 1) → V) => ENNReal.ofReal (F s.1) :=
    ENNReal.measurable_ofReal.comp (hF.comp measurable_fst)
  have hAm : MeasurableSet {s : U × ℝ × (Fin (K + 1) → V) | s.2.1 ≤ L} := measurableSet_le (by fun_prop) measurable_const
  have hrate := C83_rate_pos hm hS hres ts i P hl hL
  have hZk : ∀ k, extTarget m res ts i P k (fun _ _ _ => 1) = extTarget m res ts i P [] (fun _ _ _ => 1) := fun k => by
    obtain ⟨κ', hκ', h⟩ := hasKer_estimate hm hS hres ts i
    refine lintegral_congr fun ys => ?_
    have hme : Measurable fun p : U × ℝ => ENNReal.ofReal (Real.exp p.2) * 1 := by fun_prop
    rw [h _ _ _ hme, h _ _ _ hme]
  set Z := extTarget m res ts i P key₀ fun _ _ _ => 1 with hZ
  have hZ0 : Z ≠ 0 := fun h0 => by
    rw [pmcmcRate, ← hZk key₀, ← hZ, h0, mul_zero] at hrate
    exact lt_irrefl _ hrate.1
  have hZt : Z ≠ ∞ := fun h0 => by
    rw [pmcmcRate, ← hZk key₀, ← hZ, h0, ENNReal.mul_top (by simpa using Real.exp_pos _)] at hrate
    simp at hrate
  set I := extTarget m res ts i P key₀ fun u _ _ => ENNReal.ofReal (F u) with hI
  have hIZ : I ≤ Z := extTarget_mono hl hL ts i P key₀ fun u _ _ _ => ENNReal.ofReal_le_one.2 (hF1 u)
  have hIZ1 : I / Z ≤ 1 := ENNReal.div_le_of_le_mul (by rwa [one_mul])
  have hclose : ∀ k, ∀ s ∈ {s : U × ℝ × (Fin (K + 1) → V) | s.2.1 ≤ L},
      |(iterInt κ (fun s => ENNReal.ofReal (F s.1)) k s).toReal - (I / Z).toReal|
        ≤ (1 - pmcmcRate m res ts i P L).toReal ^ k := by
    intro k s hs
    have h := C83_pmcmc_converges hm hS hres y0 ts sdeMean i hP hl hL hFm (fun s => ENNReal.ofReal_le_one.2 (hF1 s.1)) hs key₀
      (List.replicate k [])
    rw [iterKernel_iter hE hFm, List.length_replicate] at h
    have hIe : I = I / Z * Z := (ENNReal.div_mul_cancel hZ0 hZt).symm
    change _ * Z ≤ I + _ * Z ∧ I ≤ _ * Z + _ * Z at h
    rw [hIe, ← add_mul, ← add_mul, ENNReal.mul_le_mul_iff_left hZ0 hZt, ENNReal.mul_le_mul_iff_left hZ0 hZt] at h
    rw [← ENNReal.toReal_pow]
    exact abs_toReal_sub_le
      (ne_top_of_le_ne_top ENNReal.one_ne_top (iterInt_le_one (fun s => ENNReal.ofReal_le_one.2 (hF1 s.1)) k s))
      (ne_top_of_le_ne_top ENNReal.one_ne_top hIZ1)
      (ENNReal.pow_ne_top (ne_top_of_le_ne_top ENNReal.one_ne_top tsub_le_self)) h.1 h.2
  have hA : ∀ x ∈ {s : U × ℝ × (Fin (K + 1) → V) | s.2.1 ≤ L}, ∀ᵐ u ∂(κ x), u ∈ {s : U × ℝ × (Fin (K + 1) → V) | s.2.1 ≤ L} := by
    intro x hx
    rw [ae_iff]
    change κ x {s | s.2.1 ≤ L}ᶜ = 0
    rw [← lintegral_indicator_one hAm.compl, ← hE [] x _ (measurable_one.indicator hAm.compl)]
    refine (Rand.E_congr_leaves (g := fun _ => 0) (hkeep [] x hx) fun s hs => ?_).trans ?_
    · simp [hs]
    · rw [hE [] x _ measurable_const]
      simp
  have hmain := averages_of_close hr hA (fun _ h => h) (F := fun s => F s.1)
    (hF.comp measurable_fst) (fun s => hF0 s.1) (fun s => hF1 s.1) ENNReal.toReal_nonneg
    (by simpa using ENNReal.toReal_mono ENNReal.one_ne_top hIZ1) ENNReal.toReal_nonneg (one_sub_lt hrate.1.ne') hclose burnin
    hns key
  refine ⟨fun s hs => ?_, fun {C} hC s hs => ?_⟩
  · refine le_of_eq_of_le ?_ (hmain.1 s hs)
    refine (E_store_map (p := id) Prod.fst _ _ _ _).trans (Rand.E_congr _ fun l => ?_)
    simp [sampleMean, List.map_drop, Function.comp_def]
  · refine le_of_eq_of_le ?_ (hmain.2 hC s hs)
    refine (E_store_map (p := fun (s : Fin C → U × ℝ × (Fin (K + 1) → V)) c => id (s c))
      (fun (x : Fin C → U × ℝ × (Fin (K + 1) → V)) c => (x c).1) _ _ _ _).trans (Rand.E_congr _ fun l => ?_)
    simp [chainsMean, List.map_drop, Function.comp_def]

/-- **C93, pMCMC, posterior.**  With exchangeable resampling (`killing`) and the separable dynamics implemented exactly the
averages estimate expectations under the posterior `π0`. -/
theorem C93_pmcmc_posterior_averages {m : Smc.Funs N U V} {ref : Kernel V U} [IsMarkovKernel ref] {S : StateSpace U V}
    (hm : PmcmcImplements m ref S) (hS : S.JointMeas) {res : Smc.Resampling N} (hres : UnbiasedSums res)
    (hres' : MeasurableScheme res) (hex : ExchangeableScheme res) (y0 : V)
    {ts : Fin (K + 1) → ℝ} {fwdYs : Key → V → Rand (Fin (K + 1) → V)} (sdeMean : ℝ → ℝ → V → V) (i : Fin N)
    {π0 : Measure U} [IsProbabilityMeasure π0] {P : Measure (Fin (K + 1) → V)} [IsProbabilityMeasure P]
    (hP : ∀ k f, Measurable f → (fwdYs k y0).E f = ∫⁻ ys, f ys ∂P) (hsep : SeparableExact S ref π0 P ts) {b L : ℝ}
    (hl : ∀ v us v' t i, m.lik v us v' t i ≤ b) (hL : K * b ≤ L) {F : U → ℝ} (hF : Measurable F) (hF0 : ∀ x, 0 ≤ F x)
    (hF1 : ∀ x, F x ≤ 1) (burnin : ℕ) {nsamples : ℕ} (hns : nsamples ≠ 0) (key : Key) :
    (∀ s : U × ℝ × (Fin (K + 1) → V), s.2.1 ≤ L →
      (pmcmcSamples m res y0 ts fwdYs sdeMean none i (burnin + nsamples) key s).E
        (fun l => ENNReal.ofReal ((sampleMean F (l.drop burnin) - ∫ u, F u ∂π0) ^ 2))
          ≤ ENNReal.ofReal (chainErr (1 - pmcmcRate m res ts i P L).toReal nsamples)) ∧
    ∀ {C : ℕ}, C ≠ 0 → ∀ s : Fin C → U × ℝ × (Fin (K + 1) → V), (∀ c, (s c).2.1 ≤ L) →
      (pmcmcChains C m res y0 ts fwdYs sdeMean none i (burnin + nsamples) key s).E
        (fun l => ENNReal.ofReal ((chainsMean F (l.drop burnin) - ∫ u, F u ∂π0) ^ 2))
          ≤ ENNReal.ofReal (poolErr (1 - pmcmcRate m res ts i P L).toReal burnin nsamples C) := by
  have h := C93_pmcmc_averages hm hS hres' y0 ts sdeMean i hP hl hL hF hF0 hF1 [] burnin hns key
  have hrate := C83_rate_pos hm hS hres' ts i P hl hL
  have hZ0 : extTarget m res ts i P [] (fun _ _ _ => 1) ≠ 0 := fun h0 => by
    rw [pmcmcRate, h0, mul_zero] at hrate
    exact lt_irrefl _ hrate.1
  have hZt : extTarget m res ts i P [] (fun _ _ _ => 1) ≠ ∞ := fun h0 => by
    rw [pmcmcRate, h0, ENNReal.mul_top (by simpa using Real.exp_pos _)] at hrate
    simp at hrate
  have hI := C21_posterior_partial hm hS hres hres' hex i hsep [] (φ := fun u => ENNReal.ofReal (F u))
    (ENNReal.measurable_ofReal.comp hF)
  rw [hI, ENNReal.mul_div_cancel_right hZ0 hZt, ← integral_eq_lintegral_of_nonneg_ae (.of_forall hF0) hF.aestronglyMeasurable] at h
  exact h

/-- **C93, pMCMC chains, consistency.**  The averages over the kept samples converge in probability as `nsamples` grows. -/
theorem C93_pmcmc_consistent {m : Smc.Funs N U V} {ref : Kernel V U} [IsMarkovKernel ref] {S : StateSpace U V}
    (hm : PmcmcImplements m ref S) (hS : S.JointMeas) {res : Smc.Resampling N} (hres : UnbiasedSums res)
    (hres' : MeasurableScheme res) (hex : ExchangeableScheme res) (y0 : V)
    {ts : Fin (K + 1) → ℝ} {fwdYs : Key → V → Rand (Fin (K + 1) → V)} (sdeMean : ℝ → ℝ → V → V) (i : Fin N)
    {π0 : Measure U} [IsProbabilityMeasure π0] {P : Measure (Fin (K + 1) → V)} [IsProbabilityMeasure P]
    (hP : ∀ k f, Measurable f → (fwdYs k y0).E f = ∫⁻ ys, f ys ∂P) (hsep : SeparableExact S ref π0 P ts) {b L : ℝ}
    (hl : ∀ v us v' t i, m.lik v us v' t i ≤ b) (hL : K * b ≤ L) {F : U → ℝ} (hF : Measurable F) (hF0 : ∀ x, 0 ≤ F x)
    (hF1 : ∀ x, F x ≤ 1) (burnin : ℕ) (key : Key)
    {ε : ℝ} (hε : 0 < ε) :
    (∀ s, s.2.1 ≤ L → Filter.Tendsto (fun nsamples => (pmcmcSamples m res y0 ts fwdYs sdeMean none i (burnin + nsamples) key s).E
        fun l => if ε ≤ |sampleMean F (l.drop burnin) - ∫ u, F u ∂π0| then 1 else 0) Filter.atTop (nhds 0)) ∧
    ∀ {C : ℕ}, C ≠ 0 → ∀ s, (∀ c, (s c).2.1 ≤ L) → Filter.Tendsto (fun nsamples =>
      (pmcmcChains C m res y0 ts fwdYs sdeMean none i (burnin + nsamples) key s).E
        fun l => if ε ≤ |chainsMean F (l.drop burnin) - ∫ u, F u ∂π0| then 1 else 0) Filter.atTop (nhds 0) :=
  ⟨fun s hs => tendsto_dev (tendsto_chainErr _) (fun _ hn => (C93_pmcmc_posterior_averages hm hS hres hres' hex y0 sdeMean i hP hsep hl hL
      hF hF0 hF1 burnin hn key).1 s hs) hε,
    fun hC s hs => tendsto_dev (tendsto_poolErr _ _ _) (fun _ hn => (C93_pmcmc_posterior_averages hm hS hres hres' hex y0 sdeMean i hP hsep hl hL
      hF hF0 hF1 burnin hn key).2 hC s hs) hε⟩

end

/-! ### Keys -/

omit [MeasurableSpace U] in
theorem consumes_storeLoop {σ τ : Type} {next : Key → σ → Rand σ} {p : σ → τ}
    (h : ∀ k s, Rand.Consumes {k} (next k s)) : ∀ (nsamples : ℕ) (key : Key) (s : σ),
    Rand.Consumes {key} (storeLoop next p nsamples key s)
  | 0, _, _ => Rand.consumes_pure _ _
  | nsamples + 1, key, s => Rand.Consumes.bind_split (i := 1) (j := 0) (by decide) (h _ _) fun s' =>
      Rand.Consumes.bind_pure (consumes_storeLoop h nsamples _ s') _

theorem consumes_vmapNext {σ : Type} {next : Key → σ → Rand σ} (h : ∀ k s, Rand.Consumes {k} (next k s)) (C : ℕ) (k : Key)
    (s : Fin C → σ) : Rand.Consumes {k} (vmapNext C next k s) :=
  consumes_vmapR fun _ => h _ _

omit [MeasurableSpace U] [MeasurableSpace V] in
/-- **C93, keys.**  In the loops that store the samples, of one chain and of several chains, every draw uses its own key,
derived from the key handed to the loop. -/
theorem C93_keys {N K : ℕ} [NeZero n] [NeZero N] [AddCommGroup V] [Module ℝ V] {ef : Bool} {m : Gibbs.Funs (rows n ef) U V Z}
    (hm : GibbsKeyed m) (margY eb : Bool) {sm : Smc.Funs N U V} (hsm : SmcKeyed sm) {res : Smc.Resampling N}
    (hres : ∀ w k, Rand.Consumes {k} (res w k)) {fwd : Key → V → Rand (Fin (K + 1) → V)}
    (hf : ∀ k y, Rand.Consumes {k} (fwd k y)) (y0 : V) (ts : Arr1 ℝ) (ts' : Fin (K + 1) → ℝ) (mean : ℝ → ℝ → V → V)
    (delta : Option ℝ) (i : Fin N) (C nsamples : ℕ) (key : Key) :
    (∀ s, FreshFrom key (gibbsSamples ef m margY eb y0 ts nsamples key s)) ∧
    (∀ s, FreshFrom key (gibbsChains C ef m margY eb y0 ts nsamples key s)) ∧
    (∀ s, FreshFrom key (pmcmcSamples sm res y0 ts' fwd mean delta i nsamples key s)) ∧
    ∀ s, FreshFrom key (pmcmcChains C sm res y0 ts' fwd mean delta i nsamples key s) := by
  have hg : ∀ k s, Rand.Consumes {k} (gibbsNext ef m margY eb y0 ts k s) := fun k s =>
    Rand.Consumes.bind_pure (consumes_gibbsKernel ef hm margY eb _ _ _ _ _) _
  have hp : ∀ k s, Rand.Consumes {k} (pmcmcStep sm res y0 ts' fwd mean delta i k s) := fun k s =>
    (consumes_pmcmcKernel hsm hres k s.1 s.2.1 s.2.2 y0 ts' hf mean delta i).map _
  exact ⟨fun s => (consumes_storeLoop hg _ key s).freshFrom, fun s => (consumes_storeLoop (consumes_vmapNext hg C) _ key s).freshFrom,
    fun s => (consumes_storeLoop hp _ key s).freshFrom, fun s => (consumes_storeLoop (consumes_vmapNext hp C) _ key s).freshFrom⟩

/-! ### The hypotheses can be met -/

section Example

theorem freshFuns_pathsKer {ef : Bool} (g : ℝ → ℝ → ℝ) (y0 t0 t1 : ℝ) :
    PathsKer (N := n) (freshFuns g (rows n ef)) false y0 (t0, [t1]) 1 := by
  have h2 : Measurable fun p : ℝ × (ℝ × ℝ) => ((![p.2.1, p.1], ![p.2.2, y0]) : (Fin 2 → ℝ) × (Fin 2 → ℝ)) := by
    refine (measurable_pi_iff.2 fun i => ?_).prodMk (measurable_pi_iff.2 fun i => ?_)
    · fin_cases i <;> simp <;> fun_prop
    · fin_cases i <;> simp; fun_prop
  refine ⟨((Kernel.id (α := ℝ)) ×ₖ (Kernel.const ℝ ((gaussianReal 0 1).prod (gaussianReal 0 1)))).map _, Kernel.IsMarkovKernel.map _ h2,
    fun key x φ hφ => ?_⟩
  unfold MeasPaths at hφ
  rw [Kernel.map_apply _ h2, lintegral_map hφ h2, Kernel.prod_apply, Kernel.id_apply, Kernel.const_apply,
    show (∫⁻ a, φ (arr (![a.2.1, a.1] : Fin 2 → ℝ)) (arr (![a.2.2, y0] : Fin 2 → ℝ))
        ∂((Measure.dirac x).prod ((gaussianReal 0 1).prod (gaussianReal 0 1)))) = _
      from (lintegral_prod _ (hφ.comp h2).aemeasurable).trans (lintegral_dirac' x (hφ.comp h2).lintegral_prod_right')]
  simp only [gibbsPaths, freshFuns, Rand.E_bind, Rand.E_map, Rand.E_sample, Rand.pure_eq, Rand.E_ret, Bool.false_eq_true,
    if_false]
  rfl

/-- Ten chains with the forced move, burn-in ten: the share of positive samples tends to the mass of the positive numbers. -/
example (key : Key) (s : Fin 10 → ℝ × Arr1 (Fin (rows 5 false))) (hs : ∀ c, (s c).2.2.length = 1) {ε : ℝ} (hε : 0 < ε) :
    Filter.Tendsto (fun nsamples => (gibbsChains 10 false (freshFuns (fun v _ => Real.cos v) (rows 5 false)) false true 2
      (0, [1]) (10 + nsamples) key s).E fun l => if ε ≤ |chainsMean ((Set.Ioi 0).indicator 1) (l.drop 10)
        - ⨍ u, (Set.Ioi (0 : ℝ)).indicator 1 u ∂(ENNReal.ofReal (Real.exp (Real.cos 2)) • gaussianReal 0 1)| then 1 else 0)
      Filter.atTop (nhds 0) :=
  haveI : IsFiniteMeasure (ENNReal.ofReal (Real.exp (Real.cos 2)) • gaussianReal 0 1) :=
    Measure.smul_finite _ ENNReal.ofReal_ne_top
  (C93_gibbs_consistent (freshS_jointMeas (g := fun v _ => Real.cos v) (by fun_prop))
    (freshFuns_exact Real.measurable_cos _ 2 0 1)
    (fun h => by
      have h := congrArg (fun μ => μ Set.univ) h
      simp at h
      exact absurd h (not_le.2 (Real.exp_pos _))) (freshFuns_shape _ _)
    (freshFuns_fwdMeas _ _ _) (freshFuns_pathsKer _ _ _ _) rfl true
    (fun _ v v' t x => regular_of_bounded fun i => Real.abs_cos_le_one _) (β := 1)
    (fun v _ _ _ => Real.cos_le_one v) (freshFuns_minor _ _ _ _) (freshEnd_ne 2) (by norm_num)
    (measurable_one.indicator measurableSet_Ioi) (fun x => Set.indicator_nonneg (fun _ _ => zero_le_one) x)
    (fun x => Set.indicator_le_self' (fun _ _ => zero_le_one) x) 10 key hε).2 (by norm_num) s hs

theorem exFuns_pathsKer {ef : Bool} (g : ℝ → ℝ → ℝ) (y0 t0 t1 : ℝ) :
    PathsKer (N := n) (exFuns g (rows n ef)) false y0 (t0, [t1]) 1 := by
  have h2 : Measurable fun p : ℝ × ℝ => ((![p.1, p.1], ![p.2, y0]) : (Fin 2 → ℝ) × (Fin 2 → ℝ)) := by
    refine (measurable_pi_iff.2 fun i => ?_).prodMk (measurable_pi_iff.2 fun i => ?_)
    · fin_cases i <;> simp <;> fun_prop
    · fin_cases i <;> simp; fun_prop
  refine ⟨((Kernel.id (α := ℝ)) ×ₖ (Kernel.const ℝ (gaussianReal 0 1))).map _, Kernel.IsMarkovKernel.map _ h2,
    fun key x φ hφ => ?_⟩
  unfold MeasPaths at hφ
  rw [Kernel.map_apply _ h2, lintegral_map hφ h2, Kernel.prod_apply, Kernel.id_apply, Kernel.const_apply,
    show (∫⁻ a, φ (arr (![a.1, a.1] : Fin 2 → ℝ)) (arr (![a.2, y0] : Fin 2 → ℝ))
        ∂((Measure.dirac x).prod (gaussianReal 0 1))) = _
      from (lintegral_prod _ (hφ.comp h2).aemeasurable).trans (lintegral_dirac' x (hφ.comp h2).lintegral_prod_right')]
  simp only [gibbsPaths, exFuns, Rand.E_bind, Rand.E_map, Rand.E_sample, Rand.pure_eq, Rand.E_ret, Bool.false_eq_true,
    if_false]
  rfl

/-- One chain with `explicit_final=True`. -/
example (key : Key) (x : ℝ) (b c : Fin (rows 5 true)) {F : ℝ → ℝ} (hF : Measurable F) (h0 : ∀ x, 0 ≤ F x) (h1 : ∀ x, F x ≤ 1)
    {ε : ℝ} (hε : 0 < ε) :
    Filter.Tendsto (fun nsamples => (gibbsSamples true (exFuns (fun _ u => Real.cos u) (rows 5 true)) false false 2 (0, [1])
        (10 + nsamples) key (x, b, [c])).E fun l => if ε ≤ |sampleMean F (l.drop 10) - ⨍ u, F u ∂((gaussianReal 0 1).withDensity
          fun u => ENNReal.ofReal (Real.exp (Real.cos u)) * ENNReal.ofReal (Real.exp (Real.cos u)))| then 1 else 0)
      Filter.atTop (nhds 0) := by
  have hg : Measurable fun p : ℝ × ℝ => Real.cos p.2 := by fun_prop
  have hm := exFuns_reference (g := fun _ u => Real.cos u) hg Real.measurable_cos (rows 5 true) 2 0 1
  have : IsFiniteMeasure ((gaussianReal 0 1).withDensity fun u =>
    ENNReal.ofReal (Real.exp (Real.cos u)) * ENNReal.ofReal (Real.exp (Real.cos u))) := by
    simpa using exTarget_finite 1
  have hne : ((gaussianReal 0 1).withDensity fun u =>
      ENNReal.ofReal (Real.exp (Real.cos u)) * ENNReal.ofReal (Real.exp (Real.cos u))) ≠ 0 := by
    rw [Ne, withDensity_eq_zero_iff (by fun_prop)]
    intro h
    have h2 : gaussianReal 0 1 Set.univ = 0 := by
      refine measure_mono_null (fun u _ => ?_) h
      exact mul_ne_zero (ENNReal.ofReal_pos.2 (Real.exp_pos _)).ne' (ENNReal.ofReal_pos.2 (Real.exp_pos _)).ne'
    simp at h2
  exact (C93_gibbs_final_consistent (exS_jointMeas (g := fun _ u => Real.cos u) hg) hm hne (exFuns_shape _ _)
    (exFuns_fwdMeas _ _ _) (exFuns_pathsKer _ _ _ _) rfl false (fun h => by simp at h) (β := 1)
    (fun _ _ _ u => Real.cos_le_one u) (exFuns_minorObs _ _ _ _) (exObs_ne 2) hF h0 h1 10 key hε).1 (x, b, [c]) rfl

open Smc in
/-- The coin: a hundred samples of one chain. -/
example (key : Key) (ts : Fin 2 → ℝ) (i : Fin 3) (y0 : ℝ) (u : Bool) (ys : Fin 2 → ℝ) :
    (pmcmcSamples (smcFuns coinSpace 3) Resampling.killing y0 ts (fun k _ => uniforms k 2) (fun _ _ y => y) none i
      (0 + 100) key (u, 0, ys)).E (fun l => ENNReal.ofReal ((sampleMean (fun u => if u then 1 else 0) (l.drop 0)
        - ∫ u, (if u then 1 else 0) ∂coinPosterior) ^ 2))
      ≤ ENNReal.ofReal (chainErr (1 - pmcmcRate (smcFuns coinSpace 3) Resampling.killing ts i
        (Measure.pi fun _ => unifMeasure) (Real.log 8)).toReal 100) :=
  (C93_pmcmc_posterior_averages (coin_implements 3) coin_jointMeas sums_killing scheme_killing exchangeable_killing y0
    (fun _ _ y => y) i (π0 := coinPosterior) (fun k f _ => rfl) (coin_separable _ ts) (coin_lik_le 3) (by simp)
    (F := fun u => if u then 1 else 0) (measurable_of_finite _) (fun u => by split_ifs <;> simp)
    (fun u => by split_ifs <;> simp) 0 (by norm_num) key).1 (u, 0, ys) (Real.log_nonneg (by norm_num))

/-- Functions whose samplers split their keys. -/
noncomputable def keyedGibbs : Gibbs.Funs (rows 3 false) ℝ ℝ ℝ where
  fwd k _ _ := (fun u => (u, [u])) <$> uniform k
  bridge k _ _ _ := (fun u => (u, [u])) <$> uniform k
  unpack p := (p, p)
  normal k _ := uniforms k 3
  transSampler := keyedSmc.transSampler
  transLogpdf _ x _ _ := x
  lik _ x _ _ := x

/-- Four chains of twenty samples, both loops. -/
example (y0 : ℝ) (ts' : Fin 3 → ℝ) (delta : Option ℝ) (key : Key) :
    (∀ s, FreshFrom key (gibbsChains 4 false keyedGibbs false true y0 (0, [1]) 20 key s)) ∧
    ∀ s, FreshFrom key (pmcmcChains 4 keyedSmc Resampling.killing y0 ts' (fun k _ => uniforms k 3) (fun _ _ y => y) delta 0 20
      key s) := by
  have htr : ∀ (x : Fin 3 → ℝ) (v t : ℝ) k, Rand.Consumes {k} (keyedSmc.transSampler x v t k) := fun _ _ _ _ =>
    Rand.Consumes.bind_split (i := 0) (j := 1) (by decide) (consumes_uniforms _ _) fun _ => (consumes_uniforms _ _).bind_pure _
  have h := C93_keys (m := keyedGibbs)
    ⟨fun _ _ _ => (consumes_uniform _).map _, fun _ _ _ _ => (consumes_uniform _).map _, fun k _ => consumes_uniforms k 3, htr⟩
    false true (sm := keyedSmc) ⟨fun k _ _ => consumes_uniforms k 3, htr⟩ (res := Resampling.killing) consumes_killing
    (fwd := fun k _ => uniforms k 3) (fun k _ => consumes_uniforms k 3) y0 (0, [1]) ts' (fun _ _ y => y) delta 0 4 20 key
  exact ⟨h.2.1, h.2.2.2⟩

end Example

end Props
end Fbs
