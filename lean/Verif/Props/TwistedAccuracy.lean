import Verif.Lemmas.TwistedAccuracy
import Verif.Props.Consistency
import Verif.Props.Guided

/-!
# Accuracy of the twisted sampler: C84

Mean square errors of `twisted_smc`, with explicit constants and the rate `1/N`, and the law of the sample which
`conditional_sampler` of the experiments returns.
-/

open MeasureTheory ProbabilityTheory
open scoped ENNReal

namespace Fbs
namespace Props

open Jax Spec Smc Csmc

variable {X Y : Type} [MeasurableSpace X] {N : ℕ}

theorem arr1_last (ts : Arr1 ℝ) : ts.last = ts.2.getLastD ts.1 := by
  obtain ⟨t, ts⟩ := ts
  cases ts <;> simp [Arr1.last, List.getLastD]

theorem pInt_eq_twFut (S : TwistedModel X) (φ : X → ℝ) (ts : Arr1 ℝ) (x : X) :
    S.pInt ts.2 x (fun x' => ENNReal.ofReal (Real.exp (S.logψ ts.last x')) * ENNReal.ofReal (φ x'))
      = ENNReal.ofReal (Real.exp (S.logψ ts.1 x)) * twFut S φ ts.1 ts.2 x := by
  unfold twFut
  rw [← mul_assoc, ← ENNReal.ofReal_mul (Real.exp_pos _).le, ← Real.exp_add, add_neg_cancel, Real.exp_zero,
    ENNReal.ofReal_one, one_mul, arr1_last]

theorem target_eq (S : TwistedModel X) {φ : X → ℝ} (hφ : Measurable φ) (h1 : ∀ x, φ x ≤ 1) {b : ℝ} {ts : Arr1 ℝ}
    (hb : S.WeightBound b ts.1 ts.2) :
    S.target ts φ = ∫ x, Real.exp (S.logψ ts.1 x) * twFutR S φ ts.1 ts.2 x ∂S.init := by
  unfold TwistedModel.target
  simp only [pInt_eq_twFut]
  rw [← integral_toReal]
  · simp only [ENNReal.toReal_mul, ENNReal.toReal_ofReal (Real.exp_pos _).le, twFutR]
  · exact ((ENNReal.measurable_ofReal.comp (Real.measurable_exp.comp (S.measψ _))).mul
      (measurable_twFut S hφ _ _)).aemeasurable
  · exact Filter.Eventually.of_forall fun x =>
      ENNReal.mul_lt_top ENNReal.ofReal_lt_top ((twFut_le S hφ h1 _ _ hb x).trans_lt ENNReal.ofReal_lt_top)

theorem twFut_one_pos (S : TwistedModel X) : ∀ (ts : List ℝ) (t : ℝ) (x : X), 0 < twFut S (fun _ => 1) t ts x
  | [], t, x => by rw [twFut_nil]; simp
  | t' :: ts, t, x => by
    rw [twFut_cons S measurable_const, lintegral_pos_iff_support]
    · have : (Function.support fun x' => ENNReal.ofReal (Real.exp (twInc S t t' x x')) * twFut S (fun _ => 1) t' ts x')
          = Set.univ := by
        ext x'
        have h1 := (twFut_one_pos S ts t' x').ne'
        simp [h1, Real.exp_pos]
      rw [this]
      simp
    · exact (ENNReal.measurable_ofReal.comp (Real.measurable_exp.comp (measurable_twInc S t t' x))).mul
        (measurable_twFut S measurable_const t' ts)

/-- The normalising constant is positive and finite. -/
theorem target_one_pos (S : TwistedModel X) {b : ℝ} {ts : Arr1 ℝ} (h0 : ∀ x, S.logψ ts.1 x ≤ b)
    (hb : S.WeightBound b ts.1 ts.2) : 0 < S.target ts fun _ => 1 := by
  unfold TwistedModel.target
  simp only [pInt_eq_twFut]
  refine ENNReal.toReal_pos ?_ ?_
  · rw [← pos_iff_ne_zero, lintegral_pos_iff_support]
    · have : (Function.support fun x => ENNReal.ofReal (Real.exp (S.logψ ts.1 x)) * twFut S (fun _ => 1) ts.1 ts.2 x)
          = Set.univ := by
        ext x
        have h1 := (twFut_one_pos S ts.2 ts.1 x).ne'
        simp [h1, Real.exp_pos]
      rw [this]
      simp
    · exact (ENNReal.measurable_ofReal.comp (Real.measurable_exp.comp (S.measψ _))).mul
        (measurable_twFut S measurable_const _ _)
  · refine ne_top_of_le_ne_top ?_ (lintegral_mono fun x => mul_le_mul'
      (ENNReal.ofReal_le_ofReal (Real.exp_le_exp.2 (h0 x)))
      (twFut_le S measurable_const (fun _ => le_rfl) _ _ hb x))
    simp [ENNReal.mul_eq_top]

/-- All estimates of a finite family at once. -/
theorem twisted_sq [NeZero N] {J : Type} [Fintype J] {m : TwistedFuns N X Y} {S : TwistedModel X} {y : Y}
    (hm : TwistedImplements m S y) {res : Smc.Resampling N} (hres : UnbiasedSums res) (hvar : SmallVariance res)
    (key : Key) (ts : Arr1 ℝ) {b : ℝ} (hb0 : ∀ x, S.logψ ts.1 x ≤ b) (hb : S.WeightBound b ts.1 ts.2)
    {φ : J → X → ℝ} (hφ : ∀ j, Measurable (φ j)) (h0 : ∀ j x, 0 ≤ φ j x) (h1 : ∀ j x, φ j x ≤ 1)
    {e : ℝ} (he : 0 ≤ e) :
    (twistedSmcZ m res key y ts).E (fun out => ENNReal.ofReal
        (∑ j, (Real.exp out.2 * ∑ i, Real.exp (out.1.2 i) * φ j (out.1.1 i) - S.target ts (φ j)) ^ 2 + e))
      ≤ ENNReal.ofReal (Fintype.card J * ((2 * ts.2.length + 1) * Real.exp b ^ (2 * (ts.2.length + 1)) / N) + e) := by
  have hN : (0 : ℝ) < N := by exact_mod_cast Nat.pos_of_ne_zero (NeZero.ne N)
  simp only [twistedSmcZ, Rand.E_bind, Rand.pure_eq, Rand.E_ret]
  set h : J → X → ℝ := fun j x => Real.exp (S.logψ ts.1 x) * twFutR S (φ j) ts.1 ts.2 x with hh
  have hhm : ∀ j, Measurable (h j) := fun j =>
    (Real.measurable_exp.comp (S.measψ _)).mul (measurable_twFutR S (hφ j) _ _)
  have hh0 : ∀ j x, 0 ≤ h j x := fun j x => mul_nonneg (Real.exp_pos _).le (twFutR_nonneg _ _ _ _ _)
  have hh1 : ∀ j x, h j x ≤ Real.exp b ^ (ts.2.length + 1) := fun j x => by
    rw [pow_succ']
    exact mul_le_mul (Real.exp_le_exp.2 (hb0 x)) (twFutR_le S (hφ j) (h1 j) hb x) (twFutR_nonneg _ _ _ _ _)
      (Real.exp_pos _).le
  set d : ℝ := Fintype.card J * (2 * ts.2.length / N) * (Real.exp b ^ (ts.2.length + 1)) ^ 2 + e with hd
  have h2 : ∀ xs : Fin N → X, (Rand.scan (twistedBodyZ m res y) ((xs, m.twistLogpdf y xs ts.1, fun i =>
      m.twistLogpdf y xs ts.1 i - logsumexp (m.twistLogpdf y xs ts.1)),
      logsumexp (m.twistLogpdf y xs ts.1) - Real.log N)
      ((splitAll (split key 2 1) ts.2.length).zip ts.2)).E (fun r => ENNReal.ofReal
        (∑ j, (Real.exp r.1.2 * ∑ i, Real.exp (r.1.1.2.2 i) * φ j (r.1.1.1 i) - S.target ts (φ j)) ^ 2 + e))
      ≤ ENNReal.ofReal (∑ j, ((∑ i, h j (xs i)) / N - ∫ x, h j x ∂S.init) ^ 2 + d) := by
    intro xs
    refine (E_twisted_scan_sq hm hres hvar hφ h0 h1 (fun j => S.target ts (φ j)) he ts.2 _ ts.1 xs
      (m.twistLogpdf y xs ts.1) (fun i => m.twistLogpdf y xs ts.1 i - logsumexp (m.twistLogpdf y xs ts.1)) _ hb
      (by simp [splitAll]) (fun i => hm.twist xs ts.1 i) (normalise_weights _)).trans (ENNReal.ofReal_le_ofReal ?_)
    set ps := m.twistLogpdf y xs ts.1 with hps
    have hpi : ∀ i, ps i = S.logψ ts.1 (xs i) := fun i => hm.twist xs ts.1 i
    have hz : logsumexp ps - Real.log N = -(0 - (logsumexp ps - Real.log N)) := by ring
    have e1 : ∀ j, Real.exp (logsumexp ps - Real.log N) * ∑ i, Real.exp (ps i - logsumexp ps) *
        twFutR S (φ j) ts.1 ts.2 (xs i) = (∑ i, h j (xs i)) / N := fun j => by
      rw [hz, Finset.mul_sum, Finset.sum_div]
      refine Finset.sum_congr rfl fun i _ => ?_
      rw [← mul_assoc, estimate_weight, hpi]
      simp only [hh, neg_zero, Real.exp_zero]
      ring
    have e2 : Real.exp (logsumexp ps - Real.log N) ≤ Real.exp b := by
      rw [hz, estimate_update, neg_zero, Real.exp_zero, one_mul, div_le_iff₀ hN]
      calc ∑ i, Real.exp (ps i) ≤ ∑ _i : Fin N, Real.exp b :=
            Finset.sum_le_sum fun i _ => Real.exp_le_exp.2 (by rw [hpi]; exact hb0 _)
        _ = _ := by simp [mul_comm]
    have e3 : Real.exp (logsumexp ps - Real.log N) ^ 2 ≤ Real.exp b ^ 2 := pow_le_pow_left₀ (Real.exp_pos _).le e2 2
    have e4 : Fintype.card J * (2 * ts.2.length / N) * (Real.exp b ^ ts.2.length) ^ 2 *
        Real.exp (logsumexp ps - Real.log N) ^ 2
        ≤ Fintype.card J * (2 * ts.2.length / N) * (Real.exp b ^ ts.2.length) ^ 2 * Real.exp b ^ 2 :=
      mul_le_mul_of_nonneg_left e3 (by positivity)
    simp only [e1, target_eq S (hφ _) (h1 _) hb]
    have e5 : (Real.exp b ^ (ts.2.length + 1)) ^ 2 = (Real.exp b ^ ts.2.length) ^ 2 * Real.exp b ^ 2 := by
      ring
    rw [hd, e5]
    linarith [e4]
  refine (Rand.E_mono _ h2).trans ?_
  rw [hm.init]
  · refine (init_sq hhm hh0 hh1 (by positivity)).trans (ENNReal.ofReal_le_ofReal (le_of_eq ?_))
    rw [hd, pow_mul']
    ring
  · have : ∀ j, Measurable fun x : Fin N → X => ∑ i, h j (x i) := fun j =>
      Finset.measurable_fun_sum _ fun i _ => (hhm j).comp (measurable_pi_apply i)
    fun_prop

/-- **C84, unnormalised estimate.** If the first twisting function and all incremental weights are bounded by
`exp b`, then `Z Σ_i W_i φ(X_i)` (`Z` the product of the mean incremental weights) deviates from the integral of
`φ` against the unnormalised target by at most `(2K+1) e^{2(K+1)b} / N` in mean square, for `K` steps, `N` particles and
`φ` with values in `[0,1]`. -/
theorem C84_estimate [NeZero N] {m : TwistedFuns N X Y} {S : TwistedModel X} {y : Y}
    (hm : TwistedImplements m S y) {res : Smc.Resampling N} (hres : UnbiasedSums res) (hvar : SmallVariance res)
    (key : Key) (ts : Arr1 ℝ) {b : ℝ} (hb0 : ∀ x, S.logψ ts.1 x ≤ b) (hb : S.WeightBound b ts.1 ts.2)
    {φ : X → ℝ} (hφ : Measurable φ) (h0 : ∀ x, 0 ≤ φ x) (h1 : ∀ x, φ x ≤ 1) :
    (twistedSmcZ m res key y ts).E (fun out => ENNReal.ofReal
        ((Real.exp out.2 * ∑ i, Real.exp (out.1.2 i) * φ (out.1.1 i) - S.target ts φ) ^ 2))
      ≤ ENNReal.ofReal ((2 * ts.2.length + 1) * Real.exp b ^ (2 * (ts.2.length + 1)) / N) := by
  have := twisted_sq (J := Unit) hm hres hvar key ts hb0 hb (φ := fun _ => φ) (fun _ => hφ) (fun _ => h0)
    (fun _ => h1) le_rfl
  simpa using this

omit [MeasurableSpace X] in
theorem wavg_le_one {ws : Fin N → ℝ} (hw : Weights fun i => Real.exp (ws i)) {φ : X → ℝ} (h1 : ∀ x, φ x ≤ 1)
    (xs : Fin N → X) : ∑ i, Real.exp (ws i) * φ (xs i) ≤ 1 := by
  rw [← hw.sum_one]
  exact Finset.sum_le_sum fun i _ => mul_le_of_le_one_right (Real.exp_pos _).le (h1 _)

theorem twisted_mean_sq [NeZero N] {m : TwistedFuns N X Y} {S : TwistedModel X} {y : Y}
    (hm : TwistedImplements m S y) {res : Smc.Resampling N} (hres : UnbiasedSums res) (hvar : SmallVariance res)
    (key : Key) (ts : Arr1 ℝ) {b : ℝ} (hb0 : ∀ x, S.logψ ts.1 x ≤ b) (hb : S.WeightBound b ts.1 ts.2)
    {φ : X → ℝ} (hφ : Measurable φ) (h0 : ∀ x, 0 ≤ φ x) (h1 : ∀ x, φ x ≤ 1) {e : ℝ} (he : 0 ≤ e) :
    (twistedSmc m res key y ts).E (fun out => ENNReal.ofReal
        ((∑ i, Real.exp (out.2 i) * φ (out.1 i) - S.target ts φ / S.target ts fun _ => 1) ^ 2 + e))
      ≤ ENNReal.ofReal (4 * ((2 * ts.2.length + 1) * Real.exp b ^ (2 * (ts.2.length + 1)) / N)
          / (S.target ts fun _ => 1) ^ 2 + e) := by
  rw [← C23_forget_constant, Rand.E_map]
  -- on every outcome the weighted mean is at most one
  have hcl : ∀ G : ℝ → ℝ → ℝ≥0∞, (twistedSmcZ m res key y ts).E (fun out => G out.2 (∑ i, Real.exp (out.1.2 i) * φ (out.1.1 i)))
      = (twistedSmcZ m res key y ts).E (fun out => G out.2 (min 1 (∑ i, Real.exp (out.1.2 i) * φ (out.1.1 i)))) := fun G =>
    Rand.E_congr_leaves (leaves_twistedZ m res key y ts) fun out hout => by
      rw [min_eq_right (wavg_le_one hout h1 _)]
  rw [hcl fun _ s => ENNReal.ofReal ((s - S.target ts φ / S.target ts fun _ => 1) ^ 2 + e)]
  refine ratio_of_joint _ (fun out => Real.exp out.2) _
    (fun out => le_min zero_le_one (Finset.sum_nonneg fun i _ => mul_nonneg (Real.exp_pos _).le (h0 _)))
    (fun out => min_le_left _ _) (target_one_pos S hb0 hb) (fun e he => ?_) he
  rw [← hcl fun L s => ENNReal.ofReal (((Real.exp L * s - S.target ts φ) ^ 2
    + (Real.exp L - S.target ts fun _ => 1) ^ 2) + e)]
  have := twisted_sq (J := Bool) hm hres hvar key ts hb0 hb (φ := fun j => if j then φ else fun _ => 1)
    (by intro j; cases j <;> simp [hφ]) (by intro j u; cases j <;> simp [h0]) (by intro j u; cases j <;> simp [h1]) he
  simp only [Fintype.sum_bool, if_true, Bool.false_eq_true, if_false, mul_one, Fintype.card_bool] at this
  refine Eq.trans_le (Rand.E_congr_leaves (leaves_twistedZ m res key y ts) fun out hout => ?_) this
  rw [hout.sum_one, mul_one]

/-- **C84, weighted mean.** The weighted mean `Σ_i W_i φ(X_i)` of what `twisted_smc` returns deviates from the mean
of `φ` under the normalised target by at most `4 (2K+1) e^{2(K+1)b} / (Z² N)` in mean square, `Z` the normalising
constant of the target. -/
theorem C84_weighted_mean [NeZero N] {m : TwistedFuns N X Y} {S : TwistedModel X} {y : Y}
    (hm : TwistedImplements m S y) {res : Smc.Resampling N} (hres : UnbiasedSums res) (hvar : SmallVariance res)
    (key : Key) (ts : Arr1 ℝ) {b : ℝ} (hb0 : ∀ x, S.logψ ts.1 x ≤ b) (hb : S.WeightBound b ts.1 ts.2)
    {φ : X → ℝ} (hφ : Measurable φ) (h0 : ∀ x, 0 ≤ φ x) (h1 : ∀ x, φ x ≤ 1) :
    (twistedSmc m res key y ts).E (fun out => ENNReal.ofReal
        ((∑ i, Real.exp (out.2 i) * φ (out.1 i) - S.target ts φ / S.target ts fun _ => 1) ^ 2))
      ≤ ENNReal.ofReal (4 * ((2 * ts.2.length + 1) * Real.exp b ^ (2 * (ts.2.length + 1)) / N)
          / (S.target ts fun _ => 1) ^ 2) := by
  simpa using twisted_mean_sq hm hres hvar key ts hb0 hb hφ h0 h1 le_rfl

/-- **C84, in probability.** -/
theorem C84_probability [NeZero N] {m : TwistedFuns N X Y} {S : TwistedModel X} {y : Y}
    (hm : TwistedImplements m S y) {res : Smc.Resampling N} (hres : UnbiasedSums res) (hvar : SmallVariance res)
    (key : Key) (ts : Arr1 ℝ) {b : ℝ} (hb0 : ∀ x, S.logψ ts.1 x ≤ b) (hb : S.WeightBound b ts.1 ts.2)
    {φ : X → ℝ} (hφ : Measurable φ) (h0 : ∀ x, 0 ≤ φ x) (h1 : ∀ x, φ x ≤ 1) {ε : ℝ} (hε : 0 < ε)
    [DecidablePred fun out : (Fin N → X) × (Fin N → ℝ) => ε ≤ |∑ i, Real.exp (out.2 i) * φ (out.1 i)
      - S.target ts φ / S.target ts fun _ => 1|] :
    (twistedSmc m res key y ts).E (fun out => if ε ≤ |∑ i, Real.exp (out.2 i) * φ (out.1 i)
        - S.target ts φ / S.target ts fun _ => 1| then 1 else 0)
      ≤ ENNReal.ofReal (4 * ((2 * ts.2.length + 1) * Real.exp b ^ (2 * (ts.2.length + 1)) / N)
          / (S.target ts fun _ => 1) ^ 2 / ε ^ 2) := by
  have h := C84_weighted_mean hm hres hvar key ts hb0 hb hφ h0 h1
  generalize twistedSmc m res key y ts = p at h ⊢
  generalize (S.target ts φ / S.target ts fun _ => 1) = r at *
  exact chebyshev_of_sq p (fun out => ∑ i, Real.exp (out.2 i) * φ (out.1 i)) hε h

/-- **C84, one draw.** A particle drawn with the final weights has the normalised target law up to an error of order
`1/√N`: `E φ` exceeds the mean of `φ` under the target by at most `2 √((2K+1)/N) e^{(K+1)b} / Z`, for every `φ` with
values in `[0,1]` (hence also for `1 - φ`). -/
theorem C84_draw [NeZero N] {m : TwistedFuns N X Y} {S : TwistedModel X} {y : Y}
    (hm : TwistedImplements m S y) {res : Smc.Resampling N} (hres : UnbiasedSums res) (hvar : SmallVariance res)
    (key key' : Key) (ts : Arr1 ℝ) {b : ℝ} (hb0 : ∀ x, S.logψ ts.1 x ≤ b) (hb : S.WeightBound b ts.1 ts.2)
    {φ : X → ℝ} (hφ : Measurable φ) (h0 : ∀ x, 0 ≤ φ x) (h1 : ∀ x, φ x ≤ 1) :
    (twistedSmc m res key y ts >>= fun out => (fun i => out.1 i) <$> choice key' fun i => Real.exp (out.2 i)).E
        (fun x => ENNReal.ofReal (φ x))
      ≤ ENNReal.ofReal (S.target ts φ / (S.target ts fun _ => 1)
          + Real.sqrt (4 * ((2 * ts.2.length + 1) * Real.exp b ^ (2 * (ts.2.length + 1)) / N)
            / (S.target ts fun _ => 1) ^ 2)) := by
  have hN : (0 : ℝ) < N := by exact_mod_cast Nat.pos_of_ne_zero (NeZero.ne N)
  have hZ := target_one_pos S hb0 hb
  have hmean := mean_of_sq (twistedSmc m res key y ts) (fun out => ∑ i, Real.exp (out.2 i) * φ (out.1 i))
    (div_nonneg ENNReal.toReal_nonneg ENNReal.toReal_nonneg : 0 ≤ S.target ts φ / S.target ts fun _ => 1)
    (by positivity) fun e he => twisted_mean_sq hm hres hvar key ts hb0 hb hφ h0 h1 he
  refine Eq.trans_le ?_ hmean
  rw [Rand.E_bind, ← C23_forget_constant, Rand.E_map, Rand.E_map]
  refine Rand.E_congr_leaves (leaves_twistedZ m res key y ts) fun out hout => ?_
  have hT : total (fun i => Real.exp (out.1.2 i)) = 1 := hout.sum_one
  rw [Rand.E_map, E_choice hout.nonneg (by rw [hT]; exact one_pos),
    ENNReal.ofReal_sum_of_nonneg fun i _ => mul_nonneg (Real.exp_pos _).le (h0 _)]
  refine Finset.sum_congr rfl fun i _ => ?_
  rw [ENNReal.ofReal_mul (Real.exp_pos _).le]
  simp only [cat, hT, div_one]

/-- **C84, conditional samplers.** The sample returned by `conditional_sampler` of the twisted experiments. -/
theorem C84_conditional_sampler [NeZero N] {ζ κ : Type} {m : TwistedFuns N (ζ → ℝ) (κ → ℝ)} {S : TwistedModel (ζ → ℝ)}
    {y : κ → ℝ} (hm : TwistedImplements m S y) {res : Smc.Resampling N} (hres : UnbiasedSums res)
    (hvar : SmallVariance res) (key : Key) (ts : Arr1 ℝ) {b : ℝ} (hb0 : ∀ x, S.logψ ts.1 x ≤ b)
    (hb : S.WeightBound b ts.1 ts.2) {φ : (ζ → ℝ) → ℝ} (hφ : Measurable φ) (h0 : ∀ x, 0 ≤ φ x) (h1 : ∀ x, φ x ≤ 1) :
    (Guided.conditionalSampler m res y ts key).E (fun x => ENNReal.ofReal (φ x))
      ≤ ENNReal.ofReal (S.target ts φ / (S.target ts fun _ => 1)
          + Real.sqrt (4 * ((2 * ts.2.length + 1) * Real.exp b ^ (2 * (ts.2.length + 1)) / N)
            / (S.target ts fun _ => 1) ^ 2)) := by
  refine Eq.trans_le ?_ (C84_draw hm hres hvar (split key 2 0) (split key 2 1) ts hb0 hb hφ h0 h1)
  unfold Guided.conditionalSampler
  simp only [Rand.E_bind, Rand.E_map, Rand.pure_eq, Rand.E_ret]

/-- **C84, where the bound does not reach.** The incremental weights of the guided proposals of the scripts need not
be bounded: with Brownian noising, a zero score and an identity observation of unit variance, no constant bounds
them. -/
theorem C84_guided_unbounded {dt : ℝ} (hdt : 0 < dt) (y : Unit → ℝ) (t t' b : ℝ)
    (initSampler : Key → ℕ → Rand (Fin 1 → Unit → ℝ)) :
    let sde := Linear.SDE.const 0 1
    let score : (Unit → ℝ) → ℝ → (Unit → ℝ) := fun _ _ _ => 0
    let drift := Guided.reverseDrift sde 1 score
    let twist := Guided.twistingLogpdf id drift dt fun _ => 1
    let m := Guided.funs initSampler drift (Guided.reverseCondDrift sde 1 score twist) twist
      (Guided.reverseDispersion sde 1) dt
    ∃ us usPrev : Fin 1 → Unit → ℝ,
      b < m.transLogpdf us usPrev t' 0 + m.twistLogpdf y us t' 0 - m.propLogpdf us usPrev t' y 0
        - m.twistLogpdf y usPrev t 0 := by
  intro sde score drift twist m
  have hdr : ∀ u t k, drift u t k = 0 := fun u t k => by
    simp [drift, Guided.reverseDrift, sde, score, Linear.drift]
  have htw : ∀ u t, twist y u t = Linear.normLogpdf (y ()) (u ()) 1 := fun u t => by
    simp [twist, Guided.twistingLogpdf, Guided.denoise, hdr]
  have hgr : ∀ u t, Linear.grad (fun u => twist y u t) u () = y () - u () := fun u t => by
    have h := grad_normLogpdf (ζ := Unit) (κ := Unit) y 0 1 1 u ()
    simp only [Matrix.one_mulVec, zero_add, Finset.univ_unique, Finset.sum_singleton, Matrix.transpose_one, one_pow,
      div_one, Pi.sub_apply] at h
    simp only [htw]
    exact h
  have hc : ∀ u t, Guided.reverseCondDrift sde 1 score twist u t y () = y () - u () := fun u t => by
    simp only [Guided.reverseCondDrift, hgr]
    simp [sde, score, Linear.drift, Linear.dispersion]
  have hs : Real.sqrt dt * Guided.reverseDispersion sde 1 t' = Real.sqrt dt := by
    simp [Guided.reverseDispersion, sde, Linear.dispersion]
  have hw : ∀ r : ℝ, m.transLogpdf (fun _ _ => y () + r) (fun _ _ => y () + r) t' 0
      + m.twistLogpdf y (fun _ _ => y () + r) t' 0
      - m.propLogpdf (fun _ _ => y () + r) (fun _ _ => y () + r) t' y 0
      - m.twistLogpdf y (fun _ _ => y () + r) t 0 = dt * r ^ 2 / 2 := fun r => by
    simp only [m, Guided.funs, Guided.transitionLogpdf, Guided.propLogpdf, htw, hdr, Finset.univ_unique,
      Finset.sum_singleton, hs]
    have hu : (default : Unit) = () := rfl
    rw [hu, hc]
    unfold Linear.normLogpdf
    rw [Real.sq_sqrt hdt.le]
    field_simp
    ring
  obtain ⟨r, hr⟩ : ∃ r : ℝ, b < dt * r ^ 2 / 2 := by
    refine ⟨1 + 2 * |b| / dt, ?_⟩
    have h1 : dt * (1 + 2 * |b| / dt) ^ 2 / 2 = dt / 2 + 2 * |b| + 2 * |b| ^ 2 / dt := by
      field_simp
      ring
    rw [h1]
    have h2 : 0 ≤ 2 * |b| ^ 2 / dt := by positivity
    have := le_abs_self b
    have := abs_nonneg b
    linarith
  exact ⟨fun _ _ => y () + r, fun _ _ => y () + r, by rw [hw]; exact hr⟩

/-! ### The hypotheses can be met -/

theorem coinTwisted_bound : coinTwisted.WeightBound (Real.log 2 + 3) 3 [2, 1] := by
  have h : ∀ t t' : ℝ, 0 ≤ t → t' ≤ 3 → 0 ≤ t' → ∀ x x' : Bool,
      coinTwisted.logp t' x x' + coinTwisted.logψ t' x' - coinTwisted.logq t' x x' - coinTwisted.logψ t x
        ≤ Real.log 2 + 3 := by
    intro t t' ht ht' ht0 x x'
    have e1 : Real.log (1 / 2) = -Real.log 2 := by rw [one_div, Real.log_inv]
    have e2 : Real.log (1 / 4) = -(2 * Real.log 2) := by
      rw [one_div, Real.log_inv, show (4 : ℝ) = 2 ^ 2 by norm_num, Real.log_pow]; norm_num
    have e3 : -(2 * Real.log 2) ≤ Real.log (3 / 4) := by
      rw [← e2]; exact Real.log_le_log (by norm_num) (by norm_num)
    have e4 : 0 < Real.log 2 := Real.log_pos (by norm_num)
    simp only [coinTwisted]
    cases x <;> cases x' <;> simp only [e1, e2, if_true, Bool.false_eq_true, if_false] <;> linarith
  exact ⟨h 3 2 (by norm_num) (by norm_num) (by norm_num), h 2 1 (by norm_num) (by norm_num) (by norm_num), trivial⟩

theorem coinTwisted_first (x : Bool) : coinTwisted.logψ 3 x ≤ Real.log 2 + 3 := by
  have : 0 < Real.log 2 := Real.log_pos (by norm_num)
  simp only [coinTwisted]
  split_ifs <;> linarith

theorem coinTwisted_implements (N : ℕ) : TwistedImplements (coinTwistedFuns N) coinTwisted () :=
  ⟨fun _ _ _ _ => rfl, fun _ _ _ _ _ => rfl, fun _ _ _ _ => rfl, fun _ _ _ _ => rfl, fun _ _ _ => rfl⟩

example (key : Key) : (twistedSmc (coinTwistedFuns 100) Resampling.stratified key () (3, [2, 1])).E (fun out =>
    ENNReal.ofReal ((∑ i, Real.exp (out.2 i) * (if out.1 i then 1 else 0)
      - coinTwisted.target (3, [2, 1]) (fun x => if x then 1 else 0) / coinTwisted.target (3, [2, 1]) fun _ => 1) ^ 2))
    ≤ ENNReal.ofReal (4 * ((2 * (2 : ℕ) + 1) * Real.exp (Real.log 2 + 3) ^ (2 * (2 + 1)) / (100 : ℕ))
        / (coinTwisted.target (3, [2, 1]) fun _ => 1) ^ 2) :=
  C84_weighted_mean (coinTwisted_implements 100) sums_stratified smallVariance_stratified key (3, [2, 1])
    coinTwisted_first coinTwisted_bound (φ := fun x => if x then 1 else 0) (measurable_of_finite _)
    (fun x => by split_ifs <;> norm_num) fun x => by split_ifs <;> norm_num

example (key key' : Key) : (twistedSmc (coinTwistedFuns 100) Resampling.killing key () (3, [2, 1]) >>= fun out =>
      (fun i => out.1 i) <$> choice key' fun i => Real.exp (out.2 i)).E (fun x => ENNReal.ofReal (if x then 1 else 0))
    ≤ ENNReal.ofReal (coinTwisted.target (3, [2, 1]) (fun x => if x then 1 else 0)
        / (coinTwisted.target (3, [2, 1]) fun _ => 1)
      + Real.sqrt (4 * ((2 * (2 : ℕ) + 1) * Real.exp (Real.log 2 + 3) ^ (2 * (2 + 1)) / (100 : ℕ))
        / (coinTwisted.target (3, [2, 1]) fun _ => 1) ^ 2)) :=
  C84_draw (coinTwisted_implements 100) sums_killing smallVariance_killing key key' (3, [2, 1])
    coinTwisted_first coinTwisted_bound (φ := fun x => if x then 1 else 0) (measurable_of_finite _)
    (fun x => by split_ifs <;> norm_num) fun x => by split_ifs <;> norm_num

/-- The functions of the scripts with a bounded twisting function and unguided proposals. -/
noncomputable def sineFuns (N : ℕ) : TwistedFuns N (Unit → ℝ) (Unit → ℝ) :=
  Guided.funs Guided.imgInit (fun _ _ _ => 0) (fun _ _ _ _ => 0) (fun _ u t => t * Real.sin (u ())) (fun _ => 1) (1 / 2)

noncomputable def sineModel : TwistedModel (Unit → ℝ) :=
  guidedModel (fun _ _ _ => 0) (fun _ => measurable_const) (fun _ _ _ => 0) (fun _ => measurable_const)
    (fun u t => t * Real.sin (u ())) (fun t => (Real.measurable_sin.comp (measurable_pi_apply ())).const_mul t)
    (fun _ => 1) (fun _ => one_ne_zero) (dt := 1 / 2) (by norm_num) (stdNormal Unit)

theorem sine_implements (N : ℕ) (y : Unit → ℝ) : TwistedImplements (sineFuns N) sineModel y := by
  refine ⟨fun k n F hF => imgInit_law k n hF, fun k xs t F hF => ?_, fun _ _ _ _ => rfl, fun _ _ _ _ => rfl,
    fun _ _ _ => rfl⟩
  simp only [sineFuns, Guided.funs, Guided.propSampler, Rand.E_bind, normal, Rand.E_sample, Rand.pure_eq, Rand.E_ret]
  exact Toy.lintegral_normal_rows (fun j i => xs j i + 0 * (1 / 2)) (Real.sqrt (1 / 2) * 1)
    (by rw [mul_pow, Real.sq_sqrt (by norm_num)]) hF

theorem sine_bound : sineModel.WeightBound 2 1 [1 / 2] := by
  refine ⟨fun x x' => ?_, trivial⟩
  simp only [sineModel, guidedModel]
  have := Real.sin_le_one (x' ())
  have := Real.neg_one_le_sin (x ())
  linarith

example (key : Key) (y : Unit → ℝ) : (Guided.conditionalSampler (sineFuns 50) Resampling.stratified y (1, [1 / 2]) key).E
      (fun x => ENNReal.ofReal (Set.indicator {x : Unit → ℝ | 0 ≤ x ()} 1 x))
    ≤ ENNReal.ofReal (sineModel.target (1, [1 / 2]) (Set.indicator {x : Unit → ℝ | 0 ≤ x ()} 1)
        / (sineModel.target (1, [1 / 2]) fun _ => 1)
      + Real.sqrt (4 * ((2 * (1 : ℕ) + 1) * Real.exp 2 ^ (2 * (1 + 1)) / (50 : ℕ))
        / (sineModel.target (1, [1 / 2]) fun _ => 1) ^ 2)) :=
  C84_conditional_sampler (sine_implements 50 y) sums_stratified smallVariance_stratified key (1, [1 / 2])
    (fun x => by
      have := Real.sin_le_one (x ())
      simp only [sineModel, guidedModel]; linarith) sine_bound
    (measurable_const.indicator (measurableSet_le measurable_const (measurable_pi_apply ())))
    (fun x => Set.indicator_nonneg (fun _ _ => zero_le_one) x)
    fun x => Set.indicator_apply_le' (fun _ => le_rfl) fun _ => zero_le_one

end Props
end Fbs
