import Verif.Lemmas.Consistency
import Verif.Props.Twisted
import Verif.Lemmas.Minor

/-!
# Second moments of the twisted particle filter
-/

open MeasureTheory ProbabilityTheory
open scoped ENNReal

namespace Fbs

namespace Spec

variable {X : Type} [MeasurableSpace X]

/-- The incremental weights of `twisted_smc` along the times `t, ts` are bounded by `exp b`. -/
def TwistedModel.WeightBound (S : TwistedModel X) (b : ℝ) : ℝ → List ℝ → Prop
  | _, [] => True
  | t, t' :: ts => (∀ x x', S.logp t' x x' + S.logψ t' x' - S.logq t' x x' - S.logψ t x ≤ b) ∧ S.WeightBound b t' ts

/-- The unnormalised target of `twisted_smc`: the last state of the chain with densities `p`, weighted by the last
twisting function. -/
noncomputable def TwistedModel.target (S : TwistedModel X) (ts : Arr1 ℝ) (φ : X → ℝ) : ℝ :=
  (∫⁻ x, S.pInt ts.2 x
    (fun x' => ENNReal.ofReal (Real.exp (S.logψ ts.last x')) * ENNReal.ofReal (φ x')) ∂S.init).toReal

end Spec

open Jax Spec Smc Csmc Props

variable {X Y : Type} [MeasurableSpace X] {N : ℕ}

/-- The expected product of the remaining weights and `φ`. -/
noncomputable def twFut (S : TwistedModel X) (φ : X → ℝ) (t : ℝ) (ts : List ℝ) (x : X) : ℝ≥0∞ :=
  ENNReal.ofReal (Real.exp (-S.logψ t x)) *
    S.pInt ts x fun x' => ENNReal.ofReal (Real.exp (S.logψ (ts.getLastD t) x')) * ENNReal.ofReal (φ x')

theorem measurable_twFut (S : TwistedModel X) {φ : X → ℝ} (hφ : Measurable φ) (t : ℝ) (ts : List ℝ) :
    Measurable (twFut S φ t ts) :=
  (ENNReal.measurable_ofReal.comp (Real.measurable_exp.comp (S.measψ t).neg)).mul (measurable_pInt S
    ((ENNReal.measurable_ofReal.comp (Real.measurable_exp.comp (S.measψ _))).mul
      (ENNReal.measurable_ofReal.comp hφ)) ts)

theorem twFut_nil (S : TwistedModel X) (φ : X → ℝ) (t : ℝ) (x : X) : twFut S φ t [] x = ENNReal.ofReal (φ x) := by
  unfold twFut
  simp only [TwistedModel.pInt, List.getLastD_nil]
  rw [← mul_assoc, ← ENNReal.ofReal_mul (Real.exp_pos _).le, ← Real.exp_add]
  simp

/-- The incremental weight. -/
noncomputable def twInc (S : TwistedModel X) (t t' : ℝ) (x x' : X) : ℝ :=
  S.logp t' x x' + S.logψ t' x' - S.logq t' x x' - S.logψ t x

theorem measurable_twInc (S : TwistedModel X) (t t' : ℝ) (x : X) : Measurable (twInc S t t' x) := by
  have hp : Measurable (S.logp t' x) := (S.measp t').comp measurable_prodMk_left
  have hq : Measurable (S.logq t' x) := (S.measq t').comp measurable_prodMk_left
  exact ((hp.add (S.measψ t')).sub hq).sub_const _

theorem twFut_cons (S : TwistedModel X) {φ : X → ℝ} (hφ : Measurable φ) (t t' : ℝ) (ts : List ℝ) (x : X) :
    twFut S φ t (t' :: ts) x
      = ∫⁻ x', ENNReal.ofReal (Real.exp (twInc S t t' x x')) * twFut S φ t' ts x' ∂(S.q t' x) := by
  unfold twFut
  simp only [TwistedModel.pInt, List.getLastD_cons]
  have hm : Measurable fun x' => S.pInt ts x'
      fun x'' => ENNReal.ofReal (Real.exp (S.logψ (ts.getLastD t') x'')) * ENNReal.ofReal (φ x'') :=
    measurable_pInt S ((ENNReal.measurable_ofReal.comp (Real.measurable_exp.comp (S.measψ _))).mul
      (ENNReal.measurable_ofReal.comp hφ)) ts
  rw [← lintegral_ratio S t' x hm]
  refine lintegral_congr fun x' => ?_
  rw [← mul_assoc, ← ENNReal.ofReal_mul (Real.exp_pos _).le, ← Real.exp_add]
  congr 3
  unfold twInc
  ring

theorem twFut_le (S : TwistedModel X) {φ : X → ℝ} (hφ : Measurable φ) (h1 : ∀ x, φ x ≤ 1) {b : ℝ} :
    ∀ (ts : List ℝ) (t : ℝ), S.WeightBound b t ts → ∀ x, twFut S φ t ts x ≤ ENNReal.ofReal (Real.exp b ^ ts.length)
  | [], t, _, x => by
    rw [twFut_nil]
    exact ENNReal.ofReal_le_ofReal (by simpa using h1 x)
  | t' :: ts, t, hb, x => by
    rw [twFut_cons S hφ, List.length_cons, pow_succ', ENNReal.ofReal_mul (Real.exp_pos _).le]
    refine (lintegral_mono fun x' => mul_le_mul' (ENNReal.ofReal_le_ofReal (Real.exp_le_exp.2 (hb.1 x x')))
      (twFut_le S hφ h1 ts t' hb.2 x')).trans ?_
    simp

/-- Its real value. -/
noncomputable def twFutR (S : TwistedModel X) (φ : X → ℝ) (t : ℝ) (ts : List ℝ) (x : X) : ℝ := (twFut S φ t ts x).toReal

theorem twFutR_nonneg (S : TwistedModel X) (φ : X → ℝ) (t : ℝ) (ts : List ℝ) (x : X) : 0 ≤ twFutR S φ t ts x :=
  ENNReal.toReal_nonneg

theorem measurable_twFutR (S : TwistedModel X) {φ : X → ℝ} (hφ : Measurable φ) (t : ℝ) (ts : List ℝ) :
    Measurable (twFutR S φ t ts) := (measurable_twFut S hφ t ts).ennreal_toReal

theorem twFutR_le (S : TwistedModel X) {φ : X → ℝ} (hφ : Measurable φ) (h1 : ∀ x, φ x ≤ 1) {b : ℝ} {ts : List ℝ} {t : ℝ}
    (hb : S.WeightBound b t ts) (x : X) : twFutR S φ t ts x ≤ Real.exp b ^ ts.length :=
  ENNReal.toReal_le_of_le_ofReal (pow_nonneg (Real.exp_pos _).le _) (twFut_le S hφ h1 ts t hb x)

theorem twFutR_cons (S : TwistedModel X) {φ : X → ℝ} (hφ : Measurable φ) (h1 : ∀ x, φ x ≤ 1) {b : ℝ} {t t' : ℝ}
    {ts : List ℝ} (hb : S.WeightBound b t (t' :: ts)) (x : X) :
    twFutR S φ t (t' :: ts) x = ∫ x', Real.exp (twInc S t t' x x') * twFutR S φ t' ts x' ∂(S.q t' x) := by
  unfold twFutR
  rw [twFut_cons S hφ, ← integral_toReal]
  · simp only [ENNReal.toReal_mul, ENNReal.toReal_ofReal (Real.exp_pos _).le]
  · exact ((ENNReal.measurable_ofReal.comp (Real.measurable_exp.comp (measurable_twInc S t t' x))).mul
      (measurable_twFut S hφ t' ts)).aemeasurable
  · exact Filter.Eventually.of_forall fun x' =>
      ENNReal.mul_lt_top ENNReal.ofReal_lt_top ((twFut_le S hφ h1 ts t' hb.2 x').trans_lt ENNReal.ofReal_lt_top)

/-- One step in mean square. -/
theorem E_twistedBody_sq [NeZero N] {J : Type} [Fintype J] {m : TwistedFuns N X Y} {S : TwistedModel X} {y : Y}
    (hm : TwistedImplements m S y) {res : Smc.Resampling N} (hres : UnbiasedSums res) (hvar : SmallVariance res)
    {H : J → X → ℝ} (hH : ∀ j, Measurable (H j)) {M b : ℝ} (h0 : ∀ j x, 0 ≤ H j x) (h1 : ∀ j x, H j x ≤ M)
    {t t' : ℝ} (hb : ∀ x x', twInc S t t' x x' ≤ b) (x : Fin N → X) (lp lw : Fin N → ℝ)
    (hlp : ∀ i, lp i = S.logψ t (x i)) (hlw : Weights fun i => Real.exp (lw i)) (z : ℝ) (k : Key)
    (a : J → ℝ) (d e : ℝ) (hd : 0 ≤ d) (he : 0 ≤ e) :
    (twistedBodyZ m res y ((x, lp, lw), z) (k, t')).E (fun r => ENNReal.ofReal
        (∑ j, (Real.exp r.1.2 * ∑ i, Real.exp (r.1.1.2.2 i) * H j (r.1.1.1 i) - a j) ^ 2
          + d * Real.exp r.1.2 ^ 2 + e))
      ≤ ENNReal.ofReal (∑ j, (Real.exp z * ∑ i, Real.exp (lw i) *
          (∫ x', Real.exp (twInc S t t' (x i) x') * H j x' ∂(S.q t' (x i))) - a j) ^ 2
          + (Fintype.card J * (2 * (Real.exp b * M) ^ 2 / N) + d * Real.exp b ^ 2) * Real.exp z ^ 2 + e) := by
  have hN : (0 : ℝ) < N := by exact_mod_cast Nat.pos_of_ne_zero (NeZero.ne N)
  have hM : 0 ≤ M ∨ IsEmpty J := by
    by_cases hJ : IsEmpty J
    · exact Or.inr hJ
    · obtain ⟨j⟩ := not_isEmpty_iff.1 hJ
      exact Or.inl ((h0 j (x 0)).trans (h1 j (x 0)))
  set F : J → X → X → ℝ := fun j u u' => Real.exp (twInc S t t' u u') * H j u' with hF
  have hFm : ∀ j u, Measurable (F j u) := fun j u => (Real.measurable_exp.comp (measurable_twInc S t t' u)).mul (hH j)
  have hF0 : ∀ j u u', 0 ≤ F j u u' := fun j u u' => mul_nonneg (Real.exp_pos _).le (h0 _ _)
  have hF1 : ∀ j u u', F j u u' ≤ Real.exp b * M := fun j u u' =>
    mul_le_mul (Real.exp_le_exp.2 (hb u u')) (h1 _ _) (h0 _ _) (Real.exp_pos _).le
  set P : J → X → ℝ := fun j u => ∫ u', F j u u' ∂(S.q t' u) with hP
  have hP0 : ∀ j u, 0 ≤ P j u := fun j u => integral_nonneg (hF0 j u)
  have hP1 : ∀ j u, P j u ≤ Real.exp b * M := fun j u => by
    have hint : Integrable (F j u) (S.q t' u) := Integrable.of_bound (hFm j u).aestronglyMeasurable (Real.exp b * M)
      (Filter.Eventually.of_forall fun x => by rw [Real.norm_eq_abs, abs_of_nonneg (hF0 j u x)]; exact hF1 j u x)
    have := integral_mono hint (integrable_const _) (hF1 j u)
    simpa using this
  set L := Real.exp z with hL
  have hLp : 0 < L := Real.exp_pos _
  set d' := d * Real.exp b ^ 2 * L ^ 2 + e with hd'
  have hd'0 : 0 ≤ d' := by positivity
  simp only [twistedBodyZ, Rand.E_bind, Rand.pure_eq, Rand.E_ret]
  -- the proposals
  have hprop : ∀ A : Fin N → Fin N, (m.propSampler (split k 2 1) (fun i => x (A i)) t' y).E (fun xs =>
      ENNReal.ofReal (∑ j, (Real.exp (z + logsumexp (fun i => m.transLogpdf xs (fun i => x (A i)) t' i
            + m.twistLogpdf y xs t' i - m.propLogpdf xs (fun i => x (A i)) t' y i - lp (A i)) - Real.log N)
          * ∑ i, Real.exp (m.transLogpdf xs (fun i => x (A i)) t' i
            + m.twistLogpdf y xs t' i - m.propLogpdf xs (fun i => x (A i)) t' y i - lp (A i)
            - logsumexp (fun i => m.transLogpdf xs (fun i => x (A i)) t' i
            + m.twistLogpdf y xs t' i - m.propLogpdf xs (fun i => x (A i)) t' y i - lp (A i))) * H j (xs i) - a j) ^ 2
          + d * Real.exp (z + logsumexp (fun i => m.transLogpdf xs (fun i => x (A i)) t' i
            + m.twistLogpdf y xs t' i - m.propLogpdf xs (fun i => x (A i)) t' y i - lp (A i)) - Real.log N) ^ 2 + e))
      ≤ ENNReal.ofReal (L ^ 2 * ∑ j, ((∑ i, P j (x (A i))) / N - a j / L) ^ 2
        + (L ^ 2 * (Fintype.card J * ((Real.exp b * M) ^ 2 / N)) + d')) := by
    intro A
    have hw : ∀ xs : Fin N → X, (fun i => m.transLogpdf xs (fun i => x (A i)) t' i
        + m.twistLogpdf y xs t' i - m.propLogpdf xs (fun i => x (A i)) t' y i - lp (A i))
        = fun i => twInc S t t' (x (A i)) (xs i) := fun xs => funext fun i => by
      rw [hm.trans, hm.twist, hm.propLog, hlp]; rfl
    refine (Rand.E_mono _ (g := fun xs => ENNReal.ofReal (L ^ 2 * ∑ j, (∑ i, (1 / (N : ℝ)) * F j (x (A i)) (xs i)
      - a j / L) ^ 2 + d')) fun xs => ?_).trans ?_
    · refine ENNReal.ofReal_le_ofReal ?_
      have hwi : ∀ i, m.transLogpdf xs (fun i => x (A i)) t' i
        + m.twistLogpdf y xs t' i - m.propLogpdf xs (fun i => x (A i)) t' y i - lp (A i)
          = twInc S t t' (x (A i)) (xs i) := fun i => congrFun (hw xs) i
      simp only [hwi]
      set ws : Fin N → ℝ := fun i => twInc S t t' (x (A i)) (xs i) with hws
      have hz : z + logsumexp ws - Real.log N = -(-z - (logsumexp ws - Real.log N)) := by ring
      have e1 : ∀ j, Real.exp (z + logsumexp ws - Real.log N) * ∑ i, Real.exp (ws i - logsumexp ws) * H j (xs i)
          = L * ∑ i, (1 / (N : ℝ)) * F j (x (A i)) (xs i) := fun j => by
        rw [hz, Finset.mul_sum, Finset.mul_sum]
        refine Finset.sum_congr rfl fun i _ => ?_
        rw [← mul_assoc, estimate_weight, neg_neg]
        simp only [hF, hws]
        ring
      have e2 : Real.exp (z + logsumexp ws - Real.log N) ≤ Real.exp b * L := by
        rw [hz, estimate_update, neg_neg, mul_comm]
        refine mul_le_mul_of_nonneg_right ?_ hLp.le
        rw [div_le_iff₀ hN]
        calc ∑ i, Real.exp (ws i) ≤ ∑ _i : Fin N, Real.exp b :=
              Finset.sum_le_sum fun i _ => Real.exp_le_exp.2 (hb _ _)
          _ = _ := by simp [mul_comm]
      have e3 : Real.exp (z + logsumexp ws - Real.log N) ^ 2 ≤ Real.exp b ^ 2 * L ^ 2 := by
        rw [← mul_pow]; exact pow_le_pow_left₀ (Real.exp_pos _).le e2 2
      have e4 := mul_le_mul_of_nonneg_left e3 hd
      have e5 := sq_factor hLp (fun j => ∑ i, (1 / (N : ℝ)) * F j (x (A i)) (xs i)) a (d * Real.exp b ^ 2) e
      show ∑ j, (Real.exp (z + logsumexp ws - Real.log N) * ∑ i, Real.exp (ws i - logsumexp ws) * H j (xs i) - a j) ^ 2
        + d * Real.exp (z + logsumexp ws - Real.log N) ^ 2 + e ≤ _
      simp only [e1]
      rw [hd', ← e5]
      linarith
    · have hmeas : Measurable fun xs : Fin N → X => ENNReal.ofReal (L ^ 2 * ∑ j, (∑ i, (1 / (N : ℝ)) *
          F j (x (A i)) (xs i) - a j / L) ^ 2 + d') := by
        have : ∀ j, Measurable fun xs : Fin N → X => ∑ i, (1 / (N : ℝ)) * F j (x (A i)) (xs i) := fun j =>
          Finset.measurable_fun_sum _ fun i _ => ((hFm j (x (A i))).comp (measurable_pi_apply i)).const_mul _
        fun_prop
      rw [hm.prop _ _ _ _ hmeas]
      refine (lintegral_pi_sq_le (fun i => S.q t' (x (A i))) (f := fun j i => F j (x (A i))) (fun j i => hFm j _)
        (fun j i => hF0 j _) (fun j i => hF1 j _) _ _ _ _ (sq_nonneg _) hd'0).trans
          (ENNReal.ofReal_le_ofReal (le_of_eq ?_))
      have e2 : ∑ _i : Fin N, ((1 : ℝ) / N) ^ 2 = (1 : ℝ) / N := by
        simp only [Finset.sum_const, Finset.card_univ, Fintype.card_fin, nsmul_eq_mul]
        field_simp
      have e3 : ∀ j, ∑ i, 1 / (N : ℝ) * ∫ u, F j (x (A i)) u ∂(S.q t' (x (A i))) = (∑ i, P j (x (A i))) / N := fun j => by
        rw [← Finset.mul_sum]
        simp only [hP]
        ring
      simp only [e2, e3]
      ring
  refine (Rand.E_mono _ hprop).trans ?_
  refine (E_res_sq hres hvar hlw (split k 2 0) (c := fun j i => P j (x i)) (M := Real.exp b * M)
    (fun j i => hP0 _ _) (fun j i => hP1 _ _) (fun j => a j / L) (L ^ 2) _ (sq_nonneg _) (by positivity)).trans
      (ENNReal.ofReal_le_ofReal (le_of_eq ?_))
  have e5 := sq_factor hLp (fun j => ∑ i, Real.exp (lw i) * P j (x i)) a 0 0
  simp only [zero_mul, add_zero] at e5
  rw [e5, hd']
  ring

/-- The whole recursion in mean square. -/
theorem E_twisted_scan_sq [NeZero N] {J : Type} [Fintype J] {m : TwistedFuns N X Y} {S : TwistedModel X} {y : Y}
    (hm : TwistedImplements m S y) {res : Smc.Resampling N} (hres : UnbiasedSums res) (hvar : SmallVariance res)
    {b : ℝ} {φ : J → X → ℝ} (hφ : ∀ j, Measurable (φ j)) (h0 : ∀ j x, 0 ≤ φ j x) (h1 : ∀ j x, φ j x ≤ 1)
    (a : J → ℝ) {e : ℝ} (he : 0 ≤ e) :
    ∀ (ts : List ℝ) (ks : List Key) (t : ℝ) (x : Fin N → X) (lp lw : Fin N → ℝ) (z : ℝ), S.WeightBound b t ts →
    ks.length = ts.length → (∀ i, lp i = S.logψ t (x i)) → Weights (fun i => Real.exp (lw i)) →
    (Rand.scan (twistedBodyZ m res y) ((x, lp, lw), z) (ks.zip ts)).E (fun r => ENNReal.ofReal
        (∑ j, (Real.exp r.1.2 * ∑ i, Real.exp (r.1.1.2.2 i) * φ j (r.1.1.1 i) - a j) ^ 2 + e))
      ≤ ENNReal.ofReal (∑ j, (Real.exp z * ∑ i, Real.exp (lw i) * twFutR S (φ j) t ts (x i) - a j) ^ 2
          + Fintype.card J * (2 * ts.length / N) * (Real.exp b ^ ts.length) ^ 2 * Real.exp z ^ 2 + e)
  | [], _, t, x, lp, lw, z, _, _, hlp, _ => by
    rw [List.zip_nil_right]
    show ENNReal.ofReal _ ≤ ENNReal.ofReal _
    simp [twFutR, twFut_nil, ENNReal.toReal_ofReal (h0 _ _)]
  | t' :: ts, k :: ks, t, x, lp, lw, z, hb, hk, hlp, hlw => by
    rw [List.zip_cons_cons, E_scan_cons]
    have hk' : ks.length = ts.length := by simpa using hk
    have hbody : (twistedBodyZ m res y ((x, lp, lw), z) (k, t')).Leaves fun r =>
        (∀ i, r.1.1.2.1 i = S.logψ t' (r.1.1.1 i)) ∧ Weights fun i => Real.exp (r.1.1.2.2 i) := by
      unfold twistedBodyZ
      exact (Rand.leaves_true _).bind fun A _ => (Rand.leaves_true _).bind fun xs _ =>
        ⟨fun i => hm.twist xs t' i, normalise_weights _⟩
    refine (Rand.E_mono_leaves hbody (g := fun r => ENNReal.ofReal
      (∑ j, (Real.exp r.1.2 * ∑ i, Real.exp (r.1.1.2.2 i) * twFutR S (φ j) t' ts (r.1.1.1 i) - a j) ^ 2
        + Fintype.card J * (2 * ts.length / N) * (Real.exp b ^ ts.length) ^ 2 * Real.exp r.1.2 ^ 2 + e))
      fun r hr => ?_).trans ?_
    · exact E_twisted_scan_sq hm hres hvar hφ h0 h1 a he ts ks t' r.1.1.1 r.1.1.2.1 r.1.1.2.2 r.1.2 hb.2 hk' hr.1 hr.2
    refine (E_twistedBody_sq hm hres hvar (fun j => measurable_twFutR S (hφ j) t' ts) (M := Real.exp b ^ ts.length)
      (fun j => twFutR_nonneg S _ _ _) (fun j => twFutR_le S (hφ j) (h1 j) hb.2) hb.1 x lp lw hlp hlw z k a _ e
      (by positivity) he).trans (ENNReal.ofReal_le_ofReal (le_of_eq ?_))
    simp only [twFutR_cons S (hφ _) (h1 _) hb, List.length_cons]
    push_cast
    ring
  | _ :: _, [], _, _, _, _, _, _, hk, _, _ => by simp at hk

end Fbs
