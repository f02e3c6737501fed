import Verif.Props.Filters
import Mathlib.MeasureTheory.Measure.Prod
import Mathlib.Probability.Kernel.WithDensity

/-!
# Twisted SMC: C23
-/

open MeasureTheory ProbabilityTheory
open scoped ENNReal

namespace Fbs
namespace Spec

variable {X Y : Type} [MeasurableSpace X] {N : ℕ}

/-- What the functions given to `twisted_smc` (for one fixed `y`) stand for.  The transition may be any
non-negative function (`logp t x x'` is the logarithm of the density of `x'` given `x`, with respect to the
reference measure `ν`); the proposal is a Markov kernel with log density `logq`. -/
structure TwistedModel (X : Type) [MeasurableSpace X] where
  ν : Measure X
  init : Measure X
  prob : IsProbabilityMeasure init
  logp : ℝ → X → X → ℝ
  measp : ∀ t, Measurable fun z : X × X => logp t z.1 z.2
  logψ : ℝ → X → ℝ
  measψ : ∀ t, Measurable (logψ t)
  q : ℝ → Kernel X X
  markov : ∀ t, IsMarkovKernel (q t)
  logq : ℝ → X → X → ℝ
  measq : ∀ t, Measurable fun z : X × X => logq t z.1 z.2
  density : ∀ t x, q t x = ν.withDensity fun x' => ENNReal.ofReal (Real.exp (logq t x x'))
  sfinite : SFinite ν

attribute [instance] TwistedModel.prob TwistedModel.markov TwistedModel.sfinite

/-- Integral of `h(x_K)` against `Π_k p_k(x_k | x_{k-1}) ν(dx_k)` started at `x`. -/
noncomputable def TwistedModel.pInt (S : TwistedModel X) : List ℝ → X → (X → ℝ≥0∞) → ℝ≥0∞
  | [], x, h => h x
  | t :: ts, x, h => ∫⁻ x', ENNReal.ofReal (Real.exp (S.logp t x x')) * S.pInt ts x' h ∂S.ν

/-- The functions handed to `twisted_smc` implement the model. -/
structure TwistedImplements (m : Smc.TwistedFuns N X Y) (S : TwistedModel X) (y : Y) : Prop where
  init : ∀ k n (F : (Fin N → X) → ℝ≥0∞), Measurable F →
    (m.initSampler k n).E F = ∫⁻ x, F x ∂(Measure.pi fun _ => S.init)
  prop : ∀ k xs t (F : (Fin N → X) → ℝ≥0∞), Measurable F →
    (m.propSampler k xs t y).E F = ∫⁻ x, F x ∂(Measure.pi fun i => S.q t (xs i))
  trans : ∀ xs xs' t i, m.transLogpdf xs xs' t i = S.logp t (xs' i) (xs i)
  propLog : ∀ xs xs' t i, m.propLogpdf xs xs' t y i = S.logq t (xs' i) (xs i)
  twist : ∀ xs t i, m.twistLogpdf y xs t i = S.logψ t (xs i)

/-- `twisted_smc` with the running logarithm of the normalising constants recorded: the code subtracts
`logsumexp` at every step and forgets it. -/
noncomputable def twistedBodyZ (m : Smc.TwistedFuns N X Y) (res : Smc.Resampling N) (y : Y)
    (carry : ((Fin N → X) × (Fin N → ℝ) × (Fin N → ℝ)) × ℝ) (inp : Key × ℝ) :
    Rand ((((Fin N → X) × (Fin N → ℝ) × (Fin N → ℝ)) × ℝ) × Unit) := do
  let inds ← res (fun i => Real.exp (carry.1.2.2 i)) (split inp.1 2 0)
  let xsPrev := fun i => carry.1.1 (inds i)
  let psPrev := fun i => carry.1.2.1 (inds i)
  let xs ← m.propSampler (split inp.1 2 1) xsPrev inp.2 y
  let ps := m.twistLogpdf y xs inp.2
  let ws := fun i => m.transLogpdf xs xsPrev inp.2 i + ps i - m.propLogpdf xs xsPrev inp.2 y i - psPrev i
  pure (((xs, ps, fun i => ws i - Jax.logsumexp ws), carry.2 + Jax.logsumexp ws - Real.log N), ())

/-- The recording version of the whole sampler: particles, log weights, log normalising constant. -/
noncomputable def twistedSmcZ (m : Smc.TwistedFuns N X Y) (res : Smc.Resampling N) (key : Key)
    (y : Y) (ts : Arr1 ℝ) : Rand (((Fin N → X) × (Fin N → ℝ)) × ℝ) := do
  let xs ← m.initSampler (split key 2 0) N
  let ps := m.twistLogpdf y xs ts.1
  let r ← Rand.scan (twistedBodyZ m res y)
    ((xs, ps, fun i => ps i - Jax.logsumexp ps), Jax.logsumexp ps - Real.log N)
    ((splitAll (split key 2 1) ts.2.length).zip ts.2)
  pure ((r.1.1.1, r.1.1.2.2), r.1.2)

end Spec

namespace Props

open Jax Spec Smc Csmc

variable {X Y : Type} {N : ℕ}

theorem twisted_scan_forget [MeasurableSpace X] (m : TwistedFuns N X Y) (res : Smc.Resampling N) (y : Y) :
    ∀ (is : List (Key × ℝ)) (s : (Fin N → X) × (Fin N → ℝ) × (Fin N → ℝ)) (z : ℝ),
    (fun r => r.1.1) <$> Rand.scan (twistedBodyZ m res y) (s, z) is
      = Prod.fst <$> Rand.scan (twistedBody m res y) s is
  | [], s, z => rfl
  | i :: is, s, z => by
    simp only [Rand.scan, twistedBodyZ, twistedBody, map_bind, bind_assoc, pure_bind, map_pure, take]
    refine bind_congr fun A => bind_congr fun xs => ?_
    have := twisted_scan_forget m res y is
    simp only [map_eq_pure_bind] at this
    exact this _ _

/-- **C23, recording is harmless.** Forgetting the recorded constant gives exactly `twisted_smc`. -/
theorem C23_forget_constant [MeasurableSpace X] (m : TwistedFuns N X Y) (res : Smc.Resampling N) (key : Key)
    (y : Y) (ts : Arr1 ℝ) : Prod.fst <$> twistedSmcZ m res key y ts = twistedSmc m res key y ts := by
  simp only [twistedSmcZ, twistedSmc, map_bind, map_pure]
  refine bind_congr fun xs => ?_
  have := congrArg (fun p => (fun r => (r.1, r.2.2)) <$> p)
    (twisted_scan_forget m res y ((splitAll (split key 2 1) ts.2.length).zip ts.2)
      (xs, m.twistLogpdf y xs ts.1, fun i => m.twistLogpdf y xs ts.1 i - logsumexp (m.twistLogpdf y xs ts.1))
      (logsumexp (m.twistLogpdf y xs ts.1) - Real.log N))
  simp only [map_eq_pure_bind, bind_assoc, pure_bind] at this
  exact this

theorem twisted_scan_weights [NeZero N] (m : TwistedFuns N X Y) (res : Smc.Resampling N) (y : Y) :
    ∀ (is : List (Key × ℝ)) (s : (Fin N → X) × (Fin N → ℝ) × (Fin N → ℝ)),
    Weights (fun i => Real.exp (s.2.2 i)) → ∀ r, (Rand.scan (twistedBody m res y) s is).Returns r →
    Weights (fun i => Real.exp (r.1.2.2 i))
  | [], s, hs, r, h => by
    simp only [Rand.scan, Rand.pure_eq, Rand.returns_ret] at h
    rw [h]; exact hs
  | i :: is, s, hs, r, h => by
    obtain ⟨r1, h1, h⟩ := Rand.returns_bind.1 h
    obtain ⟨rs, h2, h⟩ := Rand.returns_bind.1 h
    simp only [Rand.pure_eq, Rand.returns_ret] at h
    subst h
    refine twisted_scan_weights m res y is r1.1 ?_ rs h2
    obtain ⟨A, -, h1⟩ := Rand.returns_bind.1 h1
    obtain ⟨xs, -, h1⟩ := Rand.returns_bind.1 h1
    simp only [Rand.pure_eq, Rand.returns_ret] at h1
    rw [h1]
    exact normalise_weights _

/-- **C23, normalised weights.** For every draw the returned log weights exponentiate to a probability
vector. -/
theorem C23_weights_normalised [NeZero N] (m : TwistedFuns N X Y) (res : Smc.Resampling N) (key : Key)
    (y : Y) (ts : Arr1 ℝ) {out : (Fin N → X) × (Fin N → ℝ)} (h : (twistedSmc m res key y ts).Returns out) :
    (∀ i, 0 ≤ Real.exp (out.2 i)) ∧ ∑ i, Real.exp (out.2 i) = 1 := by
  obtain ⟨xs, -, h⟩ := Rand.returns_bind.1 h
  obtain ⟨r, hr, h⟩ := Rand.returns_bind.1 h
  simp only [Rand.pure_eq, Rand.returns_ret] at h
  subst h
  have := twisted_scan_weights m res y _ _ (normalise_weights _) r hr
  exact ⟨this.nonneg, this.sum_one⟩

variable [MeasurableSpace X]

theorem measurable_pInt (S : TwistedModel X) {h : X → ℝ≥0∞} (hh : Measurable h) :
    ∀ ts : List ℝ, Measurable fun x => S.pInt ts x h
  | [] => hh
  | t :: ts => by
    simp only [TwistedModel.pInt]
    refine Measurable.lintegral_prod_right' (f := fun z : X × X =>
      ENNReal.ofReal (Real.exp (S.logp t z.1 z.2)) * S.pInt ts z.2 h) ?_
    exact (ENNReal.measurable_ofReal.comp (Real.measurable_exp.comp (S.measp t))).mul
      ((measurable_pInt S hh ts).comp measurable_snd)

theorem lintegral_pi_sum' {ι : Type} [Fintype ι] (μ : ι → Measure X) [∀ i, IsProbabilityMeasure (μ i)]
    {h : ι → X → ℝ≥0∞} (hh : ∀ i, Measurable (h i)) :
    ∫⁻ x, ∑ i, h i (x i) ∂(Measure.pi μ) = ∑ i, ∫⁻ u, h i u ∂(μ i) := by
  have hm : ∀ i, Measurable fun x : ι → X => h i (x i) := fun i => (hh i).comp (measurable_pi_apply i)
  rw [lintegral_finsetSum _ fun i _ => hm i]
  refine Finset.sum_congr rfl fun i _ => ?_
  exact (measurePreserving_eval μ i).lintegral_comp (hh i)

/-- Importance sampling: integrating the density ratio against the proposal. -/
theorem lintegral_ratio (S : TwistedModel X) (t : ℝ) (x : X) {h : X → ℝ≥0∞} (hh : Measurable h) (c : ℝ) :
    ∫⁻ x', ENNReal.ofReal (Real.exp (S.logp t x x' - S.logq t x x' - c)) * h x' ∂(S.q t x)
      = ENNReal.ofReal (Real.exp (-c)) * ∫⁻ x', ENNReal.ofReal (Real.exp (S.logp t x x')) * h x' ∂S.ν := by
  have hp : Measurable (S.logp t x) := (S.measp t).comp measurable_prodMk_left
  have hq : Measurable (S.logq t x) := (S.measq t).comp measurable_prodMk_left
  have hE : ∀ {f : X → ℝ}, Measurable f → Measurable fun x' => ENNReal.ofReal (Real.exp (f x')) :=
    fun hf => ENNReal.measurable_ofReal.comp (Real.measurable_exp.comp hf)
  have hr : Measurable fun x' => ENNReal.ofReal (Real.exp (S.logp t x x' - S.logq t x x' - c)) * h x' :=
    (hE ((hp.sub hq).sub_const c)).mul hh
  have hs : Measurable fun x' => ENNReal.ofReal (Real.exp (S.logp t x x')) * h x' := (hE hp).mul hh
  rw [S.density, lintegral_withDensity_eq_lintegral_mul _ (hE hq) hr, ← lintegral_const_mul _ hs]
  refine lintegral_congr fun x' => ?_
  simp only [Pi.mul_apply]
  rw [← mul_assoc, ← mul_assoc, ← ENNReal.ofReal_mul (Real.exp_pos _).le,
    ← ENNReal.ofReal_mul (Real.exp_pos _).le, ← Real.exp_add, ← Real.exp_add]
  congr 3
  ring

theorem E_twisted_scan [NeZero N] {m : TwistedFuns N X Y} {S : TwistedModel X} {y : Y}
    (hm : TwistedImplements m S y) {res : Smc.Resampling N} (hres : UnbiasedSums res) {φ : X → ℝ≥0∞}
    (hφ : Measurable φ) : ∀ (ts : List ℝ) (ks : List Key) (t : ℝ) (x : Fin N → X) (lp lw : Fin N → ℝ) (z : ℝ),
    ks.length = ts.length → (∀ i, lp i = S.logψ t (x i)) → Weights (fun i => Real.exp (lw i)) →
    (Rand.scan (twistedBodyZ m res y) ((x, lp, lw), z) (ks.zip ts)).E
        (fun r => ENNReal.ofReal (Real.exp r.1.2) *
          ∑ i, ENNReal.ofReal (Real.exp (r.1.1.2.2 i)) * φ (r.1.1.1 i))
      = ENNReal.ofReal (Real.exp z) * ∑ i, ENNReal.ofReal (Real.exp (lw i)) *
          (ENNReal.ofReal (Real.exp (-lp i)) *
            S.pInt ts (x i) fun x' => ENNReal.ofReal (Real.exp (S.logψ (ts.getLastD t) x')) * φ x')
  | [], _, t, x, lp, lw, z, _, hlp, _ => by
    have : ∀ i, ENNReal.ofReal (Real.exp (-lp i)) * S.pInt [] (x i)
        (fun x' => ENNReal.ofReal (Real.exp (S.logψ (([] : List ℝ).getLastD t) x')) * φ x') = φ (x i) := by
      intro i
      simp only [TwistedModel.pInt, List.getLastD_nil, hlp]
      rw [← mul_assoc, ← ENNReal.ofReal_mul (Real.exp_pos _).le, ← Real.exp_add]
      simp
    simp only [this]
    simp [Rand.scan]
  | t' :: ts, k :: ks, t, x, lp, lw, z, hk, hlp, hlw => by
    rw [List.zip_cons_cons, E_scan_cons]
    set H : X → ℝ≥0∞ := fun u => S.pInt ts u
      fun x' => ENNReal.ofReal (Real.exp (S.logψ (ts.getLastD t') x')) * φ x' with hH
    have hHm : Measurable H := measurable_pInt S
      ((ENNReal.measurable_ofReal.comp (Real.measurable_exp.comp (S.measψ _))).mul hφ) ts
    simp only [twistedBodyZ, Rand.E_bind, Rand.pure_eq, Rand.E_ret]
    have h1 : ∀ (xs : Fin N → X) (ws : Fin N → ℝ),
        (Rand.scan (twistedBodyZ m res y) ((xs, m.twistLogpdf y xs t', fun i => ws i - logsumexp ws),
          z + logsumexp ws - Real.log N) (ks.zip ts)).E
        (fun r => ENNReal.ofReal (Real.exp r.1.2) *
          ∑ i, ENNReal.ofReal (Real.exp (r.1.1.2.2 i)) * φ (r.1.1.1 i))
        = ENNReal.ofReal (Real.exp z) * ((N : ℝ≥0∞)⁻¹ * ∑ j,
          ENNReal.ofReal (Real.exp (ws j - S.logψ t' (xs j))) * H (xs j)) := by
      intro xs ws
      rw [E_twisted_scan hm hres hφ ts ks t' xs (m.twistLogpdf y xs t') (fun i => ws i - logsumexp ws) _
        (by simpa using hk) (fun i => hm.twist xs t' i) (normalise_weights ws), add_sub_assoc, Real.exp_add,
        ENNReal.ofReal_mul (Real.exp_pos _).le, mul_assoc]
      congr 1
      simp only [Finset.mul_sum]
      refine Finset.sum_congr rfl fun j _ => ?_
      have h2 : ENNReal.ofReal (Real.exp (ws j - S.logψ t' (xs j)))
          = ENNReal.ofReal (Real.exp (ws j)) * ENNReal.ofReal (Real.exp (-m.twistLogpdf y xs t' j)) := by
        rw [← ENNReal.ofReal_mul (Real.exp_pos _).le, ← Real.exp_add, hm.twist, sub_eq_add_neg]
      have hN : (N : ℝ≥0∞)⁻¹ * N = 1 := ENNReal.inv_mul_cancel (by simp [NeZero.ne N]) (by simp)
      rw [h2, ← estimate_mul_weight ws j]
      calc _ = 1 * (ENNReal.ofReal (Real.exp (logsumexp ws - Real.log N)) *
            (ENNReal.ofReal (Real.exp (ws j - logsumexp ws)) *
              (ENNReal.ofReal (Real.exp (-m.twistLogpdf y xs t' j)) * H (xs j)))) := by rw [one_mul]
        _ = _ := by rw [← hN]; ring
    simp only [h1, hm.trans, hm.propLog, hm.twist]
    have h3 : ∀ (A : Fin N → Fin N),
        (m.propSampler (split k 2 1) (fun i => x (A i)) t' y).E (fun xs => ENNReal.ofReal (Real.exp z) *
          ((N : ℝ≥0∞)⁻¹ * ∑ j, ENNReal.ofReal (Real.exp (S.logp t' (x (A j)) (xs j) + S.logψ t' (xs j)
            - S.logq t' (x (A j)) (xs j) - lp (A j) - S.logψ t' (xs j))) * H (xs j)))
        = ENNReal.ofReal (Real.exp z) * ((N : ℝ≥0∞)⁻¹ * ∑ j, (fun i => ENNReal.ofReal (Real.exp (-lp i)) *
            S.pInt (t' :: ts) (x i)
              fun x' => ENNReal.ofReal (Real.exp (S.logψ (ts.getLastD t') x')) * φ x') (A j)) := by
      intro A
      have h4 : ∀ (xs : Fin N → X) j, S.logp t' (x (A j)) (xs j) + S.logψ t' (xs j)
            - S.logq t' (x (A j)) (xs j) - lp (A j) - S.logψ t' (xs j)
          = S.logp t' (x (A j)) (xs j) - S.logq t' (x (A j)) (xs j) - lp (A j) := fun _ _ => by ring
      simp only [h4]
      have h5 : ∀ j, Measurable fun u : X =>
          ENNReal.ofReal (Real.exp (S.logp t' (x (A j)) u - S.logq t' (x (A j)) u - lp (A j))) * H u := by
        intro j
        have hp : Measurable (S.logp t' (x (A j))) := (S.measp t').comp measurable_prodMk_left
        have hq : Measurable (S.logq t' (x (A j))) := (S.measq t').comp measurable_prodMk_left
        exact (ENNReal.measurable_ofReal.comp (Real.measurable_exp.comp ((hp.sub hq).sub_const _))).mul hHm
      have h6 : Measurable fun xs : Fin N → X => ∑ j,
          ENNReal.ofReal (Real.exp (S.logp t' (x (A j)) (xs j) - S.logq t' (x (A j)) (xs j) - lp (A j)))
            * H (xs j) := Finset.measurable_fun_sum _ fun j _ => (h5 j).comp (measurable_pi_apply j)
      rw [hm.prop _ _ _ _ ((h6.const_mul _).const_mul _), lintegral_const_mul _ (h6.const_mul _),
        lintegral_const_mul _ h6, lintegral_pi_sum' _ h5]
      simp only [lintegral_ratio S t' _ hHm]
      rfl
    simp only [h3]
    have hN0 : (N : ℝ≥0∞)⁻¹ ≠ ∞ := by simp [NeZero.ne N]
    have hN : (N : ℝ≥0∞)⁻¹ * N = 1 := ENNReal.inv_mul_cancel (by simp [NeZero.ne N]) (by simp)
    rw [Rand.E_const_mul _ ENNReal.ofReal_ne_top, Rand.E_const_mul _ hN0, hres _ (split k 2 0) hlw
      (fun i => ENNReal.ofReal (Real.exp (-lp i)) * S.pInt (t' :: ts) (x i)
        fun x' => ENNReal.ofReal (Real.exp (S.logψ (ts.getLastD t') x')) * φ x'),
      ← mul_assoc (N : ℝ≥0∞)⁻¹, hN, one_mul, List.getLastD_cons]
  | _ :: _, [], _, _, _, _, _, hk, _, _ => by simp at hk

/-- **C23, proper weighting.** With the recorded normalising constant `Z`, the expectation of
`Z Σ_i W_i φ(X_i)` is the integral of `φ(x_K)` times the final twisting function against
`init(dx_0) Π_k p_k(x_k | x_{k-1})`, whatever the proposal and the intermediate twisting functions. -/
theorem C23_properly_weighted [NeZero N] {m : TwistedFuns N X Y} {S : TwistedModel X} {y : Y}
    (hm : TwistedImplements m S y) {res : Smc.Resampling N} (hres : UnbiasedSums res) (key : Key)
    (ts : Arr1 ℝ) {φ : X → ℝ≥0∞} (hφ : Measurable φ) :
    (twistedSmcZ m res key y ts).E (fun out => ENNReal.ofReal (Real.exp out.2) *
        ∑ i, ENNReal.ofReal (Real.exp (out.1.2 i)) * φ (out.1.1 i))
      = ∫⁻ x, S.pInt ts.2 x (fun x' => ENNReal.ofReal (Real.exp (S.logψ ts.last x')) * φ x') ∂S.init := by
  simp only [twistedSmcZ, Rand.E_bind, Rand.pure_eq, Rand.E_ret]
  have hlast : ts.last = ts.2.getLastD ts.1 := by
    obtain ⟨t, ts⟩ := ts
    cases ts <;> simp [Arr1.last, List.getLastD]
  set H : X → ℝ≥0∞ := fun u => S.pInt ts.2 u
    fun x' => ENNReal.ofReal (Real.exp (S.logψ ts.last x')) * φ x' with hH
  have hHm : Measurable H := measurable_pInt S
    ((ENNReal.measurable_ofReal.comp (Real.measurable_exp.comp (S.measψ _))).mul hφ) ts.2
  have hN : (N : ℝ≥0∞)⁻¹ * N = 1 := ENNReal.inv_mul_cancel (by simp [NeZero.ne N]) (by simp)
  have h1 : ∀ xs : Fin N → X, (Rand.scan (twistedBodyZ m res y) ((xs, m.twistLogpdf y xs ts.1, fun i =>
      m.twistLogpdf y xs ts.1 i - logsumexp (m.twistLogpdf y xs ts.1)),
      logsumexp (m.twistLogpdf y xs ts.1) - Real.log N)
      ((splitAll (split key 2 1) ts.2.length).zip ts.2)).E (fun r => ENNReal.ofReal (Real.exp r.1.2) *
        ∑ i, ENNReal.ofReal (Real.exp (r.1.1.2.2 i)) * φ (r.1.1.1 i))
      = (N : ℝ≥0∞)⁻¹ * ∑ i, H (xs i) := by
    intro xs
    rw [E_twisted_scan hm hres hφ ts.2 _ ts.1 xs (m.twistLogpdf y xs ts.1)
      (fun i => m.twistLogpdf y xs ts.1 i - logsumexp (m.twistLogpdf y xs ts.1)) _ (by simp [splitAll])
      (fun i => hm.twist xs ts.1 i) (normalise_weights _), ← hlast]
    simp only [Finset.mul_sum]
    refine Finset.sum_congr rfl fun i _ => ?_
    have h2 := estimate_mul_weight (m.twistLogpdf y xs ts.1) i
    have h3 : ENNReal.ofReal (Real.exp (m.twistLogpdf y xs ts.1 i)) *
        ENNReal.ofReal (Real.exp (-m.twistLogpdf y xs ts.1 i)) = 1 := by
      rw [← ENNReal.ofReal_mul (Real.exp_pos _).le, ← Real.exp_add]
      simp
    rw [← one_mul (ENNReal.ofReal (Real.exp (logsumexp _ - _)) * _), ← hN]
    calc _ = (N : ℝ≥0∞)⁻¹ * ((ENNReal.ofReal (Real.exp (logsumexp (m.twistLogpdf y xs ts.1) - Real.log N)) *
          (N * ENNReal.ofReal (Real.exp (m.twistLogpdf y xs ts.1 i
            - logsumexp (m.twistLogpdf y xs ts.1))))) *
            ENNReal.ofReal (Real.exp (-m.twistLogpdf y xs ts.1 i))) * H (xs i) := by ring
      _ = _ := by rw [h2, h3, mul_one]
  simp only [h1]
  rw [hm.init, lintegral_init_avg S.init hHm]
  exact (Finset.measurable_fun_sum _ fun i _ => hHm.comp (measurable_pi_apply i)).const_mul _

/-! ### The hypotheses can be met -/

/-- Coin flips with a biased proposal. -/
noncomputable def coinTwisted : TwistedModel Bool where
  ν := Measure.count
  init := Measure.dirac true
  prob := inferInstance
  logp _ _ _ := Real.log (1 / 2)
  measp _ := measurable_const
  logψ t x := if x then t else 0
  measψ _ := measurable_of_finite _
  q _ := Kernel.const Bool (Measure.count.withDensity fun x' =>
    ENNReal.ofReal (Real.exp (if x' then Real.log (3 / 4) else Real.log (1 / 4))))
  markov _ := by
    have : IsProbabilityMeasure (Measure.count.withDensity fun x' : Bool =>
        ENNReal.ofReal (Real.exp (if x' then Real.log (3 / 4) else Real.log (1 / 4)))) := by
      refine ⟨?_⟩
      rw [withDensity_apply _ MeasurableSet.univ, Measure.restrict_univ, lintegral_count, tsum_fintype]
      simp only [Fintype.sum_bool, if_true, Bool.false_eq_true, if_false]
      rw [Real.exp_log (by norm_num), Real.exp_log (by norm_num),
        ← ENNReal.ofReal_add (by norm_num) (by norm_num)]
      norm_num
    exact inferInstance
  logq _ _ x' := if x' then Real.log (3 / 4) else Real.log (1 / 4)
  measq _ := measurable_of_finite _
  density _ _ := by rw [Kernel.const_apply]
  sfinite := inferInstance

/-- Its implementation. -/
noncomputable def coinTwistedFuns (N : ℕ) : TwistedFuns N Bool Unit where
  initSampler k _ := Rand.sample k Set.univ (Measure.pi fun _ => coinTwisted.init)
  propSampler k xs t _ := Rand.sample k Set.univ (Measure.pi fun i => coinTwisted.q t (xs i))
  transLogpdf xs xs' t i := coinTwisted.logp t (xs' i) (xs i)
  propLogpdf xs xs' t _ i := coinTwisted.logq t (xs' i) (xs i)
  twistLogpdf _ xs t i := coinTwisted.logψ t (xs i)

example (key : Key) (φ : Bool → ℝ≥0∞) :
    (twistedSmcZ (coinTwistedFuns 4) Resampling.stratified key () (3, [2, 1])).E (fun out =>
        ENNReal.ofReal (Real.exp out.2) * ∑ i, ENNReal.ofReal (Real.exp (out.1.2 i)) * φ (out.1.1 i))
      = ∫⁻ x, coinTwisted.pInt [2, 1] x
          (fun x' => ENNReal.ofReal (Real.exp (coinTwisted.logψ 1 x')) * φ x') ∂coinTwisted.init :=
  C23_properly_weighted (m := coinTwistedFuns 4) (S := coinTwisted)
    ⟨fun _ _ _ _ => rfl, fun _ _ _ _ _ => rfl, fun _ _ _ _ => rfl, fun _ _ _ _ => rfl, fun _ _ _ => rfl⟩
    sums_stratified key (3, [2, 1]) (measurable_of_finite _)

end Props
end Fbs
