import Verif.Model.CsmcRun
import Verif.Props.CsmcBias
import Verif.Props.InitGuessBound
import Verif.Props.ExpKeys

/-!
# C112: the whole program of `tests/test_csmc.py`
-/

open MeasureTheory ProbabilityTheory Filter
open scoped ENNReal NNReal Topology

namespace Fbs
namespace Props

open Jax Spec Csmc Gibbs CsmcTest Mvn

/-! ### Every draw has total mass one -/

section Prob

variable {N : ℕ} {U V : Type}

theorem prob_normal {ι : Type} [Fintype ι] (k : Key) : (normal k ι).IsProb :=
  ⟨by unfold stdNormal; infer_instance, fun _ => trivial⟩

theorem prob_csmcKilling [NeZero N] (k : Key) (w : Fin N → ℝ) (i j : Fin N) : (CsmcResampling.killing k w i j true).IsProb := by
  have hu : ∀ k, (uniforms k N).IsProb := fun k =>
    ⟨inferInstanceAs (IsProbabilityMeasure (Measure.pi fun _ => unifMeasure)), fun _ => trivial⟩
  have hc : ∀ k, (choices k w N).IsProb := fun k => Rand.IsProb.bind (hu k) fun _ => trivial
  exact (hu _).bind fun _ => (hc _).bind fun _ => (prob_choice _ _).bind fun _ => trivial

theorem prob_kernel [NeZero N] {m : Csmc.Funs N U V} (hi : ∀ k n, (m.initSampler k n).IsProb)
    (ht : ∀ x v t k, (m.transSampler x v t k).IsProb) {res : CondResampling N} (hr : ∀ k w i j, (res k w i j true).IsProb) (n : ℕ)
    (b : Bool) (key : Key) (us : Arr1 U) (bs : Arr1 (Fin N)) (vs : Arr1 V) (ts : Arr1 ℝ) :
    (Csmc.kernel m res n b key us bs vs ts).IsProb := by
  have hb : ∀ s i, (scanBody m res s i).IsProb := fun s i => (hr _ _ _ _).bind fun _ => (ht _ _ _ _).bind fun _ => trivial
  have hs : ∀ x i, (samplingBody m x i).IsProb := fun x i => (prob_choice _ _).bind fun _ => trivial
  refine Rand.IsProb.bind ((hi _ _).bind fun _ => (prob_scan hb _ _).bind fun _ => trivial) fun out => ?_
  cases b
  · exact (prob_choice _ _).bind fun _ => trivial
  · exact (prob_choice _ _).bind fun _ => (prob_scan hs _ _).bind fun _ => trivial

theorem prob_gibbsSamples [NeZero N] {m : Csmc.Funs N U V} {res : CondResampling N} {n : ℕ} {b : Bool} {ts : Arr1 ℝ}
    (hk : ∀ key us bs vs, (Csmc.kernel m res n b key us bs vs ts).IsProb) {emit : Key → Arr1 U → Rand (Arr1 V)}
    (he : ∀ k us, (emit k us).IsProb) :
    ∀ (k : ℕ) (key : Key) (us : Arr1 U) (bs : Arr1 (Fin N)), (gibbsSamples m res n b emit ts k key us bs).IsProb
  | 0, _, _, _ => trivial
  | k + 1, _, _, _ => (he _ _).bind fun _ => (hk _ _ _ _).bind fun _ => (prob_gibbsSamples hk he k _ _ _).bind fun _ => trivial

/-- The `i`-th row of the recorded samples is the trajectory after `i + 1` rounds. -/
theorem gibbsSamples_get [NeZero N] {m : Csmc.Funs N U V} {res : CondResampling N} {n : ℕ} {ts : Arr1 ℝ}
    (hk : ∀ key us bs vs, (Csmc.kernel m res n false key us bs vs ts).IsProb) {emit : Key → Arr1 U → Rand (Arr1 V)}
    (he : ∀ k us, (emit k us).IsProb) (d : Arr1 U) (f : Arr1 U → ℝ≥0∞) :
    ∀ (i k : ℕ) (key : Key) (us : Arr1 U) (bs : Arr1 (Fin N)), i < k →
      (gibbsSamples m res n false emit ts k key us bs).E (fun l => f (l.getD i d))
        = (csmcGibbs m res n emit ts (i + 1) key us bs).E fun s => f s.1
  | 0, k + 1, key, us, bs, _ => by
    simp only [gibbsSamples, csmcGibbs, Rand.E_bind]
    refine Rand.E_congr _ fun ys => Rand.E_congr _ fun out => ?_
    exact Rand.E_const (prob_gibbsSamples hk he k _ _ _) (f (asPath us out.1))
  | i + 1, k + 1, key, us, bs, h => by
    rw [csmcGibbs]
    simp only [gibbsSamples, Rand.E_bind]
    refine Rand.E_congr _ fun ys => Rand.E_congr _ fun out => ?_
    exact gibbsSamples_get hk he d f i k _ _ _ (Nat.lt_of_succ_lt_succ h)

/-- The first recorded row is the trajectory returned by the first call, for both values of `backward`. -/
theorem gibbsSamples_head [NeZero N] {m : Csmc.Funs N U V} {res : CondResampling N} {n : ℕ} {b : Bool} {ts : Arr1 ℝ}
    (hk : ∀ key us bs vs, (Csmc.kernel m res n b key us bs vs ts).IsProb) {emit : Key → Arr1 U → Rand (Arr1 V)}
    (he : ∀ k us, (emit k us).IsProb) (d : Arr1 U) (f : Arr1 U → ℝ≥0∞) (k : ℕ) (key : Key) (us : Arr1 U) (bs : Arr1 (Fin N)) :
    (gibbsSamples m res n b emit ts (k + 1) key us bs).E (fun l => f (l.getD 0 d))
      = (emit (split key 2 1) us).E fun ys =>
          (Csmc.kernel m res n b (split (split key 2 0) 2 1) us bs ys ts).E fun out => f (asPath us out.1) := by
  simp only [gibbsSamples, Rand.E_bind]
  refine Rand.E_congr _ fun ys => Rand.E_congr _ fun out => ?_
  exact Rand.E_const (prob_gibbsSamples hk he k _ _ _) (f (asPath us out.1))

theorem length_gibbsSamples [NeZero N] (m : Csmc.Funs N U V) (res : CondResampling N) (n : ℕ) (b : Bool)
    (emit : Key → Arr1 U → Rand (Arr1 V)) (ts : Arr1 ℝ) :
    ∀ (k : ℕ) (key : Key) (us : Arr1 U) (bs : Arr1 (Fin N)), (gibbsSamples m res n b emit ts k key us bs).Leaves fun l => l.length = k
  | 0, _, _, _ => rfl
  | k + 1, _, _, _ => (Rand.leaves_true _).bind fun _ _ => (Rand.leaves_true _).bind fun _ _ =>
      (length_gibbsSamples m res n b emit ts k _ _ _).bind fun l hl => by
        show (_ :: l).length = k + 1
        rw [List.length_cons, hl]

theorem consumes_gibbsSamples [NeZero N] {m : Csmc.Funs N U V} (hm : CsmcKeyed m) {res : CondResampling N}
    (hres : ∀ k w i j, Rand.Consumes {k} (res k w i j true)) (n : ℕ) (b : Bool) {emit : Key → Arr1 U → Rand (Arr1 V)}
    (he : ∀ k us, Rand.Consumes {k} (emit k us)) (ts : Arr1 ℝ) :
    ∀ (k : ℕ) (key : Key) (us : Arr1 U) (bs : Arr1 (Fin N)), Rand.Consumes {key} (gibbsSamples m res n b emit ts k key us bs)
  | 0, _, _, _ => Rand.consumes_pure _ _
  | k + 1, _, _, _ => Rand.Consumes.bind_split (i := 1) (j := 0) (by decide) (he _ _) fun _ =>
      Rand.Consumes.bind_split (i := 1) (j := 0) (by decide) (consumes_csmc_kernel hm hres n b _ _ _ _ _) fun _ =>
        (consumes_gibbsSamples hm hres n b he ts k _ _ _).bind_pure _

end Prob

section Run

variable {K : ℕ} {cholesky : Matrix (Fin (K + 1)) (Fin (K + 1)) ℝ → Matrix (Fin (K + 1)) (Fin (K + 1)) ℝ}

theorem keyed_funs (N : ℕ) (F Q R statVar : ℝ) : CsmcKeyed (funs N F Q R statVar) :=
  ⟨fun _ _ => (consumes_normal _).bind_pure _, fun _ _ _ _ => (consumes_normal _).bind_pure _⟩

/-- **C112, keys and rows.**  For both values of `backward`, every draw of the test uses its own key, derived from the key of
the test, and one row is recorded per iteration. -/
theorem C112_keys (sigma ell dt R : ℝ) (nparticles : ℕ) (backward : Bool) (niters : ℕ) (key : Key) :
    FreshFrom key (testRun cholesky sigma ell dt R nparticles backward (samplerYs R) niters key) ∧
      (testRun cholesky sigma ell dt R nparticles backward (samplerYs R) niters key).Leaves fun l => l.length = niters := by
  constructor
  · refine Rand.Consumes.freshFrom (Rand.Consumes.bind_split (i := 1) (j := 0) (by decide) ((consumes_normal _).bind_pure _)
      fun xs => ?_)
    exact consumes_gibbsSamples (keyed_funs _ _ _ _ _) (fun k w i j => consumes_csmc_killing k w i j true) _ _
      (fun _ _ => (consumes_normal _).bind_pure _) _ _ _ _ _
  · exact (Rand.leaves_true _).bind fun _ _ => length_gibbsSamples _ _ _ _ _ _ _ _ _ _

theorem prob_testKernel (N : ℕ) [NeZero N] (F Q R statVar : ℝ) (n : ℕ) (b : Bool) (ts : Arr1 ℝ) (key : Key) (us : Arr1 ℝ)
    (bs : Arr1 (Fin N)) (vs : Arr1 ℝ) :
    (Csmc.kernel (funs N F Q R statVar) CsmcResampling.killing n b key us bs vs ts).IsProb :=
  prob_kernel (fun k _ => by
      show (normal k (Fin N) >>= fun z => Rand.ret fun i => 0 + Real.sqrt statVar * z i).IsProb
      exact (prob_normal k).bind fun _ => trivial)
    (fun xs _ _ k => by
      show (normal k (Fin N) >>= fun z => Rand.ret fun i => xs i * F + z i * Real.sqrt Q).IsProb
      exact (prob_normal k).bind fun _ => trivial)
    prob_csmcKilling n b key us bs vs ts

theorem prob_samplerYs (R : ℝ) (k : Key) (us : Arr1 ℝ) : (samplerYs R k us).IsProb :=
  Rand.IsProb.bind (prob_normal _) fun _ => trivial

/-- One recorded row in terms of the rounds of the loop. -/
theorem testRun_get {emit : Key → Arr1 ℝ → Rand (Arr1 ℝ)} (he : ∀ k us, (emit k us).IsProb) (sigma ell dt R : ℝ)
    (nparticles : ℕ) {niters i : ℕ} (hi : i < niters) (key : Key) (d : Arr1 ℝ) (f : Arr1 ℝ → ℝ≥0∞) :
    (testRun cholesky sigma ell dt R nparticles false emit niters key).E (fun l => f (l.getD i d))
      = (gpSampler cholesky sigma ell (split key 2 1) fun i : Fin (K + 1) => dt * i).E fun x =>
          (csmcGibbs (funs (nparticles + 1) (transFQ sigma ell dt).1 (transFQ sigma ell dt).2 R (sigma ^ 2)) CsmcResampling.killing
            nparticles emit (arr fun i : Fin (K + 1) => dt * i) (i + 1) (split key 2 0) (arr x) (0, List.replicate K 0)).E
              fun s => f s.1 := by
  simp only [testRun, Rand.E_bind]
  exact Rand.E_congr _ fun x => gibbsSamples_get (prob_testKernel _ _ _ _ _ _ _ _) he d f i niters _ _ _ hi

/-- **C112, the first row.**  For both values of `backward`, the first row has the law of the trajectory returned by
`csmc_kernel` for observations of a draw of `gp_sampler`; later iterations do not change it. -/
theorem C112_first_row (sigma ell dt R : ℝ) (nparticles : ℕ) (backward : Bool) (niters : ℕ) (key : Key) (d : Arr1 ℝ)
    (f : Arr1 ℝ → ℝ≥0∞) :
    (testRun cholesky sigma ell dt R nparticles backward (samplerYs R) (niters + 1) key).E (fun l => f (l.getD 0 d))
      = (gpSampler cholesky sigma ell (split key 2 1) fun i : Fin (K + 1) => dt * i).E fun x =>
          (samplerYs R (split (split key 2 0) 2 1) (arr x)).E fun ys =>
            (Csmc.kernel (funs (nparticles + 1) (transFQ sigma ell dt).1 (transFQ sigma ell dt).2 R (sigma ^ 2))
              CsmcResampling.killing nparticles backward (split (split (split key 2 0) 2 0) 2 1) (arr x) (0, List.replicate K 0) ys
              (arr fun i : Fin (K + 1) => dt * i)).E fun out => f (asPath (arr x) out.1) := by
  simp only [testRun, Rand.E_bind]
  exact Rand.E_congr _ fun x => gibbsSamples_head (prob_testKernel _ _ _ _ _ _ _ _) (prob_samplerYs R) d f niters _ _ _

/-- **C112, observations one step late.**  If `sampler_ys_cond_xs` were called on the trajectory shifted by one step, every
row recorded by the test (`backward=False`) would be normal with mean zero and covariance `gp_cov(ts, ts)`. -/
theorem C112_rows_late (hL : IsCholesky cholesky) {sigma ell dt R : ℝ} (hsig : sigma ≠ 0) (hl : 0 < ell) (hd : 0 < dt) (hR : 0 < R)
    (nparticles : ℕ) {niters i : ℕ} (hi : i < niters) (key : Key) (d : Arr1 ℝ) {f : Arr1 ℝ → ℝ≥0∞}
    (hf : Measurable fun q : Fin (K + 1) → ℝ => f (arr q)) :
    (testRun cholesky sigma ell dt R nparticles false (samplerYsAt (K := K) lag R) niters key).E (fun l => f (l.getD i d))
      = ∫⁻ x, f (arr x) ∂(mvn 0 (gpCov sigma ell (fun i : Fin (K + 1) => dt * i) fun i : Fin (K + 1) => dt * i)) := by
  rw [testRun_get (emit := samplerYsAt (K := K) lag R) (fun _ _ => prob_samplerYs R _ _) sigma ell dt R nparticles hi key d f]
  exact C111_gibbs hL hsig hl hd hR _ _ nparticles (i + 1) (by simp [arr]) _ (by simp) hf

/-- The constants of `/repo/tests/test_csmc.py:34-51`: every one of the 2000 rows. -/
example : ∃ cholesky : Matrix (Fin 11) (Fin 11) ℝ → Matrix (Fin 11) (Fin 11) ℝ, IsCholesky cholesky ∧ ∀ (key : Key) (i : ℕ), i < 2000 →
    (testRun cholesky 1 1 1 1 10 false (samplerYsAt (K := 10) lag 1) 2000 key).E (fun l => ENNReal.ofReal ((l.getD i (0, [])).1 ^ 2))
      = ∫⁻ x, ENNReal.ofReal (x 0 ^ 2) ∂(mvn 0 (gpCov 1 1 (fun i : Fin 11 => 1 * (i : ℝ)) fun i : Fin 11 => 1 * (i : ℝ))) := by
  obtain ⟨c, hc⟩ := exists_isCholesky 11
  exact ⟨c, hc, fun key i hi => C112_rows_late (K := 10) hc one_ne_zero one_pos one_pos one_pos 10 hi key (0, [])
    (f := fun us => ENNReal.ofReal (us.1 ^ 2)) (by unfold arr; fun_prop)⟩

theorem csmcGibbs_nsamples {N : ℕ} [NeZero N] (F Q R statVar : ℝ) (n n' : ℕ) (emit : Key → Arr1 ℝ → Rand (Arr1 ℝ)) (ts : Arr1 ℝ) :
    ∀ (k : ℕ) (key : Key) (us : Arr1 ℝ) (bs : Arr1 (Fin N)),
      csmcGibbs (funs N F Q R statVar) CsmcResampling.killing n emit ts k key us bs
        = csmcGibbs (funs N F Q R statVar) CsmcResampling.killing n' emit ts k key us bs
  | 0, _, _, _ => rfl
  | k + 1, _, _, _ => by
    rw [csmcGibbs, csmcGibbs]
    simp only [csmcGibbs_nsamples F Q R statVar n n' emit ts k]
    rfl

/-- **C112, the test as it is.**  With two times (`nsteps = 1`), `R = 1` and observations drawn at their own states, for all
large numbers of particles the first recorded row (`backward=False`) does not have the law `N(0, gp_cov(ts, ts))`. -/
theorem C112_rows_fail {cholesky : Matrix (Fin 2) (Fin 2) ℝ → Matrix (Fin 2) (Fin 2) ℝ} (hL : IsCholesky cholesky)
    {sigma ell dt : ℝ} (hsig : sigma ≠ 0) (hl : 0 < ell) (hd : 0 < dt) :
    ∃ B : Set ℝ, MeasurableSet B ∧ ∃ N0 : ℕ, ∀ nparticles ≥ N0, ∀ (niters : ℕ) (key : Key) (d : Arr1 ℝ), 0 < niters →
      (testRun (K := 1) cholesky sigma ell dt 1 nparticles false (samplerYs 1) niters key).E (fun l => B.indicator 1 (l.getD 0 d).1)
        ≠ ∫⁻ x, B.indicator 1 (x 0) ∂(mvn 0 (gpCov sigma ell (fun i : Fin 2 => dt * (i : ℝ)) fun i : Fin 2 => dt * (i : ℝ))) := by
  have hQ : 0 ≤ (transFQ sigma ell dt).2 := by
    rw [C111_discretisation sigma hl]
    have h1 : Real.exp (-dt / ell) ≤ 1 := Real.exp_le_one_iff.2 (div_neg_of_neg_of_pos (neg_neg_of_pos hd) hl).le
    have h2 := Real.exp_pos (-dt / ell)
    exact mul_nonneg (sq_nonneg _) (by nlinarith)
  obtain ⟨B, hB, N0, h⟩ := C110_test_fails hsig hl hd (dt * ((0 : Fin 2) : ℕ)) (dt * ((1 : Fin 2) : ℕ))
  refine ⟨B, hB, N0, fun n hn niters key d hpos => ?_⟩
  have hind : Measurable fun q : Fin 2 → ℝ => B.indicator (1 : ℝ → ℝ≥0∞) (q 0) :=
    (measurable_one.indicator hB).comp (measurable_pi_apply 0)
  have hne := h n hn (split key 2 0) (0, [0]) rfl
  rw [testRun_get (K := 1) (prob_samplerYs 1) sigma ell dt 1 n hpos key d fun us => B.indicator 1 us.1]
  have hp := C111_prior (K := 1) hL hsig hl hd one_pos (split key 2 1) (ts := (dt * ((0 : Fin 2) : ℕ), [dt * ((1 : Fin 2) : ℕ)])) rfl
    (f := fun us => B.indicator (1 : ℝ → ℝ≥0∞) us.1) hind
  have hm := (C110_test_functions (N := n + 1) (K := 1) (transFQ sigma ell dt).1 hQ (sq_nonneg sigma) one_pos)
  have hmeas : Measurable fun q : Fin 2 → ℝ => (csmcGibbs (funs (n + 1) (transFQ sigma ell dt).1 (transFQ sigma ell dt).2 1
      (sigma ^ 2)) CsmcResampling.killing (n + 1) (samplerYs 1) (dt * ((0 : Fin 2) : ℕ), [dt * ((1 : Fin 2) : ℕ)]) 1 (split key 2 0)
      (arr q) (0, [0])).E fun s => B.indicator (1 : ℝ → ℝ≥0∞) s.1.1 := by
    have e : ∀ q : Fin 2 → ℝ, _ := fun q =>
      csmcGibbs_eq (K := 1) hm.1 (Or.inl rfl) (n + 1) hm.2 (ts := (dt * ((0 : Fin 2) : ℕ), [dt * ((1 : Fin 2) : ℕ)])) rfl
        (f := fun us => B.indicator (1 : ℝ → ℝ≥0∞) us.1) hind 1 (split key 2 0) (arr q) (0, [0]) rfl rfl
    simp only [e, rowsOf_arr]
    exact measurable_roundsInt (K := 1) hm.1 (Or.inl rfl) (n + 1) id (ts := (dt * ((0 : Fin 2) : ℕ), [dt * ((1 : Fin 2) : ℕ)])) rfl
      (F := fun q : Fin 2 → ℝ => B.indicator (1 : ℝ → ℝ≥0∞) (q 0)) hind 1
  have hq := (C111_prior (K := 1) hL hsig hl hd one_pos (split key 2 1) (ts := (dt * ((0 : Fin 2) : ℕ), [dt * ((1 : Fin 2) : ℕ)])) rfl
    (f := fun us => (csmcGibbs (funs (n + 1) (transFQ sigma ell dt).1 (transFQ sigma ell dt).2 1 (sigma ^ 2))
      CsmcResampling.killing (n + 1) (samplerYs 1) (dt * ((0 : Fin 2) : ℕ), [dt * ((1 : Fin 2) : ℕ)]) 1 (split key 2 0) us (0, [0])).E
        fun s => B.indicator (1 : ℝ → ℝ≥0∞) s.1.1) hmeas).1
  rw [← hq, ← hp.1, hp.2] at hne
  simp only [csmcGibbs_nsamples _ _ _ _ n (n + 1)]
  exact hne

/-- The constants of `/repo/tests/test_csmc.py:34-48`, two times. -/
example : ∃ cholesky : Matrix (Fin 2) (Fin 2) ℝ → Matrix (Fin 2) (Fin 2) ℝ, IsCholesky cholesky ∧
    ∃ B : Set ℝ, MeasurableSet B ∧ ∃ N0 : ℕ, ∀ nparticles ≥ N0, ∀ key : Key,
      (testRun (K := 1) cholesky 1 1 1 1 nparticles false (samplerYs 1) 2000 key).E (fun l => B.indicator 1 (l.getD 0 (0, [])).1)
        ≠ ∫⁻ x, B.indicator 1 (x 0) ∂(mvn 0 (gpCov 1 1 (fun i : Fin 2 => 1 * (i : ℝ)) fun i : Fin 2 => 1 * (i : ℝ))) := by
  obtain ⟨c, hc⟩ := exists_isCholesky 2
  obtain ⟨B, hB, N0, h⟩ := C112_rows_fail hc one_ne_zero one_pos one_pos
  exact ⟨c, hc, B, hB, N0, fun n hn key => h n hn 2000 key (0, []) (by norm_num)⟩

/-- **C112, the transition density.**  `transition_logpdf` of the test, which only `backward=True` uses, is the log density of
`transition_sampler`. -/
theorem C112_transition_logpdf (N : ℕ) (F R statVar : ℝ) {Q : ℝ} (hQ : 0 < Q) (xs : Fin N → ℝ) (v t : ℝ) (i : Fin N) (key : Key)
    {f : ℝ → ℝ≥0∞} (hf : Measurable f) :
    ((funs N F Q R statVar).transSampler xs v t key).E (fun x => f (x i))
      = ∫⁻ y, ENNReal.ofReal (Real.exp ((funs N F Q R statVar).transLogpdf y xs v t i)) * f y := by
  have h := lintegral_stdNormal hQ.le (fun i : Fin N => xs i * F) (hf.comp (measurable_pi_apply i))
  have h1 : ((funs N F Q R statVar).transSampler xs v t key).E (fun x => f (x i))
      = ∫⁻ x, f (x i) ∂(gaussProd (fun i => xs i * F) Q.toNNReal) := by
    refine Eq.trans (lintegral_congr fun z => ?_) h
    show f (xs i * F + z i * Real.sqrt Q) = f (xs i * F + Real.sqrt Q * z i)
    rw [mul_comm (z i)]
  have hs : Real.sqrt Q ≠ 0 := (Real.sqrt_pos.2 hQ).ne'
  rw [h1]
  unfold gaussProd
  rw [(measurePreserving_eval (fun i => gaussianReal (xs i * F) Q.toNNReal) i).lintegral_comp hf,
    gaussianReal_of_var_ne_zero _ (Real.toNNReal_pos.2 hQ).ne',
    lintegral_withDensity_eq_lintegral_mul _ (measurable_gaussianPDF _ _) hf]
  refine lintegral_congr fun y => ?_
  show gaussianPDF _ _ y * f y = ENNReal.ofReal (Real.exp (Linear.normLogpdf y (xs i * F) (Real.sqrt Q))) * f y
  rw [exp_linear_normLogpdf hs, Real.sq_sqrt hQ.le]
  rfl

example (key : Key) (i : Fin 11) : ((funs 11 (Real.exp (-1)) (1 - Real.exp (-2)) 1 1).transSampler (fun i => i) 0 0 key).E
      (fun x => ENNReal.ofReal (x i ^ 2))
    = ∫⁻ y, ENNReal.ofReal (Real.exp ((funs 11 (Real.exp (-1)) (1 - Real.exp (-2)) 1 1).transLogpdf y (fun i => i) 0 0 i))
        * ENNReal.ofReal (y ^ 2) :=
  C112_transition_logpdf 11 _ 1 1 (sub_pos.2 (Real.exp_lt_one_iff.2 (by norm_num))) _ 0 0 i key
    (f := fun y => ENNReal.ofReal (y ^ 2)) (by fun_prop)

end Run

end Props
end Fbs
