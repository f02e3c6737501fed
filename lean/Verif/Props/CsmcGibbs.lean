import Verif.Lemmas.Emission

/-!
# C110: the Gibbs test of `csmc_kernel`
-/

open MeasureTheory ProbabilityTheory
open scoped ENNReal

namespace Fbs
namespace Props

open Jax Spec Csmc Gibbs Chains

section

variable {N K : ℕ} {U V : Type} [MeasurableSpace U] [MeasurableSpace V] {H : Hmm U V}

/-- Mean of `F` of the trajectory after one round started at `q`. -/
noncomputable def roundInt [NeZero N] (H : Hmm U V) (m : Csmc.Funs N U V) (res : CondResampling N) (n : ℕ)
    (src : Fin (K + 1) → Fin (K + 1)) (ts : Arr1 ℝ) (F : (Fin (K + 1) → U) → ℝ≥0∞) (q : Fin (K + 1) → U) : ℝ≥0∞ :=
  ∫⁻ y, emW H src y q *
    (Csmc.kernel m res n false [] (arr q) (0, List.replicate K 0) (arr y) ts).E (fun out => onPath K F out.1)
      ∂(Measure.pi fun _ => H.base)

/-- Mean of `F` of the trajectory after `k` rounds. -/
noncomputable def roundsInt [NeZero N] (H : Hmm U V) (m : Csmc.Funs N U V) (res : CondResampling N) (n : ℕ)
    (src : Fin (K + 1) → Fin (K + 1)) (ts : Arr1 ℝ) (F : (Fin (K + 1) → U) → ℝ≥0∞) : ℕ → (Fin (K + 1) → U) → ℝ≥0∞
  | 0 => F
  | k + 1 => roundInt H m res n src ts (roundsInt H m res n src ts F k)

theorem scheme_of {N : ℕ} [NeZero N] {res : CondResampling N}
    (hres : res = CsmcResampling.killing ∨ res = CsmcResampling.multinomial) : Nonempty (ExactScheme res) := by
  rcases hres with rfl | rfl
  · exact ⟨killingScheme⟩
  · exact ⟨multinomialScheme⟩

theorem measurable_csmc_joint [NeZero N] {m : Csmc.Funs N U V} (hm : Implements m H.space) {res : CondResampling N}
    (hres : res = CsmcResampling.killing ∨ res = CsmcResampling.multinomial) (n : ℕ) (key : Key) (bs : Arr1 (Fin N))
    (hb : bs.2.length = K) (ts : Arr1 ℝ) (ht : ts.2.length = K) {F : (Fin (K + 1) → U) → ℝ≥0∞} (hF : Measurable F) :
    Measurable fun z : (Fin (K + 1) → U) × (Fin (K + 1) → V) =>
      (Csmc.kernel m res n false key (arr z.1) bs (arr z.2) ts).E fun out => onPath K F out.1 := by
  obtain ⟨C⟩ := scheme_of hres
  exact csmc_joint (space_jointMeas H) (H.meas.comp (measurable_fst.prodMk (measurable_snd.comp measurable_snd))) hm C n key bs hb
    ts ht hF

theorem measurable_roundInt [NeZero N] {m : Csmc.Funs N U V} (hm : Implements m H.space) {res : CondResampling N}
    (hres : res = CsmcResampling.killing ∨ res = CsmcResampling.multinomial) (n : ℕ) (src : Fin (K + 1) → Fin (K + 1))
    {ts : Arr1 ℝ} (ht : ts.2.length = K) {F : (Fin (K + 1) → U) → ℝ≥0∞} (hF : Measurable F) :
    Measurable (roundInt H m res n src ts F) :=
  Measurable.lintegral_prod_right' (f := fun z : (Fin (K + 1) → U) × (Fin (K + 1) → V) => emW H src z.2 z.1 *
      (Csmc.kernel m res n false [] (arr z.1) (0, List.replicate K 0) (arr z.2) ts).E (fun out => onPath K F out.1))
    ((measurable_emW src).mul (measurable_csmc_joint hm hres n [] _ (by simp) ts ht hF))

theorem measurable_roundsInt [NeZero N] {m : Csmc.Funs N U V} (hm : Implements m H.space) {res : CondResampling N}
    (hres : res = CsmcResampling.killing ∨ res = CsmcResampling.multinomial) (n : ℕ) (src : Fin (K + 1) → Fin (K + 1))
    {ts : Arr1 ℝ} (ht : ts.2.length = K) {F : (Fin (K + 1) → U) → ℝ≥0∞} (hF : Measurable F) :
    ∀ k, Measurable (roundsInt H m res n src ts F k)
  | 0 => hF
  | k + 1 => measurable_roundInt hm hres n src ht (measurable_roundsInt hm hres n src ht hF k)

/-- The law of the trajectory after `k` rounds: the indices play no role. -/
theorem csmcGibbs_eq [NeZero N] {m : Csmc.Funs N U V} (hm : Implements m H.space) {res : CondResampling N}
    (hres : res = CsmcResampling.killing ∨ res = CsmcResampling.multinomial) (n : ℕ) {src : Fin (K + 1) → Fin (K + 1)}
    {emit : Key → Arr1 U → Rand (Arr1 V)} (he : H.Emits src emit) {ts : Arr1 ℝ} (ht : ts.2.length = K)
    {f : Arr1 U → ℝ≥0∞} (hf : Measurable fun q : Fin (K + 1) → U => f (arr q)) :
    ∀ (k : ℕ) (key : Key) (us : Arr1 U) (bs : Arr1 (Fin N)), us.2.length = K → bs.2.length = K →
      (csmcGibbs m res n emit ts k key us bs).E (fun s => f s.1)
        = roundsInt H m res n src ts (fun q => f (arr q)) k (rowsOf K us)
  | 0, _, us, _, hu, _ => by
    show f us = f (arr (rowsOf K us))
    rw [arr_rowsOf hu]
  | k + 1, key, us, bs, hu, hb => by
    have hV := measurable_roundsInt hm hres n src ht hf k
    have hy : ∀ y : Fin (K + 1) → V, (arr y).2.length = K := fun y => by simp [arr]
    have hin : ∀ y : Fin (K + 1) → V,
        (Csmc.kernel m res n false (split (split key 2 0) 2 1) us bs (arr y) ts).E (fun out =>
          (csmcGibbs m res n emit ts k (split (split key 2 0) 2 0) (asPath us out.1) (Gibbs.asIdx bs out.2)).E fun s => f s.1)
          = (Csmc.kernel m res n false [] (arr (rowsOf K us)) (0, List.replicate K 0) (arr y) ts).E
            (fun out => onPath K (roundsInt H m res n src ts (fun q => f (arr q)) k) out.1) := fun y => by
      obtain ⟨η, -, hη⟩ := csmc_ker hm hres n (arr y) ts (hy y) ht
      rw [arr_rowsOf hu, hη [] us (0, List.replicate K 0) hu (by simp) _ hV, ← hη (split (split key 2 0) 2 1) us bs hu hb _ hV]
      refine Rand.E_congr_leaves (leaves_csmc_length m res n _ hu hb (hy y) ht) fun out ho => ?_
      obtain ⟨us', bs'⟩ := out
      obtain ⟨h1, h2⟩ := ho
      match us', bs', h1, h2 with
      | u :: l, b :: bl, h1, h2 =>
        exact csmcGibbs_eq hm hres n he ht hf k _ (u, l) (b, bl) (by simpa using h1) (by simpa using h2)
    have h := he (split key 2 1) (rowsOf K us) (fun vs => (Csmc.kernel m res n false (split (split key 2 0) 2 1) us bs vs ts).E
      fun out => (csmcGibbs m res n emit ts k (split (split key 2 0) 2 0) (asPath us out.1) (Gibbs.asIdx bs out.2)).E
        fun s => f s.1) (by
          simp only [hin]
          exact (measurable_csmc_joint hm hres n [] _ (by simp) ts ht hV).comp measurable_prodMk_left)
    rw [arr_rowsOf hu] at h
    simp only [csmcGibbs, Rand.E_bind]
    rw [h]
    refine lintegral_congr fun y => ?_
    rw [hin y]
    rfl

/-- One round with lagged observations keeps the prior. -/
theorem prior_roundInt [NeZero N] {m : Csmc.Funs N U V} (hm : Implements m H.space) {res : CondResampling N}
    (hres : res = CsmcResampling.killing ∨ res = CsmcResampling.multinomial) (n : ℕ) {ts : Arr1 ℝ} (ht : ts.2.length = K)
    {F : (Fin (K + 1) → U) → ℝ≥0∞} (hF : Measurable F) {π : Measure (Fin (K + 1) → U)} [IsProbabilityMeasure π]
    (hπ : ∀ F, Measurable F → H.prior ts (fun a => F (rowsOf K a)) = ∫⁻ q, F q ∂π) :
    ∫⁻ q, roundInt H m res n lag ts F q ∂π = ∫⁻ q, F q ∂π := by
  have hw := measurable_emW (H := H) (K := K) lag
  have hj := measurable_csmc_joint hm hres n [] (0, List.replicate K 0) (by simp) ts ht hF
  obtain ⟨C⟩ := scheme_of hres
  have hinv : ∀ y : Fin (K + 1) → V, ∫⁻ q, emW H lag y q *
      (Csmc.kernel m res n false [] (arr q) (0, List.replicate K 0) (arr y) ts).E (fun out => onPath K F out.1) ∂π
      = ∫⁻ q, emW H lag y q * F q ∂π := fun y => by
    have hy : (arr y).2.length = K := by simp [arr]
    have hty : ts.2.length = (arr y).2.length := ht.trans hy.symm
    obtain ⟨η, -, hη⟩ := csmc_ker hm hres n (arr y) ts hy ht
    have h1 : ∀ G, Measurable G → ∫⁻ q, emW H lag y q * G q ∂π
        = H.space.target N (arr y) ts fun p => G (rowsOf K (p.map Prod.fst)) := fun G hG => by
      rw [target_space H y ts ht G]
      exact (hπ (fun q => emW H lag y q * G q) ((hw.comp measurable_prodMk_right).mul hG)).symm
    have hG : Measurable fun q =>
        (Csmc.kernel m res n false [] (arr q) (0, List.replicate K 0) (arr y) ts).E (fun out => onPath K F out.1) :=
      hj.comp measurable_prodMk_right
    rw [h1 _ hG, h1 F hF]
    have h2 := C10_csmc_invariant hm C n [] (arr y) ts hty (fun us _ => onPath K F us) (by rw [hy]; exact measOut_onPath hF)
    refine Eq.trans (target_congr _ _ _ hty fun p hp => ?_) (h2.trans rfl)
    have hp1 : (p.map Prod.fst).2.length = K := by simp [Arr1.map, hp, hy]
    rw [arr_rowsOf hp1, hη [] _ _ hp1 (by simp) F hF, hη [] _ _ hp1 (by simp [Arr1.map, hp, hy]) F hF]
  unfold roundInt
  rw [lintegral_lintegral_swap (hw.mul hj).aemeasurable]
  simp only [hinv]
  rw [lintegral_lintegral_swap]
  · refine lintegral_congr fun q => ?_
    have hwq : Measurable fun y => emW H lag y q := hw.comp measurable_prodMk_left
    rw [lintegral_mul_const _ hwq, lintegral_emW, one_mul]
  · exact ((hw.comp measurable_swap).mul (hF.comp measurable_snd)).aemeasurable

/-- **C110.**  Draw a trajectory from the prior and then, any number of times, observations given the trajectory and a
trajectory given the observations by one call of `csmc_kernel(backward=False)`.  If the `k`-th observation is drawn at the
`(k-1)`-th state (the `0`-th one at the `0`-th state), then the trajectory keeps the prior law, for every number of particles,
every number of rounds and every choice of the first indices. -/
theorem C110_prior_kept [NeZero N] {m : Csmc.Funs N U V} (hm : Implements m H.space) {res : CondResampling N}
    (hres : res = CsmcResampling.killing ∨ res = CsmcResampling.multinomial) (n : ℕ)
    {emit : Key → Arr1 U → Rand (Arr1 V)} (he : H.Emits (K := K) lag emit) {ts : Arr1 ℝ} (ht : ts.2.length = K)
    (k : ℕ) (key : Key) (bs : Arr1 (Fin N)) (hb : bs.2.length = K) {f : Arr1 U → ℝ≥0∞}
    (hf : Measurable fun q : Fin (K + 1) → U => f (arr q)) :
    H.prior ts (fun us => (csmcGibbs m res n emit ts k key us bs).E fun s => f s.1) = H.prior ts f := by
  obtain ⟨π, hP, hπ⟩ := prior_measure H ts ht
  have h1 : ∀ k, ∫⁻ q, roundsInt H m res n lag ts (fun q => f (arr q)) k q ∂π = ∫⁻ q, f (arr q) ∂π := by
    intro k
    induction k with
    | zero => rfl
    | succ k ih => exact (prior_roundInt hm hres n ht (measurable_roundsInt hm hres n lag ht hf k) hπ).trans ih
  rw [prior_congr ts ht fun us hu => csmcGibbs_eq hm hres n he ht hf k key us bs hu hb,
    hπ _ (measurable_roundsInt hm hres n lag ht hf k), h1, ← hπ _ hf]
  exact prior_congr ts ht fun us hu => by rw [arr_rowsOf hu]

end

/-! ### Keys -/

section Keys

variable {N : ℕ} {U V : Type}

theorem consumes_csmcGibbs [NeZero N] {m : Csmc.Funs N U V} (hm : CsmcKeyed m) {res : CondResampling N}
    (hres : ∀ k w i j, Rand.Consumes {k} (res k w i j true)) (n : ℕ) {emit : Key → Arr1 U → Rand (Arr1 V)}
    (he : ∀ k us, Rand.Consumes {k} (emit k us)) (ts : Arr1 ℝ) :
    ∀ (k : ℕ) (key : Key) (us : Arr1 U) (bs : Arr1 (Fin N)), Rand.Consumes {key} (csmcGibbs m res n emit ts k key us bs)
  | 0, _, _, _ => Rand.consumes_pure _ _
  | k + 1, _, _, _ => Rand.Consumes.bind_split (i := 1) (j := 0) (by decide) (he _ _) fun _ =>
      Rand.Consumes.bind_split (i := 1) (j := 0) (by decide) (consumes_csmc_kernel hm hres n false _ _ _ _ _) fun _ =>
        consumes_csmcGibbs hm hres n he ts k _ _ _

/-- **C110, keys.**  Every draw of the loop uses its own key, derived from the key handed to the loop. -/
theorem C110_keys [NeZero N] {m : Csmc.Funs N U V} (hm : CsmcKeyed m) {res : CondResampling N}
    (hres : res = CsmcResampling.killing ∨ res = CsmcResampling.multinomial) (n : ℕ) {emit : Key → Arr1 U → Rand (Arr1 V)}
    (he : ∀ k us, Rand.Consumes {k} (emit k us)) (ts : Arr1 ℝ) (k : ℕ) (key : Key) (us : Arr1 U) (bs : Arr1 (Fin N)) :
    FreshFrom key (csmcGibbs m res n emit ts k key us bs) := by
  refine (consumes_csmcGibbs hm ?_ n he ts k key us bs).freshFrom
  rcases hres with rfl | rfl
  · exact fun k w i j => consumes_csmc_killing k w i j true
  · exact fun k w i j => consumes_csmc_multinomial k w i j true

end Keys

/-! ### Samplers of the observations -/

section Emit

variable {K : ℕ} {U V : Type} [MeasurableSpace U] [MeasurableSpace V]

/-- The emission law at the state `u`. -/
noncomputable def emLaw (H : Hmm U V) (u : U) : Measure V :=
  H.base.withDensity fun v => ENNReal.ofReal (Real.exp (H.logLik v u))

instance (H : Hmm U V) (u : U) : IsProbabilityMeasure (emLaw H u) :=
  ⟨by rw [emLaw, withDensity_apply _ MeasurableSet.univ, Measure.restrict_univ, H.total]⟩

/-- Draw the `i`-th observation at the state with number `src i`. -/
noncomputable def hmmEmit (H : Hmm U V) (src : Fin (K + 1) → Fin (K + 1)) (key : Key) (us : Arr1 U) : Rand (Arr1 V) :=
  Rand.sample key Set.univ (Measure.pi fun i => emLaw H (rowsOf K us (src i))) >>= fun y => pure (arr y)

theorem pi_emLaw (H : Hmm U V) (src : Fin (K + 1) → Fin (K + 1)) (q : Fin (K + 1) → U) :
    (Measure.pi fun i => emLaw H (q (src i))) = (Measure.pi fun _ => H.base).withDensity fun y => emW H src y q := by
  refine Measure.pi_eq fun s hs => ?_
  have hd : ∀ i, Measurable fun v => ENNReal.ofReal (Real.exp (H.logLik v (q (src i)))) := fun i =>
    ENNReal.measurable_ofReal.comp (Real.measurable_exp.comp (H.meas.comp measurable_prodMk_right))
  rw [withDensity_apply _ (MeasurableSet.univ_pi hs), ← lintegral_indicator (MeasurableSet.univ_pi hs)]
  have e : ∀ y : Fin (K + 1) → V, (Set.univ.pi s).indicator (fun y => emW H src y q) y
      = ∏ i, (s i).indicator (fun v => ENNReal.ofReal (Real.exp (H.logLik v (q (src i))))) (y i) := fun y => by
    by_cases h : y ∈ Set.univ.pi s
    · rw [Set.indicator_of_mem h]
      exact Finset.prod_congr rfl fun i _ => by rw [Set.indicator_of_mem (h i (Set.mem_univ i))]
    · rw [Set.indicator_of_notMem h]
      have : ∃ i, y i ∉ s i := by
        by_contra hc
        push Not at hc
        exact h fun i _ => hc i
      obtain ⟨i, hi⟩ := this
      exact (Finset.prod_eq_zero (Finset.mem_univ i) (Set.indicator_of_notMem hi _)).symm
  simp only [e]
  rw [lintegral_prod_fin H.base (fun i => (s i).indicator fun v => ENNReal.ofReal (Real.exp (H.logLik v (q (src i)))))
    fun i => (hd i).indicator (hs i)]
  refine Finset.prod_congr rfl fun i _ => ?_
  rw [lintegral_indicator (hs i), emLaw, withDensity_apply _ (hs i)]

theorem emits_hmmEmit (H : Hmm U V) (src : Fin (K + 1) → Fin (K + 1)) : H.Emits src (hmmEmit H src) := fun key q Φ hΦ => by
  have hw : Measurable fun y => emW H src y q := (measurable_emW src).comp measurable_prodMk_left
  unfold hmmEmit
  rw [Rand.E_bind, Rand.E_sample, rowsOf_arr, pi_emLaw, lintegral_withDensity_eq_lintegral_mul _ hw (by exact hΦ)]
  rfl

end Emit

/-! ### Observations drawn at their own states -/

section Coin

/-- Heads with probability `1 / 4`. -/
noncomputable def biasedCoin : Measure Bool :=
  ENNReal.ofReal (3 / 4) • Measure.dirac false + ENNReal.ofReal (1 / 4) • Measure.dirac true

theorem lintegral_tails (g : Bool → ℝ≥0∞) :
    ∫⁻ u, g u ∂biasedCoin = ENNReal.ofReal (3 / 4) * g false + ENNReal.ofReal (1 / 4) * g true := by
  rw [biasedCoin, lintegral_add_measure, lintegral_smul_measure, lintegral_smul_measure, lintegral_dirac, lintegral_dirac]
  rfl

theorem quarter_add : ENNReal.ofReal (3 / 4) + ENNReal.ofReal (1 / 4) = 1 := by
  rw [← ENNReal.ofReal_add (by norm_num) (by norm_num)]
  norm_num

instance : IsProbabilityMeasure biasedCoin :=
  ⟨by rw [← lintegral_one, lintegral_tails]; simpa using quarter_add⟩

/-- Independent throws of the coin, each reported correctly with probability `4 / 5`. -/
noncomputable def coinH : Hmm Bool Bool where
  init := biasedCoin
  prob := inferInstance
  trans _ := Kernel.const Bool biasedCoin
  markov _ := inferInstance
  base := Measure.count
  sigma := inferInstance
  logLik v u := Real.log (if v = u then 4 / 5 else 1 / 5)
  meas := measurable_of_finite _
  total u := by
    have h : ∀ v, ENNReal.ofReal (Real.exp (Real.log (if v = u then 4 / 5 else 1 / 5))) = ENNReal.ofReal (if v = u then 4 / 5 else 1 / 5) :=
      fun v => by rw [Real.exp_log]; split_ifs <;> norm_num
    simp only [h]
    rw [lintegral_count, tsum_fintype, Fintype.sum_bool]
    cases u <;> simp only [if_true, reduceCtorEq, if_false] <;> rw [← ENNReal.ofReal_add (by norm_num) (by norm_num)] <;> norm_num

theorem coin_lik (v u : Bool) :
    ENNReal.ofReal (Real.exp (coinH.logLik v u)) = ENNReal.ofReal (if v = u then 4 / 5 else 1 / 5) := by
  show ENNReal.ofReal (Real.exp (Real.log (if v = u then 4 / 5 else 1 / 5))) = _
  rw [Real.exp_log]; split_ifs <;> norm_num

theorem coinH_bound (v u : Bool) : |coinH.logLik v u| ≤ Real.log 5 := by
  show |Real.log (if v = u then 4 / 5 else 1 / 5)| ≤ Real.log 5
  have h : ∀ x : ℝ, 1 / 5 ≤ x → x ≤ 1 → |Real.log x| ≤ Real.log 5 := fun x h1 h2 => by
    rw [abs_of_nonpos (Real.log_nonpos (by linarith) h2), ← Real.log_inv]
    refine Real.log_le_log (by positivity) ?_
    rw [inv_le_comm₀ (by linarith) (by norm_num)]
    linarith
  split_ifs <;> exact h _ (by norm_num) (by norm_num)

theorem coin_prior (X : Arr1 Bool → ℝ≥0∞) : coinH.prior (0, [1]) X
    = ENNReal.ofReal (3 / 4) * (ENNReal.ofReal (3 / 4) * X (false, [false]) + ENNReal.ofReal (1 / 4) * X (false, [true]))
      + ENNReal.ofReal (1 / 4) * (ENNReal.ofReal (3 / 4) * X (true, [false]) + ENNReal.ofReal (1 / 4) * X (true, [true])) := by
  show ∫⁻ u, ∫⁻ u', X (u, [u']) ∂(Kernel.const Bool biasedCoin u) ∂biasedCoin = _
  simp only [Kernel.const_apply, lintegral_tails]

theorem lintegral_pair (G : (Fin 2 → Bool) → ℝ≥0∞) :
    ∫⁻ y, G y ∂(Measure.pi fun _ => coinH.base)
      = G ![true, true] + G ![true, false] + (G ![false, true] + G ![false, false]) := by
  have h := (measurePreserving_finTwoArrow coinH.base).symm
  rw [← h.lintegral_comp_emb (MeasurableEquiv.measurableEmbedding _), lintegral_prod _ (measurable_of_finite _).aemeasurable]
  show ∫⁻ a, ∫⁻ b, G ![a, b] ∂Measure.count ∂Measure.count = _
  simp only [lintegral_count, tsum_fintype, Fintype.sum_bool]

/-- The first throw is tails. -/
noncomputable def startsTails (a : Arr1 Bool) : ℝ≥0∞ := if a.1 = false then 1 else 0

theorem coin_refMean (a b : Bool) :
    refMean coinH.space.init (coinH.space.logG0 a b) (coinH.space.steps a [b] [0, 1]) (onPath 1 fun q => startsTails (arr q))
      = ENNReal.ofReal (if a = b then (if a = true then 3 / 19 else 48 / 49) else 3 / 4) := by
  unfold refMean
  show (∫⁻ u, ENNReal.ofReal (Real.exp (coinH.logLik a u)) * (ENNReal.ofReal (Real.exp (coinH.logLik b u)) *
      ∫⁻ u', (if u = false then 1 else 0) ∂(Kernel.const Bool biasedCoin u)) ∂biasedCoin) *
    (∫⁻ u, ENNReal.ofReal (Real.exp (coinH.logLik a u)) * (ENNReal.ofReal (Real.exp (coinH.logLik b u)) *
      ∫⁻ u', 1 ∂(Kernel.const Bool biasedCoin u)) ∂biasedCoin)⁻¹ = _
  simp only [Kernel.const_apply, lintegral_const, measure_univ, lintegral_tails, coin_lik, mul_one, if_true, reduceCtorEq, if_false,
    mul_zero, add_zero]
  cases a <;> cases b <;> simp only [if_true, reduceCtorEq, if_false] <;>
    simp only [← ENNReal.ofReal_mul (show (0 : ℝ) ≤ 4 / 5 by norm_num), ← ENNReal.ofReal_mul (show (0 : ℝ) ≤ 1 / 5 by norm_num),
      ← ENNReal.ofReal_mul (show (0 : ℝ) ≤ 3 / 4 by norm_num), ← ENNReal.ofReal_mul (show (0 : ℝ) ≤ 1 / 4 by norm_num)] <;>
    rw [← ENNReal.ofReal_add (by norm_num) (by norm_num), ← ENNReal.ofReal_inv_of_pos (by norm_num),
      ← ENNReal.ofReal_mul (by norm_num)] <;> norm_num

theorem coin_round (n : ℕ) (key : Key) (bs : Arr1 (Fin 1000000)) (hb : bs.2.length = 1) (u u' : Bool) (y : Fin 2 → Bool) :
    ENNReal.ofReal (if y 0 = y 1 then (if y 0 = true then 3 / 19 else 48 / 49) else 3 / 4)
      ≤ (Csmc.kernel (modelFuns coinH.space 1000000) CsmcResampling.killing n false key (u, [u']) bs (arr y) (0, [1])).E
        (fun out => onPath 1 (fun q => startsTails (arr q)) out.1) + ENNReal.ofReal (1 / 100) := by
  have hy : (arr y).2.length = 1 := by simp [arr]
  have h := (C97_csmc_ideal (implements_modelFuns coinH.space 1000000) killingScheme le_rfl spreads_killing pairBound_killing
    (Real.log_nonneg (by norm_num : (1 : ℝ) ≤ 5)) (fun v _ _ u => coinH_bound v u) (fun v _ u => coinH_bound v u) n key (u, [u'])
    bs (arr y) (0, [1]) hy.symm (hb.trans hy.symm) hy.symm
    (φ := onPath 1 fun q => startsTails (arr q)) (by rw [hy]; exact measList_onPath (measurable_of_finite _))
    (onPath_le_one fun q => by unfold startsTails; split_ifs <;> simp)).2
  rw [← coin_refMean (y 0) (y 1)]
  refine h.trans (add_le_add le_rfl (ENNReal.ofReal_le_ofReal ?_))
  rw [hy]
  unfold idealErr
  have h5 : Real.exp (2 * Real.log 5 * ((1 : ℕ) + 1)) = 625 := by
    rw [show 2 * Real.log 5 * ((1 : ℕ) + 1) = Real.log (5 ^ 4) by rw [Real.log_pow]; push_cast; ring, Real.exp_log (by norm_num)]
    norm_num
  rw [h5]
  norm_num

/-- **C110, the observations of the test.**  If every observation is drawn at its own state, as
`/repo/tests/test_csmc.py:60-62` does, the loop need not keep the prior: for two independent throws of a coin and a million
particles, a single round makes tails in the first throw more likely. -/
theorem C110_own_state_fails (n : ℕ) (key : Key) (bs : Arr1 (Fin 1000000)) (hb : bs.2.length = 1) :
    coinH.Emits (K := 1) id (hmmEmit coinH (id : Fin 2 → Fin 2)) ∧ Implements (modelFuns coinH.space 1000000) coinH.space ∧
    coinH.prior (0, [1]) startsTails < coinH.prior (0, [1]) fun us =>
      (csmcGibbs (modelFuns coinH.space 1000000) CsmcResampling.killing n (hmmEmit coinH (id : Fin 2 → Fin 2)) (0, [1]) 1 key us
        bs).E fun s => startsTails s.1 := by
  refine ⟨emits_hmmEmit coinH id, implements_modelFuns _ _, ?_⟩
  have hmeas : Measurable fun q : Fin 2 → Bool => startsTails (arr q) := measurable_of_finite _
  have hX : ∀ us : Arr1 Bool, us.2.length = 1 → _ := fun us hu =>
    csmcGibbs_eq (implements_modelFuns coinH.space 1000000) (Or.inl rfl) n (emits_hmmEmit coinH (id : Fin 2 → Fin 2))
      (ts := (0, [1])) rfl hmeas 1 key us bs hu hb
  set X : Arr1 Bool → ℝ≥0∞ := fun us =>
      (csmcGibbs (modelFuns coinH.space 1000000) CsmcResampling.killing n (hmmEmit coinH (id : Fin 2 → Fin 2)) (0, [1]) 1 key us
        bs).E fun s => startsTails s.1 with hXd
  -- the mean over the observations of the ideal draws
  let w : Bool → Bool → ℝ := fun v u => if v = u then 4 / 5 else 1 / 5
  let r : Bool → Bool → ℝ := fun a b => if a = b then (if a = true then 3 / 19 else 48 / 49) else 3 / 4
  let L : Bool → Bool → ℝ := fun u u' => w true u * w true u' * r true true + w true u * w false u' * r true false +
    (w false u * w true u' * r false true + w false u * w false u' * r false false)
  have hw : ∀ v u, 0 ≤ w v u := fun v u => by simp only [w]; split_ifs <;> norm_num
  have hr : ∀ v u, 0 ≤ r v u := fun v u => by simp only [r]; split_ifs <;> norm_num
  have hL : ∀ u u', ENNReal.ofReal (L u u') ≤ X (u, [u']) + ENNReal.ofReal (1 / 100) := fun u u' => by
    have hq : (arr (rowsOf 1 (u, [u'])) : Arr1 Bool) = (u, [u']) := arr_rowsOf rfl
    have e : ∀ a b, emW coinH (id : Fin 2 → Fin 2) ![a, b] (rowsOf 1 (u, [u'])) = ENNReal.ofReal (w a u * w b u') := fun a b => by
      unfold emW
      rw [Fin.prod_univ_two, ENNReal.ofReal_mul (hw _ _)]
      exact congrArg₂ (· * ·) (coin_lik a u) (coin_lik b u')
    have h1 : X (u, [u']) + ENNReal.ofReal (1 / 100)
        = ∫⁻ y, emW coinH (id : Fin 2 → Fin 2) y (rowsOf 1 (u, [u'])) *
          ((Csmc.kernel (modelFuns coinH.space 1000000) CsmcResampling.killing n false [] (u, [u']) (0, [0]) (arr y) (0, [1])).E
            (fun out => onPath 1 (fun q => startsTails (arr q)) out.1) + ENNReal.ofReal (1 / 100))
            ∂(Measure.pi fun _ => coinH.base) := by
      have hX' : X (u, [u']) = _ := hX (u, [u']) rfl
      simp only [mul_add]
      rw [lintegral_add_left (measurable_of_finite _), lintegral_mul_const _ (measurable_of_finite _), lintegral_emW, one_mul, hX']
      show roundInt _ _ _ _ _ _ _ _ + _ = _
      unfold roundInt
      rw [hq]
      rfl
    rw [h1]
    refine le_trans ?_ (lintegral_mono fun y => mul_le_mul' le_rfl (coin_round n [] (0, [0]) rfl u u' y))
    rw [lintegral_pair]
    simp only [e]
    simp only [L, Matrix.cons_val_zero, Matrix.cons_val_one]
    have hp : ∀ a b, 0 ≤ w a u * w b u' * r a b := fun a b => mul_nonneg (mul_nonneg (hw _ _) (hw _ _)) (hr _ _)
    rw [ENNReal.ofReal_add (add_nonneg (hp _ _) (hp _ _)) (add_nonneg (hp _ _) (hp _ _)), ENNReal.ofReal_add (hp _ _) (hp _ _),
      ENNReal.ofReal_add (hp _ _) (hp _ _)]
    simp only [ENNReal.ofReal_mul (mul_nonneg (hw _ _) (hw _ _))]
    exact le_rfl
  have hsum : coinH.prior (0, [1]) (fun us => X us + ENNReal.ofReal (1 / 100)) = coinH.prior (0, [1]) X + ENNReal.ofReal (1 / 100) := by
    have hq := quarter_add
    rw [coin_prior, coin_prior]
    generalize ENNReal.ofReal (3 / 4) = a at hq ⊢
    generalize ENNReal.ofReal (1 / 4) = b at hq ⊢
    generalize ENNReal.ofReal (1 / 100) = c
    calc _ = a * (a * X (false, [false]) + b * X (false, [true])) + b * (a * X (true, [false]) + b * X (true, [true]))
          + (a + b) * ((a + b) * c) := by ring
      _ = _ := by rw [hq, one_mul, one_mul]
  have hlow : coinH.prior (0, [1]) (fun us => ENNReal.ofReal (L us.1 (us.2.headD false)))
      ≤ coinH.prior (0, [1]) X + ENNReal.ofReal (1 / 100) := by
    rw [← hsum, coin_prior, coin_prior]
    gcongr <;> exact hL _ _
  have hnum : ENNReal.ofReal (77 / 100) ≤ coinH.prior (0, [1]) (fun us => ENNReal.ofReal (L us.1 (us.2.headD false))) := by
    rw [coin_prior]
    simp only [L, w, r, List.headD_cons, if_true, reduceCtorEq, if_false]
    simp only [← ENNReal.ofReal_mul (show (0 : ℝ) ≤ 3 / 4 by norm_num), ← ENNReal.ofReal_mul (show (0 : ℝ) ≤ 1 / 4 by norm_num)]
    rw [← ENNReal.ofReal_add (by norm_num) (by norm_num), ← ENNReal.ofReal_add (by norm_num) (by norm_num),
      ← ENNReal.ofReal_mul (by norm_num), ← ENNReal.ofReal_mul (by norm_num), ← ENNReal.ofReal_add (by norm_num) (by norm_num)]
    exact ENNReal.ofReal_le_ofReal (by norm_num)
  have hf : coinH.prior (0, [1]) startsTails = ENNReal.ofReal (3 / 4) := by
    have hq := quarter_add
    rw [coin_prior]
    simp only [startsTails, if_true, reduceCtorEq, if_false, mul_one, mul_zero, add_zero, hq]
  rw [hf]
  by_contra hc
  push Not at hc
  have h3 := (hnum.trans hlow).trans (add_le_add hc le_rfl)
  rw [← ENNReal.ofReal_add (by norm_num) (by norm_num), ENNReal.ofReal_le_ofReal_iff (by norm_num)] at h3
  norm_num at h3

/-- With lagged observations the same loop keeps the prior, here for three throws, five particles and a hundred rounds. -/
example (key : Key) : coinH.prior (0, [1, 2]) (fun us =>
      (csmcGibbs (modelFuns coinH.space 5) CsmcResampling.killing 5 (hmmEmit coinH (lag : Fin 3 → Fin 3)) (0, [1, 2]) 100 key us
        (0, [0, 0])).E fun s => startsTails s.1) = coinH.prior (0, [1, 2]) startsTails :=
  C110_prior_kept (K := 2) (implements_modelFuns coinH.space 5) (Or.inl rfl) 5 (emits_hmmEmit coinH lag) rfl 100 key (0, [0, 0]) rfl
    (measurable_of_finite _)

example (key : Key) (us : Arr1 Bool) : FreshFrom key (csmcGibbs (modelFuns coinH.space 5) CsmcResampling.killing 5
    (hmmEmit coinH (id : Fin 3 → Fin 3)) (0, [1, 2]) 100 key us (0, [0, 0])) :=
  C110_keys (keyed_modelFuns _ _) (Or.inl rfl) 5 (fun _ _ => (Rand.consumes_sample _ _ _).bind_pure _) (0, [1, 2]) 100 key us _

end Coin

end Props
end Fbs
