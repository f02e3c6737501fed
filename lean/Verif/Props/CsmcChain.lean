import Verif.Lemmas.CsmcChain
import Verif.Props.ExpKeys
import Verif.Model.CsmcLoop

/-!
# C109: the chain of repeated `csmc_kernel` calls
-/

open MeasureTheory ProbabilityTheory
open scoped ENNReal

namespace Fbs
namespace Props

open Jax Spec Csmc Gibbs Chains

section

variable {N K : ℕ} {U V : Type}

theorem leaves_csmc_length [NeZero N] (m : Csmc.Funs N U V) (res : CondResampling N) (k : ℕ) (key : Key) {us : Arr1 U}
    {bs : Arr1 (Fin N)} {vs : Arr1 V} {ts : Arr1 ℝ} (hu : us.2.length = K) (hb : bs.2.length = K) (hv : vs.2.length = K)
    (ht : ts.2.length = K) :
    (Csmc.kernel m res k false key us bs vs ts).Leaves fun out => out.1.length = K + 1 ∧ out.2.length = K + 1 := by
  unfold Csmc.kernel
  have hf : (forwardPass m res k (split key 2 0) us bs vs ts).Leaves fun out => out.1.length = K ∧ out.2.2.2.length = K := by
    unfold forwardPass
    refine (Rand.leaves_true _).bind fun u0 _ => (leaves_scan_length _ _).bind fun r hr => ?_
    have hl : (scanInputs us bs vs ts (splitAll (split (split key 2 0) 2 1) us.2.length)).length = K := by
      simp [scanInputs, hu, hv, hb, ht, splitAll, Arr1.init]
    simp [Rand.Leaves, hr, hl]
  refine hf.bind fun out ho => ?_
  obtain ⟨h1, h2⟩ := ho
  simp only [Bool.false_eq_true, if_false]
  unfold backwardScanning
  refine (Rand.leaves_true _).bind fun B _ => ?_
  simp [Rand.Leaves, Arr1.insertReverse, det_scan_length, h1, h2, revInit_length]

theorem leaves_csmcLoop [NeZero N] (m : Csmc.Funs N U V) (res : CondResampling N) (n : ℕ) {vs : Arr1 V} {ts : Arr1 ℝ}
    (hv : vs.2.length = K) (ht : ts.2.length = K) : ∀ (k : ℕ) (key : Key) (us : Arr1 U) (bs : Arr1 (Fin N)),
    us.2.length = K → bs.2.length = K → (csmcLoop m res n vs ts k key us bs).Leaves fun s => s.1.2.length = K
  | 0, _, _, _, hu, _ => hu
  | k + 1, key, us, bs, hu, hb => by
    refine (leaves_csmc_length m res n _ hu hb hv ht).bind fun out ho => ?_
    obtain ⟨us', bs'⟩ := out
    obtain ⟨h1, h2⟩ := ho
    match us', bs', h1, h2 with
    | u :: l, b :: bl, h1, h2 =>
      exact leaves_csmcLoop m res n hv ht k _ (u, l) (b, bl) (by simpa using h1) (by simpa using h2)

variable [MeasurableSpace U]

theorem csmcLoop_iter [NeZero N] {m : Csmc.Funs N U V} {res : CondResampling N} {n : ℕ} {vs : Arr1 V} {ts : Arr1 ℝ}
    (hv : vs.2.length = K) (ht : ts.2.length = K) {η : Kernel (Fin (K + 1) → U) (Fin (K + 1) → U)}
    (hη : ∀ key (us : Arr1 U) (bs : Arr1 (Fin N)), us.2.length = K → bs.2.length = K → ∀ F, Measurable F →
      (Csmc.kernel m res n false key us bs vs ts).E (fun out => onPath K F out.1) = ∫⁻ q, F q ∂(η (rowsOf K us)))
    {F : (Fin (K + 1) → U) → ℝ≥0∞} (hF : Measurable F) :
    ∀ (k : ℕ) (key : Key) (us : Arr1 U) (bs : Arr1 (Fin N)), us.2.length = K → bs.2.length = K →
      (csmcLoop m res n vs ts k key us bs).E (fun s => F (rowsOf K s.1)) = iterInt η F k (rowsOf K us)
  | 0, _, _, _, _, _ => rfl
  | k + 1, key, us, bs, hu, hb => by
    rw [iterInt, ← hη (split key 2 1) us bs hu hb _ (measurable_iterInt hF k)]
    simp only [csmcLoop, Rand.E_bind]
    refine Rand.E_congr_leaves (leaves_csmc_length m res n _ hu hb hv ht) fun out ho => ?_
    obtain ⟨us', bs'⟩ := out
    obtain ⟨h1, h2⟩ := ho
    match us', bs', h1, h2 with
    | u :: l, b :: bl, h1, h2 =>
      exact csmcLoop_iter hv ht hη hF k _ (u, l) (b, bl) (by simpa using h1) (by simpa using h2)

/-- The kernel and the target of the chain of calls, with everything the chain lemmas need. -/
theorem csmc_chain [NeZero N] {m : Csmc.Funs N U V} {S : StateSpace U V} (hm : Implements m S) {res : CondResampling N}
    (hres : res = CsmcResampling.killing ∨ res = CsmcResampling.multinomial) (n : ℕ) (vs : Arr1 V) (ts : Arr1 ℝ)
    (hv : vs.2.length = K) (ht : ts.2.length = K) :
    ∃ (η : Kernel (Fin (K + 1) → U) (Fin (K + 1) → U)) (π : Measure (Fin (K + 1) → U)), IsMarkovKernel η ∧ Rev η π ∧ Pos η π ∧
      (∀ F, Measurable F → S.target N vs ts (fun p => F (rowsOf K (p.map Prod.fst))) = ∫⁻ q, F q ∂π) ∧
      (∀ key (us : Arr1 U) (bs : Arr1 (Fin N)), us.2.length = K → bs.2.length = K → ∀ F, Measurable F →
        (Csmc.kernel m res n false key us bs vs ts).E (fun out => onPath K F out.1) = ∫⁻ q, F q ∂(η (rowsOf K us))) ∧
      ∀ (key : Key) (f g : (Fin (K + 1) → U) → ℝ≥0∞), Measurable f → Measurable g → ∀ k,
        S.target N vs ts (fun p => f (rowsOf K (p.map Prod.fst)) *
          (csmcLoop m res n vs ts k key (p.map Prod.fst) (p.map Prod.snd)).E (fun s => g (rowsOf K s.1)))
        = lagProd η π f g k := by
  obtain ⟨C⟩ : Nonempty (ExactScheme res) := by
    rcases hres with rfl | rfl
    · exact ⟨killingScheme⟩
    · exact ⟨multinomialScheme⟩
  obtain ⟨η, hM, hη⟩ := csmc_ker hm hres n vs ts hv ht
  obtain ⟨π, hπ⟩ := target_measure (N := N) S vs ts hv ht
  have hmap1 : ∀ p : Arr1 (U × Fin N), p.2.length = vs.2.length → (p.map Prod.fst).2.length = K := fun p hp => by
    simp [Arr1.map, hp, hv]
  have hmap2 : ∀ p : Arr1 (U × Fin N), p.2.length = vs.2.length → (p.map Prod.snd).2.length = K := fun p hp => by
    simp [Arr1.map, hp, hv]
  have hlag : ∀ (key : Key) (f g : (Fin (K + 1) → U) → ℝ≥0∞), Measurable f → Measurable g → ∀ k,
      S.target N vs ts (fun p => f (rowsOf K (p.map Prod.fst)) *
        (csmcLoop m res n vs ts k key (p.map Prod.fst) (p.map Prod.snd)).E (fun s => g (rowsOf K s.1)))
      = lagProd η π f g k := fun key f g hf hg k => by
    unfold lagProd
    rw [← hπ (fun q => f q * iterInt η g k q) (hf.mul (measurable_iterInt hg k))]
    refine target_congr S vs ts (ht.trans hv.symm) fun p hp => ?_
    rw [csmcLoop_iter hv ht hη hg k key _ _ (hmap1 p hp) (hmap2 p hp)]
  have hone : ∀ f g : (Fin (K + 1) → U) → ℝ≥0∞, Measurable f → Measurable g → ∀ p : Arr1 (U × Fin N), p.2.length = vs.2.length →
      onPath K f (p.toList.map Prod.fst) *
          (Csmc.kernel m res n false [] (p.map Prod.fst) (p.map Prod.snd) vs ts).E (fun out => onPath K g out.1)
        = f (rowsOf K (p.map Prod.fst)) * ∫⁻ q, g q ∂(η (rowsOf K (p.map Prod.fst))) := fun f g hf hg p hp => by
    rw [hη [] _ _ (hmap1 p hp) (hmap2 p hp) g hg]
    rfl
  have hout : ∀ f : (Fin (K + 1) → U) → ℝ≥0∞, Measurable f →
      MeasOut (N := N) (1 + vs.2.length) fun us _ => onPath K f us := fun f hf => by rw [hv]; exact measOut_onPath hf
  have hl1 : ∀ f g : (Fin (K + 1) → U) → ℝ≥0∞, Measurable f → Measurable g → lagProd η π f g 1
      = S.target N vs ts (fun p => onPath K f (p.toList.map Prod.fst) *
        (Csmc.kernel m res n false [] (p.map Prod.fst) (p.map Prod.snd) vs ts).E (fun out => onPath K g out.1)) :=
    fun f g hf hg => by
      rw [target_congr S vs ts (ht.trans hv.symm) (hone f g hf hg),
        hπ (fun q => f q * ∫⁻ q', g q' ∂(η q)) (hf.mul hg.lintegral_kernel)]
      rfl
  have hmm : ∀ f g : (Fin (K + 1) → U) → ℝ≥0∞, Measurable f → Measurable g → Measurable fun q => f q * ∫⁻ q', g q' ∂(η q) :=
    fun f g hf hg => hf.mul hg.lintegral_kernel
  have hl2 : ∀ f g f' g' : (Fin (K + 1) → U) → ℝ≥0∞, Measurable f → Measurable g → Measurable f' → Measurable g' →
      lagProd η π f g 1 + lagProd η π f' g' 1
      = S.target N vs ts (fun p => onPath K f (p.toList.map Prod.fst) *
          (Csmc.kernel m res n false [] (p.map Prod.fst) (p.map Prod.snd) vs ts).E (fun out => onPath K g out.1)
        + onPath K f' (p.toList.map Prod.fst) *
          (Csmc.kernel m res n false [] (p.map Prod.fst) (p.map Prod.snd) vs ts).E (fun out => onPath K g' out.1)) :=
    fun f g f' g' hf hg hf' hg' => by
      rw [target_congr S vs ts (ht.trans hv.symm) fun p hp => congrArg₂ (· + ·) (hone f g hf hg p hp) (hone f' g' hf' hg' p hp),
        hπ (fun q => f q * ∫⁻ q', g q' ∂(η q) + f' q * ∫⁻ q', g' q' ∂(η q)) (mAdd (hmm f g hf hg) (hmm f' g' hf' hg')),
        lintegral_add_left (hmm f g hf hg)]
      rfl
  refine ⟨η, π, hM, fun f g hf hg => ?_, fun f g hf hg => ?_, hπ, hη, hlag⟩
  · rw [hl1 f g hf hg, hl1 g f hg hf]
    exact C103_csmc_reversible hm C n [] vs ts (ht.trans hv.symm) (f := fun us _ => onPath K f us)
      (g := fun us _ => onPath K g us) (hout f hf) (hout g hg)
  · rw [hl2 f g g f hf hg hg hf, hl2 f f g g hf hf hg hg]
    exact C103_csmc_positive hm C n [] vs ts (ht.trans hv.symm) (f := fun us _ => onPath K f us)
      (g := fun us _ => onPath K g us) (hout f hf) (hout g hg)

/-- The same for a function of the array. -/
theorem csmc_chain_arr [NeZero N] {m : Csmc.Funs N U V} {S : StateSpace U V} {res : CondResampling N} {n : ℕ} {key : Key}
    {vs : Arr1 V} {ts : Arr1 ℝ} (hv : vs.2.length = K) (ht : ts.2.length = K)
    {η : Kernel (Fin (K + 1) → U) (Fin (K + 1) → U)} {π : Measure (Fin (K + 1) → U)}
    (hπ : ∀ F, Measurable F → S.target N vs ts (fun p => F (rowsOf K (p.map Prod.fst))) = ∫⁻ q, F q ∂π)
    (hlag : ∀ (key : Key) (f g : (Fin (K + 1) → U) → ℝ≥0∞), Measurable f → Measurable g → ∀ k,
      S.target N vs ts (fun p => f (rowsOf K (p.map Prod.fst)) *
        (csmcLoop m res n vs ts k key (p.map Prod.fst) (p.map Prod.snd)).E (fun s => g (rowsOf K s.1)))
      = lagProd η π f g k) {f : Arr1 U → ℝ≥0∞} (hf : Measurable fun q : Fin (K + 1) → U => f (arr q)) :
    S.target N vs ts (fun p => f (p.map Prod.fst)) = ∫⁻ q, f (arr q) ∂π
      ∧ S.target N vs ts (fun p => f (p.map Prod.fst) * f (p.map Prod.fst)) = ∫⁻ q, f (arr q) * f (arr q) ∂π
      ∧ S.target N vs ts (fun _ => 1) = π Set.univ
      ∧ ∀ k, S.target N vs ts (fun p => f (p.map Prod.fst) *
          (csmcLoop m res n vs ts k key (p.map Prod.fst) (p.map Prod.snd)).E (fun s => f s.1))
        = lagProd η π (fun q => f (arr q)) (fun q => f (arr q)) k := by
  have hmap1 : ∀ p : Arr1 (U × Fin N), p.2.length = vs.2.length → (p.map Prod.fst).2.length = K := fun p hp => by
    simp [Arr1.map, hp, hv]
  have hmap2 : ∀ p : Arr1 (U × Fin N), p.2.length = vs.2.length → (p.map Prod.snd).2.length = K := fun p hp => by
    simp [Arr1.map, hp, hv]
  have htv := ht.trans hv.symm
  refine ⟨?_, ?_, ?_, fun k => ?_⟩
  · rw [← hπ _ hf]
    exact target_congr S vs ts htv fun p hp => by simp only [arr_rowsOf (hmap1 p hp)]
  · rw [← hπ (fun q => f (arr q) * f (arr q)) (mMul hf hf)]
    exact target_congr S vs ts htv fun p hp => by simp only [arr_rowsOf (hmap1 p hp)]
  · rw [← lintegral_one, ← hπ (fun _ => 1) measurable_const]
  · rw [← hlag key _ _ hf hf k]
    refine target_congr S vs ts htv fun p hp => ?_
    simp only [arr_rowsOf (hmap1 p hp)]
    congr 1
    exact Rand.E_congr_leaves (leaves_csmcLoop m res n hv ht k key _ _ (hmap1 p hp) (hmap2 p hp)) fun s hs => by
      rw [arr_rowsOf hs]

/-- **C109, autocovariances.**  Draw the reference from the smoothing distribution (with uniform indices) and call
`csmc_kernel(backward=False)` repeatedly, each call fed with the output of the previous one; let `B k` be the expected product
of the values of `f` at the start and after `k` calls.  The autocovariances are non-negative, and `B` is non-increasing and
convex in the lag. -/
theorem C109_csmc_autocovariance [NeZero N] {m : Csmc.Funs N U V} {S : StateSpace U V} (hm : Implements m S)
    {res : CondResampling N} (hres : res = CsmcResampling.killing ∨ res = CsmcResampling.multinomial) (n : ℕ) (key : Key)
    (vs : Arr1 V) (ts : Arr1 ℝ) (hv : vs.2.length = K) (ht : ts.2.length = K) {f : Arr1 U → ℝ≥0∞}
    (hf : Measurable fun q : Fin (K + 1) → U => f (arr q)) (hZ : S.target N vs ts (fun _ => 1) ≠ ∞)
    (h2 : S.target N vs ts (fun p => f (p.map Prod.fst) * f (p.map Prod.fst)) ≠ ∞) (I : ℝ≥0∞) (B : ℕ → ℝ≥0∞)
    (hI : I = S.target N vs ts fun p => f (p.map Prod.fst))
    (hB : ∀ k, B k = S.target N vs ts fun p => f (p.map Prod.fst) *
      (csmcLoop m res n vs ts k key (p.map Prod.fst) (p.map Prod.snd)).E (fun s => f s.1)) (k : ℕ) :
    I * I ≤ S.target N vs ts (fun _ => 1) * B k ∧ B (k + 1) ≤ B k ∧ 2 * B (k + 1) ≤ B k + B (k + 2) := by
  obtain ⟨η, π, hM, hrev, hpos, hπ, -, hlag⟩ := csmc_chain hm hres n vs ts hv ht
  obtain ⟨e1, e2, e3, e4⟩ := csmc_chain_arr (key := key) hv ht hπ hlag hf
  rw [e3] at hZ
  rw [e2] at h2
  have : IsFiniteMeasure π := ⟨hZ.lt_top⟩
  rw [hI, e1, e3, hB, hB, hB, e4, e4, e4, two_mul]
  exact ⟨cov_nonneg_fin hrev hpos hf h2 k, lagProd_anti hrev hpos hf h2 k, lagProd_convex hrev hpos hf k⟩

/-- **C109.**  If the log potentials are bounded by `β`, the sum of the autocovariances of the same chain is at most
`1 / (1 - δ)` times the variance, `δ = 2 (K+1) (1 + e^{2β(K+1)}) / N`: averages over the chain have asymptotically the variance
of averages over at least `(1 - δ) / (1 + δ)` times as many independent draws from the smoothing distribution. -/
theorem C109_csmc_asymptotic_variance [NeZero N] {m : Csmc.Funs N U V} {S : StateSpace U V} (hm : Implements m S)
    {res : CondResampling N} (hres : res = CsmcResampling.killing ∨ res = CsmcResampling.multinomial) {β : ℝ} (hβ0 : 0 ≤ β)
    (hβ : ∀ v v' t u, |S.logG v v' t u| ≤ β) (hg : ∀ v v' u, |S.logG0 v v' u| ≤ β) (n : ℕ) (key : Key)
    (vs : Arr1 V) (ts : Arr1 ℝ) (hv : vs.2.length = K) (ht : ts.2.length = K) {f : Arr1 U → ℝ≥0∞}
    (hf : Measurable fun q : Fin (K + 1) → U => f (arr q))
    (h2 : S.target N vs ts (fun p => f (p.map Prod.fst) * f (p.map Prod.fst)) ≠ ∞) (I Z : ℝ≥0∞) (B : ℕ → ℝ≥0∞)
    (hI : I = S.target N vs ts fun p => f (p.map Prod.fst)) (hZ : Z = S.target N vs ts fun _ => 1)
    (hB : ∀ k, B k = S.target N vs ts fun p => f (p.map Prod.fst) *
      (csmcLoop m res n vs ts k key (p.map Prod.fst) (p.map Prod.snd)).E (fun s => f s.1)) :
    ENNReal.ofReal (1 - idealErr β N K) * ∑' k, (Z * B k - I * I)
      ≤ Z * S.target N vs ts (fun p => f (p.map Prod.fst) * f (p.map Prod.fst)) - I * I := by
  obtain ⟨η, π, hM, hrev, hpos, hπ, hη, hlag⟩ := csmc_chain hm hres n vs ts hv ht
  obtain ⟨e1, e2, e3, e4⟩ := csmc_chain_arr (key := key) hv ht hπ hlag hf
  obtain ⟨C⟩ : Nonempty (ExactScheme res) := by
    rcases hres with rfl | rfl
    · exact ⟨killingScheme⟩
    · exact ⟨multinomialScheme⟩
  have hN : (0 : ℝ) < N := by exact_mod_cast Nat.pos_of_ne_zero (NeZero.ne N)
  have hN1 : ((N : ℝ) - 1) ^ 2 / N ≤ N - 1 := by
    have : (1 : ℝ) ≤ N := by exact_mod_cast Nat.pos_of_ne_zero (NeZero.ne N)
    rw [div_le_iff₀ hN]
    nlinarith
  obtain ⟨κ, hκN, hκ, hpb⟩ : ∃ κ : ℝ, ((N : ℝ) - 1) ^ 2 / N ≤ κ ∧ Spreads res κ ∧ PairBound res := by
    rcases hres with rfl | rfl
    · exact ⟨_, le_rfl, spreads_killing, pairBound_killing⟩
    · exact ⟨_, hN1, spreads_multinomial, pairBound_multinomial⟩
  have hκ0 : 0 ≤ κ := le_trans (by positivity) hκN
  -- the target is finite and not zero
  have hlen : (S.steps vs.1 vs.2 ts.toList).length = K := by
    rw [Csmc.steps_length _ _ _ _ (by simp [Arr1.toList, ht, hv]), hv]
  have hsa := steps_abs hβ vs.2 ts.toList vs.1
  have hπ1 : ∀ F, Measurable F → ∫⁻ u, ENNReal.ofReal (Real.exp (S.logG0 vs.1 (vs.2.headD vs.1) u)) *
      pathInt (S.steps vs.1 vs.2 ts.toList) u (fun l => onPath K F (u :: l)) ∂S.init = ∫⁻ q, F q ∂π := fun F hF => by
    rw [← hπ F hF, target_onPath]
  have hone : ∫⁻ u, ENNReal.ofReal (Real.exp (S.logG0 vs.1 (vs.2.headD vs.1) u)) *
      pathInt (S.steps vs.1 vs.2 ts.toList) u (fun _ => 1) ∂S.init = π Set.univ := by
    rw [← lintegral_one, ← hπ1 (fun _ => 1) measurable_const]
    rfl
  have hfin : π Set.univ ≠ ∞ := by
    rw [← hone]
    refine ne_top_of_le_ne_top (b := ENNReal.ofReal (Real.exp β) * ENNReal.ofReal (Real.exp β) ^ K)
      (ENNReal.mul_ne_top ENNReal.ofReal_ne_top (ENNReal.pow_ne_top ENNReal.ofReal_ne_top)) ?_
    refine (lintegral_mono fun u => mul_le_mul' (ENNReal.ofReal_le_ofReal (Real.exp_le_exp.2 (le_of_abs_le (hg _ _ u))))
      (pathInt_one_le _ hsa u)).trans ?_
    rw [lintegral_const, measure_univ, mul_one, hlen]
  have hpos0 : π Set.univ ≠ 0 := by
    rw [← hone]
    refine (lt_of_lt_of_le (b := ENNReal.ofReal (Real.exp (-β)) * ENNReal.ofReal (Real.exp (-β)) ^ K) ?_ ?_).ne'
    · exact ENNReal.mul_pos (ENNReal.ofReal_pos.2 (Real.exp_pos _)).ne' (pow_ne_zero _ (ENNReal.ofReal_pos.2 (Real.exp_pos _)).ne')
    · refine le_trans ?_ (lintegral_mono fun u => mul_le_mul'
        (ENNReal.ofReal_le_ofReal (Real.exp_le_exp.2 (neg_le_of_abs_le (hg _ _ u)))) (le_pathInt_one _ hsa u))
      rw [lintegral_const, measure_univ, mul_one, hlen]
  have : IsFiniteMeasure π := ⟨hfin.lt_top⟩
  -- the chain of independent draws
  have hP1 : IsProbabilityMeasure ((π Set.univ)⁻¹ • π) := ⟨by
    rw [Measure.smul_apply, smul_eq_mul, ENNReal.inv_mul_cancel hpos0 hfin]⟩
  let P : Kernel (Fin (K + 1) → U) (Fin (K + 1) → U) := Kernel.const _ ((π Set.univ)⁻¹ • π)
  have hPF : ∀ (F : (Fin (K + 1) → U) → ℝ≥0∞) q, ∫⁻ x, F x ∂(P q) = (π Set.univ)⁻¹ * ∫⁻ x, F x ∂π := fun F q => by
    simp only [P, Kernel.const_apply]
    rw [lintegral_smul_measure, smul_eq_mul]
  have hPlag : ∀ f g : (Fin (K + 1) → U) → ℝ≥0∞, Measurable f → Measurable g → lagProd P π f g 1
      = (∫⁻ x, f x ∂π) * ((∫⁻ x, g x ∂π) * (π Set.univ)⁻¹) := fun f g hf _ => by
    have : lagProd P π f g 1 = ∫⁻ x, f x * ((π Set.univ)⁻¹ * ∫⁻ x, g x ∂π) ∂π :=
      lintegral_congr fun q => congrArg (f q * ·) (hPF g q)
    rw [this, lintegral_mul_const _ hf, mul_comm (π Set.univ)⁻¹]
  obtain ⟨hPr, hPp⟩ := rev_pos_of_form (κ := P) (π := π) (Q := Unit) (Λ := Measure.dirac ())
    (A := fun f _ => ∫⁻ x, f x ∂π) (D := fun _ => π Set.univ) (fun _ _ => measurable_const) measurable_const
    fun f g hf hg => by rw [hPlag f g hf hg, lintegral_dirac]
  have hlow : ∀ f, Measurable f → ∫⁻ x, f x * f x ∂π ≠ ∞ → lagProd P π f f 1 ≤ lagProd η π f f 1 := fun f hf h2 => by
    rw [hPlag f f hf hf, ← mul_assoc, mul_comm, ENNReal.inv_mul_le_iff hpos0 hfin]
    exact cov_nonneg_fin hrev hpos hf h2 1
  have hshare : ENNReal.ofReal (1 - idealErr β N K) ≤ passShare κ β N K * stepShare ((N : ℝ) - 1) β N (K + 1) :=
    share_le (idealErr_nonneg β N K) (one_le_share hκN hβ0 K (stepShare_ge hN1 hβ0 le_rfl))
  have hdom : ∀ q, ENNReal.ofReal (1 - idealErr β N K) • P q ≤ η q := fun q => smul_le_of_le_one fun F hF h1 => by
    have g1 := csmc_ge hm C hκ0 hκ hpb n [] (arr q) (0, List.replicate K 0) vs ts (steps_abs hβ _ _ _) (hg _ _) (by simp [arr, hv]) (by simp [hv])
      (ht.trans hv.symm) (φ := onPath K F) (by rw [hv]; exact measList_onPath hF) (onPath_le_one h1)
    rw [hη [] (arr q) (0, List.replicate K 0) (by simp [arr]) (by simp) F hF, rowsOf_arr, hv] at g1
    have e : refMean S.init (S.logG0 vs.1 (vs.2.headD vs.1)) (S.steps vs.1 vs.2 ts.toList) (onPath K F)
        = ∫⁻ x, F x ∂(P q) := by
      unfold refMean
      rw [hPF F q, hπ1 F hF, hone, mul_comm]
    rw [e] at g1
    exact (mul_le_mul' hshare le_rfl).trans g1
  have hε : ENNReal.ofReal (1 - idealErr β N K) ≤ 1 := by
    rw [← ENNReal.ofReal_one]
    exact ENNReal.ofReal_le_ofReal (by linarith [idealErr_nonneg β N K])
  rw [e2] at h2
  have hs := (sandwich hPr hPp hrev hpos hlow hε hdom hf h2).2
  simp only [hI, hZ, hB, e1, e2, e3, e4]
  refine hs.trans (le_of_eq ?_)
  rw [tsum_eq_single 0]
  · rfl
  · intro k hk
    obtain ⟨j, rfl⟩ := Nat.exists_eq_succ_of_ne_zero hk
    have hc : ∀ j (q : Fin (K + 1) → U), iterInt P (fun q => f (arr q)) (j + 1) q
        = (π Set.univ)⁻¹ * ∫⁻ x, f (arr x) ∂π := by
      intro j
      induction j with
      | zero => intro q; exact hPF _ q
      | succ j ih =>
        intro q
        rw [iterInt, lintegral_congr ih, lintegral_const, measure_univ (μ := P q), mul_one]
    unfold lagProd
    simp only [Nat.succ_eq_add_one, hc]
    rw [lintegral_mul_const _ hf, mul_left_comm, ← mul_assoc _ (π Set.univ)⁻¹, ENNReal.mul_inv_cancel hpos0 hfin, one_mul]
    exact tsub_self _

/-- Bounded functions have finite moments. -/
theorem target_bounded [NeZero N] {S : StateSpace U V} {β : ℝ} (hβ : ∀ v v' t u, |S.logG v v' t u| ≤ β)
    (hg : ∀ v v' u, |S.logG0 v v' u| ≤ β) (vs : Arr1 V) (ts : Arr1 ℝ) {φ : Arr1 (U × Fin N) → ℝ≥0∞} (h : ∀ p, φ p ≤ 1) :
    S.target N vs ts φ ≠ ∞ := by
  have hN : (N : ℝ≥0∞) ≠ 0 := by exact_mod_cast NeZero.ne N
  have hsum : ∀ {F : Fin N → ℝ≥0∞} {c : ℝ≥0∞}, (∀ b, F b ≤ c) → (N : ℝ≥0∞)⁻¹ * ∑ b, F b ≤ c := fun {F c} hF => by
    refine (mul_le_mul' le_rfl (Finset.sum_le_sum fun b _ => hF b)).trans ?_
    rw [Finset.sum_const, Finset.card_univ, Fintype.card_fin, nsmul_eq_mul, ← mul_assoc,
      ENNReal.inv_mul_cancel hN (ENNReal.natCast_ne_top N), one_mul]
  have hle : ∀ (ss : List (FKStep U)), (∀ s ∈ ss, ∀ u, |s.g u| ≤ β) → ∀ u (φ : List (U × Fin N) → ℝ≥0∞), (∀ l, φ l ≤ 1) →
      extInt N ss u φ ≤ ENNReal.ofReal (Real.exp β) ^ ss.length := by
    intro ss
    induction ss with
    | nil => intro _ u φ h; simpa [extInt] using h []
    | cons s ss ih =>
      intro hs u φ h
      simp only [extInt, List.length_cons]
      rw [pow_succ']
      refine mul_le_mul' (ENNReal.ofReal_le_ofReal (Real.exp_le_exp.2 (le_of_abs_le (hs s (by simp) u)))) ?_
      refine (lintegral_mono fun u' => hsum fun b' => ih (fun s' hs' => hs s' (by simp [hs'])) u' _ fun l => h _).trans ?_
      rw [lintegral_const, measure_univ, mul_one]
  unfold StateSpace.target
  refine ne_top_of_le_ne_top ?_ (lintegral_mono fun u => mul_le_mul'
    (ENNReal.ofReal_le_ofReal (Real.exp_le_exp.2 (le_of_abs_le (hg _ _ u))))
    (hsum fun b => hle _ (steps_abs hβ vs.2 ts.toList vs.1) u _ fun l => h _))
  rw [lintegral_const, measure_univ, mul_one]
  exact ENNReal.mul_ne_top ENNReal.ofReal_ne_top (ENNReal.pow_ne_top ENNReal.ofReal_ne_top)

end

/-! ### Keys -/

section Keys

variable {N : ℕ} {U V : Type}

theorem consumes_csmcLoop [NeZero N] {m : Csmc.Funs N U V} (hm : CsmcKeyed m) {res : CondResampling N}
    (hres : ∀ k w i j, Rand.Consumes {k} (res k w i j true)) (n : ℕ) (vs : Arr1 V) (ts : Arr1 ℝ) :
    ∀ (k : ℕ) (key : Key) (us : Arr1 U) (bs : Arr1 (Fin N)), Rand.Consumes {key} (csmcLoop m res n vs ts k key us bs)
  | 0, _, _, _ => Rand.consumes_pure _ _
  | k + 1, key, us, bs => Rand.Consumes.bind_split (i := 1) (j := 0) (by decide)
      (consumes_csmc_kernel hm hres n false _ us bs vs ts) fun _ => consumes_csmcLoop hm hres n vs ts k _ _ _

/-- **C109, keys.**  In repeated calls every draw uses its own key, derived from the key handed to the loop: the calls are
independent given the trajectories they are fed with. -/
theorem C109_keys [NeZero N] {m : Csmc.Funs N U V} (hm : CsmcKeyed m) {res : CondResampling N}
    (hres : res = CsmcResampling.killing ∨ res = CsmcResampling.multinomial) (n : ℕ) (vs : Arr1 V) (ts : Arr1 ℝ) (k : ℕ)
    (key : Key) (us : Arr1 U) (bs : Arr1 (Fin N)) : FreshFrom key (csmcLoop m res n vs ts k key us bs) := by
  refine (consumes_csmcLoop hm ?_ n vs ts k key us bs).freshFrom
  rcases hres with rfl | rfl
  · exact fun k w i j => consumes_csmc_killing k w i j true
  · exact fun k w i j => consumes_csmc_multinomial k w i j true

theorem keyed_modelFuns [MeasurableSpace U] (S : StateSpace U V) (N : ℕ) : CsmcKeyed (modelFuns S N) :=
  ⟨fun _ _ => Rand.consumes_sample _ _ _, fun _ _ _ _ => Rand.consumes_sample _ _ _⟩

/-- Five calls with ten particles in the random walk model. -/
example (key : Key) : FreshFrom key (csmcLoop (modelFuns exampleModel 10) CsmcResampling.killing 10 (0, [1, 2]) (0, [1, 2]) 5 key
    (0, [0, 0]) (0, [0, 0])) :=
  C109_keys (keyed_modelFuns _ _) (Or.inl rfl) 10 (0, [1, 2]) (0, [1, 2]) 5 key _ _

end Keys

/-! ### Examples -/

section Example

/-- Is the mean of the three rows positive? -/
noncomputable def meanPos (a : Arr1 ℝ) : ℝ≥0∞ := (Set.Ioi (0 : ℝ)).indicator 1 a.toList.sum

theorem meanPos_le (a : Arr1 ℝ) : meanPos a * meanPos a ≤ 1 := by
  unfold meanPos
  by_cases h : a.toList.sum ∈ Set.Ioi (0 : ℝ) <;> simp [h]

theorem measurable_meanPos : Measurable fun q : Fin 3 → ℝ => meanPos (arr q) := by
  unfold meanPos
  refine (measurable_one.indicator measurableSet_Ioi).comp ?_
  simp only [arr, Arr1.toList, List.sum_cons, List.sum_ofFn]
  fun_prop

/-- A million particles, three rows and potentials between `-1` and `1`. -/
example (key : Key) (I Z : ℝ≥0∞) (B : ℕ → ℝ≥0∞) (S : StateSpace ℝ ℝ)
    (hS : S = freshS (fun v u => Real.cos (v * u)) fun _ => by fun_prop)
    (hI : I = S.target 1000000 (0, [1, 2]) (0, [1, 2]) fun p => meanPos (p.map Prod.fst))
    (hZ : Z = S.target 1000000 (0, [1, 2]) (0, [1, 2]) fun _ => 1)
    (hB : ∀ k, B k = S.target 1000000 (0, [1, 2]) (0, [1, 2]) fun p => meanPos (p.map Prod.fst) *
      (csmcLoop (modelFuns S 1000000) CsmcResampling.killing 1000000 (0, [1, 2]) (0, [1, 2]) k key (p.map Prod.fst)
        (p.map Prod.snd)).E (fun s => meanPos s.1)) :
    ENNReal.ofReal (1 - idealErr 1 1000000 2) * ∑' k, (Z * B k - I * I)
        ≤ Z * S.target 1000000 (0, [1, 2]) (0, [1, 2]) (fun p => meanPos (p.map Prod.fst) * meanPos (p.map Prod.fst)) - I * I
      ∧ ∀ k, I * I ≤ Z * B k := by
  have h1 : ∀ v v' t u, |S.logG v v' t u| ≤ 1 := by subst hS; exact fun v _ _ u => Real.abs_cos_le_one _
  have h0 : ∀ v v' u, |S.logG0 v v' u| ≤ 1 := by subst hS; exact fun _ _ _ => by simp [freshS]
  have h2 := target_bounded (N := 1000000) h1 h0 (0, [1, 2]) (0, [1, 2]) fun p => meanPos_le (p.map Prod.fst)
  refine ⟨C109_csmc_asymptotic_variance (implements_modelFuns S 1000000) (Or.inl rfl) zero_le_one h1 h0 1000000 key (0, [1, 2])
    (0, [1, 2]) rfl rfl measurable_meanPos h2 I Z B hI hZ hB, fun k => ?_⟩
  rw [hZ]
  exact (C109_csmc_autocovariance (implements_modelFuns S 1000000) (Or.inl rfl) 1000000 key (0, [1, 2])
    (0, [1, 2]) rfl rfl measurable_meanPos (target_bounded h1 h0 _ _ fun _ => le_rfl) h2 I B hI hB k).1

end Example

end Props
end Fbs
