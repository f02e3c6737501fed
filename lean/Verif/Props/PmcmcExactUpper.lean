import Verif.Props.PmcmcExact

/-!
# C106: how much slower than the exact chain the pseudo-marginal chain can be

`pmcmc_kernel` (`fbs/samplers/smc.py`) replaces the likelihood of a path by an estimate.  By C105 this can only slow the chain down.  Here
the loss is bounded: when no estimate exceeds the likelihood by more than a factor `W`, the asymptotic variance grows by at most the factor
`W`, for every function of the path.  For likelihood factors between `e^a` and `e^b` one may take `W = e^(K (b - a))`, whatever the number
of particles.
-/

open MeasureTheory ProbabilityTheory
open scoped ENNReal

namespace Fbs
namespace Props

open Jax Spec Smc Chains

section Upper

variable {U V : Type} {N K : ℕ} [NeZero N] [MeasurableSpace U] [MeasurableSpace V] [AddCommGroup V] [Module ℝ V]

/-- The estimates of the likelihood exceed it almost surely at most by the factor `W`. -/
def EstimateBound (m : Funs N U V) (res : Smc.Resampling N) (ts : Fin (K + 1) → ℝ) (i : Fin N) (L : (Fin (K + 1) → V) → ℝ) (W : ℝ) : Prop :=
  ∀ key ys, (pmcmcEstimate m res key ys ts i).E (fun p => if Real.exp p.2 ≤ W * L ys then 0 else 1) = 0

omit [NeZero N] [AddCommGroup V] [Module ℝ V] in
theorem le_modelLik (S : StateSpace U V) (ref : Kernel V U) [IsMarkovKernel ref] {a b : ℝ} (ha : ∀ v v' t u, a ≤ S.logG v v' t u)
    (hb : ∀ v v' t u, S.logG v v' t u ≤ b) (ts : Fin (K + 1) → ℝ) (ys : Fin (K + 1) → V) : Real.exp a ^ K ≤ modelLik S ref ts ys := by
  have hpow : 0 ≤ Real.exp a ^ K := pow_nonneg (Real.exp_pos _).le _
  rw [← ENNReal.ofReal_le_ofReal_iff (modelLik_pos S ref hb ts ys).le, ofReal_modelLik S ref hb ts ys]
  unfold backwardInt StateSpace.filterInt
  set T := S.startedAt (ref (ys (Fin.last K)))
  have hT : ∀ v v' t u, a ≤ T.logG v v' t u := ha
  have hlen : (T.steps (arr fun i => ys (Fin.rev i)).1 (arr fun i => ys (Fin.rev i)).2 (arr ts).toList).length = K := by
    rw [Csmc.steps_length _ _ _ _ (by simp [arr, Arr1.toList])]
    simp [arr]
  have hs : ∀ (v : V) (vs : List V) (ts : List ℝ), ∀ s ∈ T.steps v vs ts, ∀ u, a ≤ s.g u := by
    intro v vs
    induction vs generalizing v with
    | nil => intro ts s h; simp [StateSpace.steps] at h
    | cons v' vs ih =>
      intro ts s h
      cases ts with
      | nil => simp [StateSpace.steps] at h
      | cons t ts =>
        rw [StateSpace.steps, List.mem_cons] at h
        rcases h with rfl | h
        · exact fun u => hT _ _ _ u
        · exact ih v' ts s h
  have hp : ∀ (ss : List (FKStep U)), (∀ s ∈ ss, ∀ u, a ≤ s.g u) → ∀ u : U,
      ENNReal.ofReal (Real.exp a ^ ss.length) ≤ pathInt ss u fun _ => 1 := by
    intro ss
    induction ss with
    | nil => intro _ u; simp [pathInt]
    | cons s ss ih =>
      intro hss u
      rw [pathInt, List.length_cons, pow_succ', ENNReal.ofReal_mul (Real.exp_pos _).le]
      refine mul_le_mul' (ENNReal.ofReal_le_ofReal (Real.exp_le_exp.2 (hss s (by simp) u))) ?_
      refine le_trans ?_ (lintegral_mono fun u' => ih (fun s' hs' => hss s' (by simp [hs'])) u')
      simp
  have := hp _ (hs (arr fun i => ys (Fin.rev i)).1 (arr fun i => ys (Fin.rev i)).2 (arr ts).toList)
  rw [hlen] at this
  refine le_trans ?_ (lintegral_mono this)
  have : IsProbabilityMeasure T.init := inferInstanceAs (IsProbabilityMeasure (ref (ys (Fin.last K))))
  simp

omit [AddCommGroup V] [Module ℝ V] in
/-- **C106, bounded likelihood factors.**  When the factors lie between `e^a` and `e^b`, no estimate of the likelihood of a path of `K` steps
exceeds it by more than the factor `e^(K (b - a))`, however few particles there are. -/
theorem C106_bounded_factors {m : Funs N U V} {ref : Kernel V U} [IsMarkovKernel ref] {S : StateSpace U V}
    (hm : PmcmcImplements m ref S) (res : Smc.Resampling N) {a b : ℝ} (ha : ∀ v v' t u, a ≤ S.logG v v' t u)
    (hb : ∀ v v' t u, S.logG v v' t u ≤ b) (ts : Fin (K + 1) → ℝ) (i : Fin N) :
    EstimateBound m res ts i (modelLik S ref ts) (Real.exp (K * (b - a))) := fun key ys => by
  have hl : ∀ v us v' t i, m.lik v us v' t i ≤ b := fun v us v' t i => by
    rw [hm.lik]
    exact hb _ _ _ _
  have h := Rand.E_congr_leaves (AllOut.leaves (pmcmcEstimate_le (res := res) hl key ys ts i))
    (f := fun p => if Real.exp p.2 ≤ Real.exp (K * (b - a)) * modelLik S ref ts ys then 0 else 1) (g := fun _ => 0) fun p hp => by
      refine if_pos ?_
      calc Real.exp p.2 ≤ Real.exp (K * b) := Real.exp_le_exp.2 hp
        _ = Real.exp (K * (b - a)) * Real.exp a ^ K := by
          rw [← Real.exp_nat_mul, ← Real.exp_add]
          congr 1
          ring
        _ ≤ _ := by
          gcongr
          exact le_modelLik S ref ha hb ts ys
  rw [h]
  have h0 := Rand.E_const_mul (pmcmcEstimate m res key ys ts i) (c := 0) (by simp) fun _ => 0
  simpa using h0

variable {m : Funs N U V} {ref : Kernel V U} [IsMarkovKernel ref] {S : StateSpace U V}
    (hm : PmcmcImplements m ref S) (hS : S.JointMeas) {res : Smc.Resampling N} (hres : UnbiasedSums res)
    (hres' : MeasurableScheme res) {b : ℝ} (hb : ∀ v v' t u, S.logG v v' t u ≤ b) {y0 : V}
    {ts : Fin (K + 1) → ℝ} {fwdYs : Key → V → Rand (Fin (K + 1) → V)} {sdeMean : ℝ → ℝ → V → V} {delta : Option ℝ} (i : Fin N)
    {P : Measure (Fin (K + 1) → V)}

include hm hS hres hres' hb

/-- **C106, moves.**  Charge a move from the path `ys` to the path `ys'` the price `F ys ys'`, and nothing for staying.  In stationarity one
step with the exact likelihoods costs, on average, at most `W` times as much as one call of `pmcmc_kernel`. -/
theorem C106_moves [SFinite P] (hgood : GoodProposal y0 ts fwdYs sdeMean delta P) {W : ℝ}
    (hW : EstimateBound m res ts i (modelLik S ref ts) W) (key₀ key : Key) {F : (Fin (K + 1) → V) → (Fin (K + 1) → V) → ℝ≥0∞}
    (hF : Measurable fun q : (Fin (K + 1) → V) × (Fin (K + 1) → V) => F q.1 q.2) (h0 : ∀ ys, F ys ys = 0) :
    ∫⁻ ys, ENNReal.ofReal (modelLik S ref ts ys) * (exactStep (modelLik S ref ts) y0 ts fwdYs sdeMean delta key ys).E (F ys) ∂P
      ≤ ENNReal.ofReal W * extTarget m res ts i P key₀ (fun u l ys =>
          (pmcmcKernel m res key u l ys y0 ts fwdYs sdeMean delta i).E fun out => F ys out.2.2.1) := by
  obtain ⟨hL, κ, hκ, hest, hl, -⟩ := modelLik_facts (ts := ts) hm hS hres hres' hb i
  obtain ⟨Q, hQ, hpr, -, -⟩ := hgood
  have hpos := fun ys => modelLik_pos S ref hb ts ys
  rw [pm_moves i hest hpr key₀ key hF h0, exact_moves hL hpos hpr key hF h0]
  exact accForm_upper (by fun_prop) (Real.measurable_log.comp hL) hl (estimateBound_ae i hpos hest hW) hF

/-- **C106, all lags.**  Let `A k` and `B k` be the expected products of the values of a function `f` of the path at the start and `k` steps
later, for the stationary chain with the exact likelihoods and for that of `pmcmc_kernel`; `Z` is the mass of the target and `I` the integral
of `f`.  If the estimates of the likelihood exceed it at most by the factor `W`, the sum of the autocovariances `Z B k - I²`, which gives the
variance of long averages, is at most `W` times the sum of the `Z A k - I²`; by C105 it is at least that sum. -/
theorem C106_asymptotic_variance [IsProbabilityMeasure P] (hgood : GoodProposal y0 ts fwdYs sdeMean delta P) {W : ℝ}
    (hW : EstimateBound m res ts i (modelLik S ref ts) W) (key₀ : Key)
    {keys : ℕ → List Key} (hk : ∀ k, (keys k).length = k) {f : (Fin (K + 1) → V) → ℝ≥0∞} (hf : Measurable f)
    (h2 : ∫⁻ ys, ENNReal.ofReal (modelLik S ref ts ys) * (f ys * f ys) ∂P ≠ ∞) (A B : ℕ → ℝ≥0∞)
    (hA : ∀ k, A k = ∫⁻ ys, ENNReal.ofReal (modelLik S ref ts ys) * (f ys *
      (iterKernel (exactStep (modelLik S ref ts) y0 ts fwdYs sdeMean delta) (keys k) ys).E f) ∂P)
    (hB : ∀ k, B k = extTarget m res ts i P key₀ fun u l ys => f ys *
      (iterKernel (pmcmcNext m res y0 ts fwdYs sdeMean delta i) (keys k) (u, l, ys)).E fun s => f s.2.2)
    (Z I : ℝ≥0∞) (hZ : Z = ∫⁻ ys, ENNReal.ofReal (modelLik S ref ts ys) ∂P)
    (hI : I = ∫⁻ ys, ENNReal.ofReal (modelLik S ref ts ys) * f ys ∂P) :
    ∑' k, (Z * A k - I * I) ≤ ∑' k, (Z * B k - I * I) ∧
      ∑' k, (Z * B k - I * I) ≤ ENNReal.ofReal W * ∑' k, (Z * A k - I * I) := by
  refine ⟨(C105_asymptotic_variance hm hS hres hres' hb i hgood key₀ hk hf h2 A B hA hB Z I hZ hI).2.2, ?_⟩
  obtain ⟨η, M, ηe, π, hη, hηe, hE, hM, hEe, hπ, hmap, hrev, hpos, hreve, hpose, -, -, hup⟩ :=
    both_chains hm hS hres hres' hb i hgood
  obtain ⟨hW1, hproj⟩ := hup W hW
  have hZt : Z ≠ ∞ := hZ ▸ modelLik_mass S ref hb ts P
  have hZπ : Z = π Set.univ := by
    rw [← lintegral_one, hπ _ measurable_const, hZ]
    simp
  have hZM : Z = M Set.univ := by rw [← lintegral_one, hmap (fun _ => 1) measurable_const, lintegral_one, hZπ]
  have : IsFiniteMeasure π := ⟨by rw [← hZπ]; exact hZt.lt_top⟩
  have : IsFiniteMeasure M := ⟨by rw [← hZM]; exact hZt.lt_top⟩
  rw [← hπ _ (mMul hf hf)] at h2
  rw [← hπ _ hf] at hI
  have hf' : Measurable fun s : U × ℝ × (Fin (K + 1) → V) => f s.2.2 := hf.comp (by fun_prop)
  have h2' : ∫⁻ s, f s.2.2 * f s.2.2 ∂M ≠ ∞ := by
    rw [hmap (fun ys => f ys * f ys) (mMul hf hf)]
    exact h2
  have eA : ∀ k, A k = lagProd ηe π f f k := fun k => by
    rw [hA, lagProd, hπ _ (mMul hf (measurable_iterInt hf k))]
    simp only [iterKernel_iter hEe hf, hk]
  have eB : ∀ k, B k = lagProd η M (fun s => f s.2.2) (fun s => f s.2.2) k := fun k => by
    rw [hB]
    refine Eq.trans ?_ (hM key₀ _ (mMul hf' (measurable_iterInt hf' k)))
    simp only [iterKernel_iter hE hf', hk]
  have hcA : ∀ k, I * I ≤ Z * A k := fun k => by
    rw [hI, hZπ, eA]
    exact cov_nonneg_fin hreve hpose hf h2 k
  have hcB : ∀ k, I * I ≤ Z * B k := fun k => by
    rw [hI, ← hmap f hf, hZM, eB]
    exact cov_nonneg_fin hrev hpos hf' h2' k
  have hBt : ∀ k, Z * B k ≠ ∞ := fun k => by
    refine ENNReal.mul_ne_top hZt (ne_top_of_le_ne_top h2' ?_)
    rw [eB]
    exact lagProd_le hrev hf' k
  refine asymptotic_upper (ne_top_of_le_ne_top (hBt 0) (hcB 0)) ENNReal.ofReal_ne_top hcA hcB hBt fun r hr => ?_
  have h := discounted_upper (p := fun s : U × ℝ × (Fin (K + 1) → V) => s.2.2) hreve hpose hrev hpos (by fun_prop) hmap
    (W := ENNReal.ofReal W) (ENNReal.one_le_ofReal.2 hW1) ENNReal.ofReal_ne_top (fun h hh _ => hproj h hh) hf h2 hr
  simp only [mul_left_comm _ Z, ENNReal.tsum_mul_left, eA, eB]
  rw [hZπ, hI]
  convert h using 2 <;> ring

end Upper

/-! ### Examples -/

section Example

theorem coin_logG_nonneg (v v' t : ℝ) (u : Bool) : 0 ≤ coinSpace.logG v v' t u := by
  show (0 : ℝ) ≤ if u then Real.log 8 else 0
  split_ifs
  · exact Real.log_nonneg (by norm_num)
  · exact le_rfl

/-- Every estimate for the coin is at most eight times the likelihood. -/
theorem coin_estimate_bound (n : ℕ) [NeZero n] (ts : Fin 2 → ℝ) (i : Fin n) :
    EstimateBound (smcFuns coinSpace n) Resampling.killing ts i (fun _ => 9 / 2) 8 := by
  have h := C106_bounded_factors (coin_implements n) Resampling.killing coin_logG_nonneg
    (fun v v' t u => (abs_le.1 (coin_logG_le v v' t u)).2) ts i
  rw [show modelLik coinSpace (Kernel.const ℝ coinSpace.init) ts = fun _ => 9 / 2 from funext fun ys => coin_modelLik ts ys] at h
  simpa [Real.exp_log] using h

/-- The coin with three particles and Crank–Nicolson proposals: the fraction of paths which move. -/
example (key₀ key : Key) (ts : Fin 2 → ℝ) (i : Fin 3) (a e : ℝ≥0∞)
    (ha : a = extTarget (smcFuns coinSpace 3) Resampling.killing ts i gaussPath key₀ fun u l ys =>
      (pmcmcKernel (smcFuns coinSpace 3) Resampling.killing key u l ys 0 ts (fun k _ => Rand.sample k Set.univ gaussPath)
        (fun _ _ y => y) (some 2) i).E fun out => if ys = out.2.2.1 then 0 else 1)
    (he : e = ∫⁻ ys, ENNReal.ofReal (9 / 2) * (exactStep (fun _ => 9 / 2) 0 ts (fun k _ => Rand.sample k Set.univ gaussPath)
        (fun _ _ y => y) (some 2) key ys).E (fun ys' => if ys = ys' then 0 else 1) ∂gaussPath) :
    a ≤ e ∧ e ≤ 8 * a := by
  have hb : ∀ v v' t u, coinSpace.logG v v' t u ≤ Real.log 8 := fun v v' t u => (abs_le.1 (coin_logG_le v v' t u)).2
  have em : modelLik coinSpace (Kernel.const ℝ coinSpace.init) ts = fun _ => 9 / 2 := funext fun ys => coin_modelLik ts ys
  have h1 := C105_fewer_moves (coin_implements 3) coin_jointMeas sums_killing scheme_killing hb i (coin_good ts) key₀ key
    (F := fun ys ys' => if ys = ys' then 0 else 1) measurable_moved fun ys => if_pos rfl
  have h2 := C106_moves (coin_implements 3) coin_jointMeas sums_killing scheme_killing hb i (coin_good ts) (em.symm ▸ coin_estimate_bound 3 ts i)
    key₀ key (F := fun ys ys' => if ys = ys' then 0 else 1) measurable_moved fun ys => if_pos rfl
  rw [em] at h1 h2
  rw [← ha, ← he] at h1 h2
  exact ⟨h1, by simpa using h2⟩

/-- The coin with three particles and independent proposals. -/
example (key₀ : Key) {keys : ℕ → List Key} (hk : ∀ k, (keys k).length = k) (ts : Fin 2 → ℝ) (i : Fin 3) (y0 : ℝ)
    {f : (Fin 2 → ℝ) → ℝ≥0∞} (hf : Measurable f) (h1 : ∀ ys, f ys ≤ 1) (A B : ℕ → ℝ≥0∞)
    (hA : ∀ k, A k = ∫⁻ ys, ENNReal.ofReal (9 / 2) * (f ys *
      (iterKernel (exactStep (fun _ => 9 / 2) y0 ts (fun k _ => uniforms k 2) (fun _ _ y => y) none) (keys k) ys).E f)
        ∂(Measure.pi fun _ => unifMeasure))
    (hB : ∀ k, B k = extTarget (smcFuns coinSpace 3) Resampling.killing ts i (Measure.pi fun _ => unifMeasure) key₀ fun u l ys =>
      f ys * (iterKernel (pmcmcNext (smcFuns coinSpace 3) Resampling.killing y0 ts (fun k _ => uniforms k 2)
        (fun _ _ y => y) none i) (keys k) (u, l, ys)).E fun s => f s.2.2)
    (Z I : ℝ≥0∞) (hZ : Z = ∫⁻ _ : Fin 2 → ℝ, ENNReal.ofReal (9 / 2) ∂(Measure.pi fun _ => unifMeasure))
    (hI : I = ∫⁻ ys : Fin 2 → ℝ, ENNReal.ofReal (9 / 2) * f ys ∂(Measure.pi fun _ => unifMeasure)) :
    ∑' k, (Z * B k - I * I) ≤ 8 * ∑' k, (Z * A k - I * I) := by
  have hb : ∀ v v' t u, coinSpace.logG v v' t u ≤ Real.log 8 := fun v v' t u => (abs_le.1 (coin_logG_le v v' t u)).2
  have em : modelLik coinSpace (Kernel.const ℝ coinSpace.init) ts = fun _ => 9 / 2 := funext fun ys => coin_modelLik ts ys
  have h := C106_asymptotic_variance (coin_implements 3) coin_jointMeas sums_killing scheme_killing hb i
    (C105_proposals (y0 := y0) (ts := ts) (fwdYs := fun k _ => uniforms k 2) (sdeMean := fun _ _ y => y)
      (P := Measure.pi fun _ => unifMeasure) (fun k f _ => rfl)).1 (em.symm ▸ coin_estimate_bound 3 ts i) key₀ hk hf
  rw [em] at h
  simpa using (h (coin_sq h1 _) A B hA hB Z I hZ hI).2

end Example

end Props
end Fbs
