import Verif.Lemmas.IdealKer

/-!
# C107: the chain of `gibbs_kernel` against the chain of the ideal call
-/

open MeasureTheory ProbabilityTheory
open scoped ENNReal

namespace Fbs
namespace Props

open Jax Spec Csmc Gibbs Chains

section

variable {n : ℕ} {U V Z : Type} [MeasurableSpace U] [MeasurableSpace V]
variable [NeZero n] {S : StateSpace U V} {π0 : Measure U} {y0 : V} {ts : Arr1 ℝ} {K : ℕ}

omit [MeasurableSpace V] in
theorem ideal_iter {T : (U → ℝ≥0∞) → U → ℝ≥0∞} {P : Kernel U U} (hP : ∀ x F, Measurable F → T F x = ∫⁻ u, F u ∂(P x))
    {f : U → ℝ≥0∞} (hf : Measurable f) : ∀ k, T^[k] f = iterInt P f k
  | 0 => rfl
  | k + 1 => by
    rw [Function.iterate_succ_apply', ideal_iter hP hf k]
    exact funext fun x => hP x _ (measurable_iterInt hf k)

omit [MeasurableSpace V] in
/-- A bound on functions with values in `[0, 1]` is a bound on measures. -/
theorem smul_le_of_le_one {μ ν : Measure U} {ε : ℝ≥0∞}
    (h : ∀ F : U → ℝ≥0∞, Measurable F → (∀ x, F x ≤ 1) → ε * ∫⁻ u, F u ∂μ ≤ ∫⁻ u, F u ∂ν) : ε • μ ≤ ν := by
  refine Measure.le_iff.2 fun s hs => ?_
  have := h (s.indicator 1) (measurable_one.indicator hs) fun x => by by_cases hx : x ∈ s <;> simp [hx]
  rw [lintegral_indicator_one hs, lintegral_indicator_one hs] at this
  simpa using this

theorem share_le {δ : ℝ} {c : ℝ≥0∞} (hδ : 0 ≤ δ) (h : 1 ≤ c + ENNReal.ofReal δ) : ENNReal.ofReal (1 - δ) ≤ c := by
  rw [ENNReal.ofReal_sub _ hδ, ENNReal.ofReal_one]
  exact tsub_le_iff_right.2 h

theorem idealErr_nonneg (β : ℝ) (N K : ℕ) : 0 ≤ idealErr β N K := by
  unfold idealErr
  positivity

/-- **C107, one call, `explicit_final=False`.**  In stationarity the old and the new state of `gibbs_kernel` (with
`explicit_backward=False`) are at least as correlated as the old state and an exact draw from the conditional law of the state
given the start of the path and the observation path. -/
theorem C107_gibbs_correlation {m : Gibbs.Funs (rows n false) U V Z} (hS : S.JointMeas) (hm : BackwardExact m S π0 y0 ts K)
    (hsh : PathShape m K) (hpk : PathsKer m false y0 ts K) (hts : ts.2.length = K) {β : ℝ}
    (hβ : ∀ v v' t u, |S.logG v v' t u| ≤ β) (key : Key) {bs : Arr1 (Fin (rows n false))} (hb : bs.2.length = K)
    {f : U → ℝ≥0∞} (hf : Measurable f) :
    ∫⁻ x, f x * idealPinned m S false key x y0 ts f ∂π0
      ≤ ∫⁻ x, f x * (gibbsKernel false m false false key x y0 bs ts).E (fun out => f out.1) ∂π0 :=
  idealPinned_le hS hm hsh hpk hts hβ key hb hf

/-- **C107, one call, `explicit_final=True`.** -/
theorem C107_gibbs_final_correlation {m : Gibbs.Funs (rows n true) U V Z} (hS : S.JointMeas) {ν : Measure U}
    [IsProbabilityMeasure ν] (hm : ReferenceExact m S ν π0 y0 ts K fun v u => S.logG (arr v).1 ((arr v).2.headD (arr v).1) ts.1 u)
    (hsh : PathShape m K) (hpk : PathsKer m false y0 ts K) (hts : ts.2.length = K) {β : ℝ}
    (hβ : ∀ v v' t u, |S.logG v v' t u| ≤ β) (key : Key) {bs : Arr1 (Fin (rows n true))} (hb : bs.2.length = K)
    {f : U → ℝ≥0∞} (hf : Measurable f) :
    ∫⁻ x, f x * idealRef m S ν false key x y0 ts f ∂π0
      ≤ ∫⁻ x, f x * (gibbsKernel true m false false key x y0 bs ts).E (fun out => f out.1) ∂π0 :=
  idealRef_le hS hm hsh hpk hts hβ key hb hf

/-- **C107, `explicit_final=False`.**  Start both chains in the conditional law `π0` and let `A k`, `B k` be the expected products
of the values of `f` at the start and `k` iterations later, for the chain of ideal calls and for the chain of `gibbs_kernel`
(`explicit_backward=False`).  The sum of the autocovariances of the code lies between that of the ideal chain and
`1 / (1 - δ)` times it, `δ = 2 (K+1) (1 + e^{2β(K+1)}) / n`. -/
theorem C107_gibbs_asymptotic_variance [IsFiniteMeasure π0] {m : Gibbs.Funs (rows n false) U V Z} (hS : S.JointMeas)
    (hm : BackwardExact m S π0 y0 ts K) (hsh : PathShape m K) (hpk : PathsKer m false y0 ts K) (hts : ts.2.length = K)
    {β : ℝ} (hβ0 : 0 ≤ β) (hβ : ∀ v v' t u, |S.logG v v' t u| ≤ β) (key : Key) {bs : Arr1 (Fin (rows n false))}
    (hb : bs.2.length = K) {f : U → ℝ≥0∞} (hf : Measurable f) (h2 : ∫⁻ x, f x * f x ∂π0 ≠ ∞) (A B : ℕ → ℝ≥0∞)
    (hA : ∀ k, A k = ∫⁻ x, f x * (fun (g : U → ℝ≥0∞) x => idealPinned m S false key x y0 ts g)^[k] f x ∂π0)
    (hB : ∀ k, B k = ∫⁻ x, f x * (gibbsLoop false m false false y0 ts k key x bs).E (fun out => f out.1) ∂π0) :
    (∑' k, (π0 Set.univ * A k - (∫⁻ x, f x ∂π0) * ∫⁻ x, f x ∂π0)
        ≤ ∑' k, (π0 Set.univ * B k - (∫⁻ x, f x ∂π0) * ∫⁻ x, f x ∂π0))
      ∧ ENNReal.ofReal (1 - idealErr β n K) * ∑' k, (π0 Set.univ * B k - (∫⁻ x, f x ∂π0) * ∫⁻ x, f x ∂π0)
        ≤ ∑' k, (π0 Set.univ * A k - (∫⁻ x, f x ∂π0) * ∫⁻ x, f x ∂π0) := by
  have hn : (0 : ℝ) < n := by exact_mod_cast Nat.pos_of_ne_zero (NeZero.ne n)
  obtain ⟨P, hPM, hP⟩ := idealPinned_ker (margY := false) hS hβ hts hpk
  obtain ⟨η, hM, hη⟩ := gibbs_ker hS hm.trans hm.lik hm.starts hsh false false hts hpk
  have hr := gibbs_runs hsh false false hts hη
  have hb0 : ((0, List.replicate K 0) : Arr1 (Fin (rows n false))).2.length = K := by simp
  have hrev : Rev η π0 := fun f g hf hg => by
    rw [← revKer hη (key := []) hg hb0, ← revKer hη (key := []) hf hb0]
    exact C103_gibbs_reversible hS hm hsh hpk hts false (by simp) [] hb0 hf hg
  have hpos : Pos η π0 := fun f g hf hg => by
    rw [← revKer hη (key := []) hg hb0, ← revKer hη (key := []) hf hb0, ← revKer hη (key := []) hf hb0,
      ← revKer hη (key := []) hg hb0]
    exact C103_gibbs_positive hS hm hsh hpk hts [] hb0 hf hg
  obtain ⟨Λ, hΛ⟩ := hm.factor
  have hl1 : ∀ f g, Measurable g → lagProd P π0 f g 1 = ∫⁻ x, f x * idealPinned m S false [] x y0 ts g ∂π0 := fun f g hg =>
    lintegral_congr fun x => by rw [hP [] x g hg]; rfl
  obtain ⟨hrevP, hposP⟩ := rev_pos_of_form (κ := P) (π := π0) (Λ := Λ)
    (A := fun f q => pathInt (S.steps (arr q.2).1 (arr q.2).2 ts.toList) q.1 (fun l => f (l.getLastD q.1)))
    (fun f hf => measurable_lastPath hS hts hf) (measurable_lastPath hS hts (F := fun _ => 1) measurable_const)
    fun f g hf hg => by rw [hl1 f g hg, idealPinned_lag hS hm hpk hts hΛ [] hf hg]
  have hlow : ∀ f, Measurable f → lagProd P π0 f f 1 ≤ lagProd η π0 f f 1 := fun f hf => by
    rw [hl1 f f hf, ← revKer hη (key := []) hf hb0]
    exact idealPinned_le hS hm hsh hpk hts hβ [] hb0 hf
  have hshare : ENNReal.ofReal (1 - idealErr β n K)
      ≤ passShare (((n : ℝ) - 1) ^ 2 / n) β n K * ENNReal.ofReal (1 - 1 / (n : ℝ)) := by
    refine share_le (idealErr_nonneg β n K) (one_le_share (N := n) le_rfl hβ0 K (ENNReal.ofReal_le_ofReal ?_))
    have : 1 / (n : ℝ) ≤ 2 * (1 + Real.exp (2 * β * (K + 1))) / n :=
      div_le_div_of_nonneg_right (by linarith [Real.exp_pos (2 * β * (K + 1))]) hn.le
    linarith
  have hdom : ∀ x, ENNReal.ofReal (1 - idealErr β n K) • P x ≤ η x := fun x => smul_le_of_le_one fun F hF h1 => by
    rw [← hP [] x F hF, ← hη [] x _ hb0 F hF, E_gibbs_x0 hm.starts false false [] x _ ts hF]
    unfold idealPinned
    rw [← Rand.E_const_mul _ ENNReal.ofReal_ne_top]
    refine Rand.E_mono_leaves (leaves_gibbsPaths false [] x y0 ts hsh) fun q hq => ?_
    obtain ⟨hu, hv⟩ := hq
    rw [E_forwardPass_pinned hm.trans hm.lik _ ts.1 q.1 _ q.2 ts (hu.trans hv.symm) (hb0.trans hv.symm) (hts.trans hv.symm)
      (measFun_move false hF)]
    have hlen : (S.steps q.2.1 q.2.2 ts.toList).length = K := by
      rw [Csmc.steps_length _ _ _ _ (by simp [Arr1.toList, hts, hv]), hv]
    have g1 := pinned_ge (N := rows n false) (b := 0) false (by simp) (steps_abs hβ q.2.2 ts.toList q.2.1)
      (l := q.1.2.zip (List.replicate K 0)) (by rw [hlen]; simp [hu]) (-Real.log n) q.1.1 hF h1
    rw [hlen] at g1
    exact (mul_le_mul' hshare le_rfl).trans g1
  have hε : ENNReal.ofReal (1 - idealErr β n K) ≤ 1 := by
    rw [← ENNReal.ofReal_one]
    exact ENNReal.ofReal_le_ofReal (by linarith [idealErr_nonneg β n K])
  have eA : ∀ k, A k = lagProd P π0 f f k := fun k => by
    rw [hA k, ideal_iter (fun x F hF => hP key x F hF) hf k]
    rfl
  have eB : ∀ k, B k = lagProd η π0 f f k := fun k => by rw [hB k, loop_lag hr hf key hb k]
  simp only [eA, eB]
  exact sandwich hrevP hposP hrev hpos (fun f hf _ => hlow f hf) hε hdom hf h2

/-- **C107, `explicit_final=True`.**  The same for the chain that draws the start of the trajectory as well, with
`δ = 2 (K+1) (1 + e^{2β(K+1)}) / (n+1)`. -/
theorem C107_gibbs_final_asymptotic_variance [IsFiniteMeasure π0] {m : Gibbs.Funs (rows n true) U V Z} (hS : S.JointMeas)
    {ν : Measure U} [IsProbabilityMeasure ν]
    (hm : ReferenceExact m S ν π0 y0 ts K fun v u => S.logG (arr v).1 ((arr v).2.headD (arr v).1) ts.1 u)
    (hsh : PathShape m K) (hpk : PathsKer m false y0 ts K) (hts : ts.2.length = K)
    {β : ℝ} (hβ0 : 0 ≤ β) (hβ : ∀ v v' t u, |S.logG v v' t u| ≤ β) (key : Key) {bs : Arr1 (Fin (rows n true))}
    (hb : bs.2.length = K) {f : U → ℝ≥0∞} (hf : Measurable f) (h2 : ∫⁻ x, f x * f x ∂π0 ≠ ∞) (A B : ℕ → ℝ≥0∞)
    (hA : ∀ k, A k = ∫⁻ x, f x * (fun (g : U → ℝ≥0∞) x => idealRef m S ν false key x y0 ts g)^[k] f x ∂π0)
    (hB : ∀ k, B k = ∫⁻ x, f x * (gibbsLoop true m false false y0 ts k key x bs).E (fun out => f out.1) ∂π0) :
    (∑' k, (π0 Set.univ * A k - (∫⁻ x, f x ∂π0) * ∫⁻ x, f x ∂π0)
        ≤ ∑' k, (π0 Set.univ * B k - (∫⁻ x, f x ∂π0) * ∫⁻ x, f x ∂π0))
      ∧ ENNReal.ofReal (1 - idealErr β (n + 1) K) * ∑' k, (π0 Set.univ * B k - (∫⁻ x, f x ∂π0) * ∫⁻ x, f x ∂π0)
        ≤ ∑' k, (π0 Set.univ * A k - (∫⁻ x, f x ∂π0) * ∫⁻ x, f x ∂π0) := by
  have hrn : ((rows n true : ℕ) : ℝ) = n + 1 := by simp [rows]
  have hN1 : (((rows n true : ℕ) : ℝ) - 1) ^ 2 / (rows n true : ℕ) ≤ ((rows n true : ℕ) : ℝ) - 1 := by
    rw [hrn, div_le_iff₀ (by positivity)]
    have : (0 : ℝ) ≤ n := Nat.cast_nonneg n
    nlinarith
  obtain ⟨P, hPM, hP⟩ := idealRef_ker (margY := false) hS hβ (ν := ν) hts hpk
  obtain ⟨η, hM, hη⟩ := gibbs_final_ker hS hm.trans hm.lik hm.normal hm.starts hsh false false hts hpk
  have hr := gibbs_runs hsh false false hts hη
  have hb0 : ((0, List.replicate K 0) : Arr1 (Fin (rows n true))).2.length = K := by simp
  have hrev : Rev η π0 := fun f g hf hg => by
    rw [← revKer hη (key := []) hg hb0, ← revKer hη (key := []) hf hb0]
    exact C103_gibbs_final_reversible hS hm hsh hpk hts false (by simp) [] hb0 hf hg
  have hpos : Pos η π0 := fun f g hf hg => by
    rw [← revKer hη (key := []) hg hb0, ← revKer hη (key := []) hf hb0, ← revKer hη (key := []) hf hb0,
      ← revKer hη (key := []) hg hb0]
    exact C103_gibbs_final_positive hS hm hsh hpk hts [] hb0 hf hg
  obtain ⟨Λ, hΛ⟩ := hm.factor
  have hl1 : ∀ f g, Measurable g → lagProd P π0 f g 1 = ∫⁻ x, f x * idealRef m S ν false [] x y0 ts g ∂π0 := fun f g hg =>
    lintegral_congr fun x => by rw [hP [] x g hg]; rfl
  obtain ⟨hrevP, hposP⟩ := rev_pos_of_form (κ := P) (π := π0) (Λ := Λ)
    (A := fun f v => refEnd S ν ts (arr v) f) (D := fun v => refEnd S ν ts (arr v) fun _ => 1)
    (fun f hf => measurable_refEnd hS hts hf) (measurable_refEnd hS hts (F := fun _ => 1) measurable_const)
    fun f g hf hg => by rw [hl1 f g hg, idealRef_lag hS hm hpk hts hΛ [] hf hg]
  have hlow : ∀ f, Measurable f → lagProd P π0 f f 1 ≤ lagProd η π0 f f 1 := fun f hf => by
    rw [hl1 f f hf, ← revKer hη (key := []) hf hb0]
    exact idealRef_le hS hm hsh hpk hts hβ [] hb0 hf
  have hshare : ENNReal.ofReal (1 - idealErr β (n + 1) K)
      ≤ passShare ((((rows n true : ℕ) : ℝ) - 1) ^ 2 / (rows n true : ℕ)) β (rows n true) K *
        stepShare (((rows n true : ℕ) : ℝ) - 1) β (rows n true) (K + 1) :=
    share_le (idealErr_nonneg β (n + 1) K) (one_le_share (N := rows n true) le_rfl hβ0 K (stepShare_ge hN1 hβ0 le_rfl))
  have hdom : ∀ x, ENNReal.ofReal (1 - idealErr β (n + 1) K) • P x ≤ η x := fun x => smul_le_of_le_one fun F hF h1 => by
    rw [← hP [] x F hF, ← hη [] x _ hb0 F hF, E_gibbs_x0 hm.starts false false [] x _ ts hF]
    unfold idealRef
    rw [← Rand.E_const_mul _ ENNReal.ofReal_ne_top]
    refine Rand.E_mono_leaves (leaves_gibbsPaths false [] x y0 ts hsh) fun q hq => ?_
    obtain ⟨hu, hv⟩ := hq
    rw [E_forwardPass_ref hm.trans hm.lik hm.normal _ ts.1 q.1 _ q.2 ts (hu.trans hv.symm) (hb0.trans hv.symm)
      (hts.trans hv.symm) (measFun_move false hF)]
    have hlen : (S.steps q.2.1 q.2.2 ts.toList).length = K := by
      rw [Csmc.steps_length _ _ _ _ (by simp [Arr1.toList, hts, hv]), hv]
    have g1 := refStart_ge (N := rows n true) (b := 0) false (by simp) (steps_abs hβ q.2.2 ts.toList q.2.1) (ν := ν)
      (S.measG q.2.1 (q.2.2.headD q.2.1) ts.1) (hβ q.2.1 (q.2.2.headD q.2.1) ts.1)
      (l := q.1.2.zip (List.replicate K 0)) (by rw [hlen]; simp [hu]) q.1.1 hF h1
    rw [hlen] at g1
    exact (mul_le_mul' hshare le_rfl).trans g1
  have hε : ENNReal.ofReal (1 - idealErr β (n + 1) K) ≤ 1 := by
    rw [← ENNReal.ofReal_one]
    exact ENNReal.ofReal_le_ofReal (by linarith [idealErr_nonneg β (n + 1) K])
  have eA : ∀ k, A k = lagProd P π0 f f k := fun k => by
    rw [hA k, ideal_iter (fun x F hF => hP key x F hF) hf k]
    rfl
  have eB : ∀ k, B k = lagProd η π0 f f k := fun k => by rw [hB k, loop_lag hr hf key hb k]
  simp only [eA, eB]
  exact sandwich hrevP hposP hrev hpos (fun f hf _ => hlow f hf) hε hdom hf h2

end

/-! ### Examples -/

section Example

/-- A thousand particles and potentials between `-1` and `1`. -/
example (key : Key) (b c : Fin (rows 1000 false)) (A B : ℕ → ℝ≥0∞)
    (hA : ∀ k, A k = ∫⁻ x, (Set.Ioi (0 : ℝ)).indicator 1 x * (fun (g : ℝ → ℝ≥0∞) x => idealPinned
      (freshFuns (fun v _ => Real.cos v) (rows 1000 false)) (freshS (fun v _ => Real.cos v) fun _ => measurable_const) false key x 2 (0, [1]) g)^[k]
        ((Set.Ioi (0 : ℝ)).indicator 1) x ∂(ENNReal.ofReal (Real.exp (Real.cos 2)) • gaussianReal 0 1))
    (hB : ∀ k, B k = ∫⁻ x, (Set.Ioi (0 : ℝ)).indicator 1 x * (gibbsLoop false (freshFuns (fun v _ => Real.cos v) (rows 1000 false))
      false false 2 (0, [1]) k key x (b, [c])).E (fun out => (Set.Ioi (0 : ℝ)).indicator 1 out.1)
        ∂(ENNReal.ofReal (Real.exp (Real.cos 2)) • gaussianReal 0 1)) (I Z : ℝ≥0∞)
    (hI : I = ∫⁻ x : ℝ, (Set.Ioi (0 : ℝ)).indicator 1 x ∂(ENNReal.ofReal (Real.exp (Real.cos 2)) • gaussianReal 0 1))
    (hZ : Z = (ENNReal.ofReal (Real.exp (Real.cos 2)) • gaussianReal 0 1) Set.univ) :
    (∑' k, (Z * A k - I * I) ≤ ∑' k, (Z * B k - I * I))
      ∧ ENNReal.ofReal (1 - idealErr 1 1000 1) * ∑' k, (Z * B k - I * I) ≤ ∑' k, (Z * A k - I * I) := by
  have : IsFiniteMeasure (ENNReal.ofReal (Real.exp (Real.cos 2)) • gaussianReal 0 1) :=
    Measure.smul_finite _ ENNReal.ofReal_ne_top
  subst hI hZ
  exact C107_gibbs_asymptotic_variance (freshS_jointMeas (g := fun v _ => Real.cos v) (by fun_prop))
    (freshFuns_exact Real.measurable_cos _ 2 0 1) (freshFuns_shape _ _) (freshFuns_pathsKer _ _ _ _) rfl zero_le_one
    (fun v v' t x => Real.abs_cos_le_one _) key rfl (measurable_one.indicator measurableSet_Ioi)
    (ne_top_of_le_ne_top (measure_ne_top _ Set.univ) (by
      rw [← lintegral_one]
      refine lintegral_mono fun x => ?_
      by_cases h : x ∈ Set.Ioi (0 : ℝ) <;> simp [h])) A B hA hB

/-- The bound of the last example says something: the factor is positive. -/
example : 0 < 1 - idealErr 1 1000 1 := by
  have h4 : Real.exp (2 * 1 * ((1 : ℕ) + 1)) ≤ 81 := by
    rw [show (2 * 1 * (((1 : ℕ) : ℝ) + 1)) = (4 : ℕ) * 1 by norm_num, Real.exp_nat_mul]
    calc Real.exp 1 ^ 4 ≤ 3 ^ 4 := pow_le_pow_left₀ (Real.exp_pos 1).le (by linarith [Real.exp_one_lt_d9]) 4
      _ = 81 := by norm_num
  unfold idealErr
  norm_num at h4 ⊢
  linarith

/-- Both ends drawn, with potentials that depend on the state. -/
example (key : Key) (b c : Fin (rows 1000 true)) (A B : ℕ → ℝ≥0∞) (π0 : Measure ℝ)
    (hπ : π0 = (gaussianReal 0 1).withDensity fun u => ENNReal.ofReal (Real.exp (Real.cos u)) * ENNReal.ofReal (Real.exp (Real.cos u)))
    (hA : ∀ k, A k = ∫⁻ x, (Set.Ioi (0 : ℝ)).indicator 1 x * (fun (g : ℝ → ℝ≥0∞) x => idealRef
      (exFuns (fun _ u => Real.cos u) (rows 1000 true)) (exS (fun _ u => Real.cos u) fun _ => Real.measurable_cos) (gaussianReal 0 1) false key x 2 (0, [1]) g)^[k]
        ((Set.Ioi (0 : ℝ)).indicator 1) x ∂π0)
    (hB : ∀ k, B k = ∫⁻ x, (Set.Ioi (0 : ℝ)).indicator 1 x * (gibbsLoop true (exFuns (fun _ u => Real.cos u) (rows 1000 true))
      false false 2 (0, [1]) k key x (b, [c])).E (fun out => (Set.Ioi (0 : ℝ)).indicator 1 out.1) ∂π0) (I Z : ℝ≥0∞)
    (hI : I = ∫⁻ x : ℝ, (Set.Ioi (0 : ℝ)).indicator 1 x ∂π0) (hZ : Z = π0 Set.univ) :
    (∑' k, (Z * A k - I * I) ≤ ∑' k, (Z * B k - I * I))
      ∧ ENNReal.ofReal (1 - idealErr 1 (1000 + 1) 1) * ∑' k, (Z * B k - I * I) ≤ ∑' k, (Z * A k - I * I) := by
  have hg : Measurable fun p : ℝ × ℝ => Real.cos p.2 := by fun_prop
  have hm := exFuns_reference (g := fun _ u => Real.cos u) hg Real.measurable_cos (rows 1000 true) 2 0 1
  subst hπ hI hZ
  have : IsFiniteMeasure ((gaussianReal 0 1).withDensity fun u =>
    ENNReal.ofReal (Real.exp (Real.cos u)) * ENNReal.ofReal (Real.exp (Real.cos u))) := by
    simpa using exTarget_finite 1
  exact C107_gibbs_final_asymptotic_variance (exS_jointMeas (g := fun _ u => Real.cos u) hg) hm (exFuns_shape _ _)
    (exFuns_pathsKer _ _ _ _) rfl zero_le_one (fun v v' t x => Real.abs_cos_le_one _) key rfl
    (measurable_one.indicator measurableSet_Ioi)
    (ne_top_of_le_ne_top (measure_ne_top _ Set.univ) (by
      rw [← lintegral_one]
      refine lintegral_mono fun x => ?_
      by_cases h : x ∈ Set.Ioi (0 : ℝ) <;> simp [h])) A B hA hB

end Example

end Props
end Fbs
