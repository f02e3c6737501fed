import Verif.Lemmas.Pmcmc
import Verif.Lemmas.GibbsLaw
import Verif.Props.Filters
import Verif.Props.Pmcmc
import Verif.Props.Pcn

/-!
# C21: the law of the pseudo-marginal chain
-/

open MeasureTheory ProbabilityTheory
open scoped ENNReal

namespace Fbs
namespace Props

open Jax Spec Smc

variable {U V : Type} {N K : ℕ}

/-! ### The resampling schemes of the library are measurable -/

theorem scheme_of_map {β : Type} [MeasurableSpace β] {res : Smc.Resampling N} {μ : Measure β} [IsProbabilityMeasure μ]
    {T : Set β} {g : (Fin N → ℝ) → β → Fin N → Fin N} (hg : Measurable (Function.uncurry g))
    (h : ∀ w key, res w key = g w <$> Rand.sample key T μ) : MeasurableScheme res := by
  have hgw : ∀ w, Measurable (g w) := fun w => hg.comp measurable_prodMk_left
  refine ⟨fun w A => μ {b | g w b = A}, fun A => ?_, fun w _ => ⟨?_, fun key F => ?_⟩⟩
  · have hs : MeasurableSet {p : (Fin N → ℝ) × β | g p.1 p.2 = A} := hg (measurableSet_singleton A)
    exact measurable_measure_prodMk_left hs
  · have := lintegral_comp_fintype (μ := μ) (hgw w) fun _ => 1
    simpa using this.symm
  · rw [h, Rand.E_map, Rand.E_sample, lintegral_comp_fintype (hgw w)]

theorem measurable_searchsorted₂ {Z : Type} [MeasurableSpace Z] {a : Z → Fin N → ℝ} {v : Z → ℝ} (ha : Measurable a)
    (hv : Measurable v) : Measurable fun z => searchsorted (a z) (v z) := by
  classical
  have : (fun z => searchsorted (a z) (v z)) = fun z => ∑ i, if a z i < v z then 1 else 0 := by
    funext z
    unfold searchsorted
    rw [Finset.card_filter]
  rw [this]
  refine Finset.measurable_sum _ fun i _ => ?_
  exact Measurable.ite (measurableSet_lt ((measurable_pi_apply i).comp ha) hv) measurable_const measurable_const

theorem measurable_cumsum : Measurable (cumsum : (Fin N → ℝ) → Fin N → ℝ) := by
  refine measurable_pi_iff.2 fun i => ?_
  exact Finset.measurable_fun_sum _ fun j _ => measurable_pi_apply j

theorem measurable_comb₂ [NeZero N] : Measurable fun p : (Fin N → ℝ) × (Fin N → ℝ) => Resampling.comb p.1 p.2 := by
  refine measurable_pi_iff.2 fun i => measurable_clipIdx.comp ?_
  exact measurable_searchsorted₂ (measurable_cumsum.comp measurable_fst) (by fun_prop)

theorem scheme_stratified [NeZero N] : MeasurableScheme (N := N) Resampling.stratified := by
  refine scheme_of_map (g := fun w u => Resampling.comb w u) (T := {u | ∀ i, u i ∈ Set.Ico (0 : ℝ) 1})
    (μ := Measure.pi fun _ => unifMeasure) ?_ fun _ _ => rfl
  exact measurable_comb₂

theorem scheme_systematic [NeZero N] : MeasurableScheme (N := N) Resampling.systematic := by
  have h : Measurable fun p : (Fin N → ℝ) × ℝ => (p.1, fun _ : Fin N => p.2) := by fun_prop
  have h2 := Measurable.comp (g := fun p : (Fin N → ℝ) × (Fin N → ℝ) => Resampling.comb p.1 p.2) measurable_comb₂ h
  have h3 : Measurable (Function.uncurry fun (w : Fin N → ℝ) (u : ℝ) => Resampling.comb w fun _ => u) := h2
  refine scheme_of_map (T := Set.Ico 0 1) (μ := unifMeasure) h3 fun w key => ?_
  simp only [Resampling.systematic, uniform]

theorem scheme_multinomial [NeZero N] : MeasurableScheme (N := N) Resampling.multinomial := by
  refine scheme_of_map (g := fun w us i => clipIdx N (searchsorted (cumsum w) (Resampling.sortedUniforms us i)))
    (T := {u | ∀ i, u i ∈ Set.Ico (0 : ℝ) 1}) (μ := Measure.pi fun _ => unifMeasure) ?_ fun _ _ => rfl
  refine measurable_pi_iff.2 fun i => measurable_clipIdx.comp ?_
  refine measurable_searchsorted₂ (measurable_cumsum.comp measurable_fst) ?_
  have hz : Measurable fun p : (Fin N → ℝ) × (Fin (N + 1) → ℝ) => cumsum fun j => -Real.log (p.2 j) :=
    measurable_cumsum.comp (measurable_pi_iff.2 fun j => by fun_prop)
  exact ((measurable_pi_apply _).comp hz).div ((measurable_pi_apply _).comp hz)

theorem scheme_killing [NeZero N] : MeasurableScheme (N := N) Resampling.killing := by
  have hv : Measurable (vmax : (Fin N → ℝ) → ℝ) := by
    have := Finset.measurable_sup' (s := Finset.univ) ⟨(0 : Fin N), Finset.mem_univ _⟩
      (f := fun i (w : Fin N → ℝ) => w i) fun i _ => measurable_pi_apply i
    convert this using 1
    funext w
    exact (Finset.sup'_apply _ (fun i (w : Fin N → ℝ) => w i) w).symm
  have ht : Measurable (total : (Fin N → ℝ) → ℝ) := Finset.measurable_fun_sum _ fun j _ => measurable_pi_apply j
  refine ⟨fun w A => ∏ m, killMass w m (A m), fun A => Finset.measurable_fun_prod _ fun m _ => ?_,
    fun w hw => ⟨sum_prod_one (sum_killMass hw.nonneg (Weights.total_pos hw)), fun key F => E_killing hw key F⟩⟩
  unfold killMass cat
  split_ifs <;> fun_prop

/-! ### Extended target -/

section Invariance

variable [MeasurableSpace U]

theorem E_accept (k : Key) (d : ℝ) (A B : ℝ≥0∞) :
    (uniform k).E (fun z => if accepts z (min 0 d) then A else B)
      = ENNReal.ofReal (min 1 (Real.exp d)) * A + (1 - ENNReal.ofReal (min 1 (Real.exp d))) * B := by
  classical
  have hs : MeasurableSet {z : ℝ | accepts z (min 0 d) = true} := by
    have : {z : ℝ | accepts z (min 0 d) = true} = {0} ∪ {z | Real.log z < min 0 d} := by
      ext z; simp [accepts]
    rw [this]
    exact (measurableSet_singleton 0).union (measurableSet_lt Real.measurable_log measurable_const)
  have h1 := C20_acceptance_probability k d
  rw [uniform, Rand.E_sample] at h1 ⊢
  have e1 : (fun z => if accepts z (min 0 d) = true then (1 : ℝ≥0∞) else 0)
      = {z : ℝ | accepts z (min 0 d) = true}.indicator 1 := by
    funext z; simp [Set.indicator_apply]
  rw [e1, lintegral_indicator_one hs] at h1
  have e2 : (fun z => if accepts z (min 0 d) = true then A else B)
      = fun z => {z : ℝ | accepts z (min 0 d) = true}.indicator (fun _ => A) z
        + {z : ℝ | accepts z (min 0 d) = true}ᶜ.indicator (fun _ => B) z := by
    funext z
    by_cases h : accepts z (min 0 d) = true <;> simp [h]
  rw [e2, lintegral_add_left (measurable_const.indicator hs), lintegral_indicator hs, lintegral_indicator hs.compl,
    setLIntegral_const, setLIntegral_const, prob_compl_eq_one_sub hs, h1, mul_comm A, mul_comm B]

/-- Balance of the accepted moves. -/
theorem weight_balance (l l' : ℝ) :
    ENNReal.ofReal (Real.exp l) * ENNReal.ofReal (min 1 (Real.exp (l' - l)))
      = ENNReal.ofReal (min (Real.exp l) (Real.exp l')) := by
  rw [← ENNReal.ofReal_mul (Real.exp_pos _).le, mul_min_of_nonneg _ _ (Real.exp_pos _).le, mul_one, ← Real.exp_add]
  congr 3
  ring

/-- The extended proposal `(y, p) ↦ (y', p')` is reversible for `P(dy) κ(y, dp)`. -/
theorem extended_reversible {Y Ω : Type} [MeasurableSpace Y] [MeasurableSpace Ω] (P : Measure Y)
    (κ : Kernel Y Ω) [IsMarkovKernel κ] (Q : Kernel Y Y) [IsMarkovKernel Q]
    (hQ : ∀ f : Y × Y → ℝ≥0∞, Measurable f →
      ∫⁻ y, ∫⁻ y', f (y, y') ∂(Q y) ∂P = ∫⁻ y, ∫⁻ y', f (y', y) ∂(Q y) ∂P)
    {H : (Y × Ω) × (Y × Ω) → ℝ≥0∞} (hH : Measurable H) :
    ∫⁻ y, ∫⁻ p, ∫⁻ y', ∫⁻ p', H ((y, p), (y', p')) ∂(κ y') ∂(Q y) ∂(κ y) ∂P
      = ∫⁻ y, ∫⁻ p, ∫⁻ y', ∫⁻ p', H ((y', p'), (y, p)) ∂(κ y') ∂(Q y) ∂(κ y) ∂P := by
  have swap1 : ∀ G : (Y × Ω) × (Y × Ω) → ℝ≥0∞, Measurable G → ∀ y,
      ∫⁻ p, ∫⁻ y', ∫⁻ p', G ((y, p), (y', p')) ∂(κ y') ∂(Q y) ∂(κ y)
        = ∫⁻ y', ∫⁻ p, ∫⁻ p', G ((y, p), (y', p')) ∂(κ y') ∂(κ y) ∂(Q y) := by
    intro G hG y
    have h1 : Measurable fun z : (Ω × Y) × Ω => G ((y, z.1.1), (z.1.2, z.2)) := hG.comp (by fun_prop)
    have h2 : Measurable fun z : Ω × Y => ∫⁻ p', G ((y, z.1), (z.2, p')) ∂(κ z.2) :=
      Measurable.lintegral_kernel_prod_right (κ := κ.comap Prod.snd measurable_snd) h1
    exact lintegral_lintegral_swap h2.aemeasurable
  have hHs : Measurable fun z : (Y × Ω) × (Y × Ω) => H (z.2, z.1) := hH.comp measurable_swap
  have h1 : ∀ y, _ := swap1 H hH
  have h2 : ∀ y, _ := swap1 _ hHs
  simp only [h1]
  have h2' : ∀ y, ∫⁻ p, ∫⁻ y', ∫⁻ p', H ((y', p'), (y, p)) ∂(κ y') ∂(Q y) ∂(κ y)
      = ∫⁻ y', ∫⁻ p, ∫⁻ p', H ((y', p'), (y, p)) ∂(κ y') ∂(κ y) ∂(Q y) := h2
  simp only [h2']
  have hf : Measurable fun z : Y × Y => ∫⁻ p, ∫⁻ p', H ((z.1, p), (z.2, p')) ∂(κ z.2) ∂(κ z.1) := by
    have h3 : Measurable fun z : ((Y × Y) × Ω) × Ω => H ((z.1.1.1, z.1.2), (z.1.1.2, z.2)) := hH.comp (by fun_prop)
    have h4 : Measurable fun z : (Y × Y) × Ω => ∫⁻ p', H ((z.1.1, z.2), (z.1.2, p')) ∂(κ z.1.2) :=
      Measurable.lintegral_kernel_prod_right
        (κ := κ.comap (fun z : (Y × Y) × Ω => z.1.2) (by fun_prop)) h3
    exact Measurable.lintegral_kernel_prod_right (κ := κ.comap (fun z : Y × Y => z.1) (by fun_prop)) h4
  rw [hQ _ hf]
  refine lintegral_congr fun y => lintegral_congr fun y' => ?_
  have h5 : Measurable fun z : Ω × Ω => H ((y', z.1), (y, z.2)) := hH.comp (by fun_prop)
  exact lintegral_lintegral_swap h5.aemeasurable

/-- The abstract argument: `κ` produces (particle, log estimate) from a path, `Q` is a proposal reversible for `P`. -/
theorem pseudo_marginal {Y Ω : Type} [MeasurableSpace Y] [MeasurableSpace Ω] (P : Measure Y)
    (κ : Kernel Y (Ω × ℝ)) [IsMarkovKernel κ] (Q : Kernel Y Y) [IsMarkovKernel Q]
    (hQ : ∀ f : Y × Y → ℝ≥0∞, Measurable f →
      ∫⁻ y, ∫⁻ y', f (y, y') ∂(Q y) ∂P = ∫⁻ y, ∫⁻ y', f (y', y) ∂(Q y) ∂P)
    {φ : Ω → ℝ → Y → ℝ≥0∞} (hφ : Measurable fun p : Ω × ℝ × Y => φ p.1 p.2.1 p.2.2) :
    ∫⁻ y, ∫⁻ p, ENNReal.ofReal (Real.exp p.2) * ∫⁻ y', ∫⁻ p',
        (ENNReal.ofReal (min 1 (Real.exp (p'.2 - p.2))) * φ p'.1 p'.2 y'
          + (1 - ENNReal.ofReal (min 1 (Real.exp (p'.2 - p.2)))) * φ p.1 p.2 y) ∂(κ y') ∂(Q y) ∂(κ y) ∂P
      = ∫⁻ y, ∫⁻ p, ENNReal.ofReal (Real.exp p.2) * φ p.1 p.2 y ∂(κ y) ∂P := by
  let W : ℝ → ℝ → ℝ≥0∞ := fun l l' => ENNReal.ofReal (min (Real.exp l) (Real.exp l'))
  let R : ℝ → ℝ → ℝ≥0∞ := fun l l' =>
    ENNReal.ofReal (Real.exp l) * (1 - ENNReal.ofReal (min 1 (Real.exp (l' - l))))
  have hWR : ∀ l l', W l l' + R l l' = ENNReal.ofReal (Real.exp l) := by
    intro l l'
    show ENNReal.ofReal (min (Real.exp l) (Real.exp l')) + ENNReal.ofReal (Real.exp l) * _ = _
    rw [← weight_balance, ← mul_add, add_tsub_cancel_of_le, mul_one]
    rw [← ENNReal.ofReal_one]
    exact ENNReal.ofReal_le_ofReal (min_le_left _ _)
  have hW : Measurable fun z : ℝ × ℝ => W z.1 z.2 := by
    show Measurable fun z : ℝ × ℝ => ENNReal.ofReal (min (Real.exp z.1) (Real.exp z.2))
    fun_prop
  have hR : Measurable fun z : ℝ × ℝ => R z.1 z.2 := by
    show Measurable fun z : ℝ × ℝ => ENNReal.ofReal (Real.exp z.1) * (1 - ENNReal.ofReal (min 1 (Real.exp (z.2 - z.1))))
    fun_prop
  have hφ' : Measurable fun z : Y × (Ω × ℝ) => φ z.2.1 z.2.2 z.1 := by
    have : Measurable fun z : Y × (Ω × ℝ) => (z.2.1, z.2.2, z.1) := by fun_prop
    exact hφ.comp this
  let H : (Y × (Ω × ℝ)) × (Y × (Ω × ℝ)) → ℝ≥0∞ := fun z => W z.1.2.2 z.2.2.2 * φ z.2.2.1 z.2.2.2 z.2.1
  let G : (Y × (Ω × ℝ)) × (Y × (Ω × ℝ)) → ℝ≥0∞ := fun z => R z.1.2.2 z.2.2.2 * φ z.1.2.1 z.1.2.2 z.1.1
  have hll : Measurable fun z : (Y × (Ω × ℝ)) × (Y × (Ω × ℝ)) => (z.1.2.2, z.2.2.2) := by fun_prop
  have hH : Measurable H := (hW.comp hll).mul (hφ'.comp measurable_snd)
  have hG : Measurable G := (hR.comp hll).mul (hφ'.comp measurable_fst)
  have hHs : Measurable fun z : (Y × (Ω × ℝ)) × (Y × (Ω × ℝ)) => H (z.2, z.1) := hH.comp measurable_swap
  -- the four-fold integral is additive
  have hin : ∀ F : (Y × (Ω × ℝ)) × (Y × (Ω × ℝ)) → ℝ≥0∞, Measurable F →
      Measurable fun z : (Y × (Ω × ℝ)) × Y => ∫⁻ p', F (z.1, (z.2, p')) ∂(κ z.2) := by
    intro F hF
    have h3 : Measurable fun z : ((Y × (Ω × ℝ)) × Y) × (Ω × ℝ) => F (z.1.1, (z.1.2, z.2)) := hF.comp (by fun_prop)
    exact Measurable.lintegral_kernel_prod_right (κ := κ.comap Prod.snd measurable_snd) h3
  have hin2 : ∀ F : (Y × (Ω × ℝ)) × (Y × (Ω × ℝ)) → ℝ≥0∞, Measurable F →
      Measurable fun z : Y × (Ω × ℝ) => ∫⁻ y', ∫⁻ p', F (z, (y', p')) ∂(κ y') ∂(Q z.1) := by
    intro F hF
    exact Measurable.lintegral_kernel_prod_right (κ := Q.comap Prod.fst measurable_fst) (hin F hF)
  have hadd : ∀ F F' : (Y × (Ω × ℝ)) × (Y × (Ω × ℝ)) → ℝ≥0∞, Measurable F → Measurable F' →
      ∫⁻ y, ∫⁻ p, ∫⁻ y', ∫⁻ p', (F ((y, p), (y', p')) + F' ((y, p), (y', p'))) ∂(κ y') ∂(Q y) ∂(κ y) ∂P
        = ∫⁻ y, ∫⁻ p, ∫⁻ y', ∫⁻ p', F ((y, p), (y', p')) ∂(κ y') ∂(Q y) ∂(κ y) ∂P
          + ∫⁻ y, ∫⁻ p, ∫⁻ y', ∫⁻ p', F' ((y, p), (y', p')) ∂(κ y') ∂(Q y) ∂(κ y) ∂P := by
    intro F F' hF hF'
    have e1 : Measurable fun y => ∫⁻ p, ∫⁻ y', ∫⁻ p', F ((y, p), (y', p')) ∂(κ y') ∂(Q y) ∂(κ y) :=
      Measurable.lintegral_kernel_prod_right (κ := κ) (hin2 F hF)
    rw [← lintegral_add_left e1]
    refine lintegral_congr fun y => ?_
    have e2 : Measurable fun p => ∫⁻ y', ∫⁻ p', F ((y, p), (y', p')) ∂(κ y') ∂(Q y) :=
      (hin2 F hF).comp measurable_prodMk_left
    rw [← lintegral_add_left e2]
    refine lintegral_congr fun p => ?_
    have e3 : Measurable fun y' => ∫⁻ p', F ((y, p), (y', p')) ∂(κ y') :=
      (hin F hF).comp (measurable_prodMk_left (x := (y, p)))
    rw [← lintegral_add_left e3]
    refine lintegral_congr fun y' => ?_
    have e4 : Measurable fun p' => F ((y, p), (y', p')) := hF.comp (by fun_prop)
    rw [← lintegral_add_left e4]
  have hleft : ∀ y (p : Ω × ℝ), ENNReal.ofReal (Real.exp p.2) * ∫⁻ y', ∫⁻ p',
        (ENNReal.ofReal (min 1 (Real.exp (p'.2 - p.2))) * φ p'.1 p'.2 y'
          + (1 - ENNReal.ofReal (min 1 (Real.exp (p'.2 - p.2)))) * φ p.1 p.2 y) ∂(κ y') ∂(Q y)
      = ∫⁻ y', ∫⁻ p', (H ((y, p), (y', p')) + G ((y, p), (y', p'))) ∂(κ y') ∂(Q y) := by
    intro y p
    rw [← lintegral_const_mul' _ _ ENNReal.ofReal_ne_top]
    refine lintegral_congr fun y' => ?_
    rw [← lintegral_const_mul' _ _ ENNReal.ofReal_ne_top]
    refine lintegral_congr fun p' => ?_
    show _ = W p.2 p'.2 * φ p'.1 p'.2 y' + R p.2 p'.2 * φ p.1 p.2 y
    rw [mul_add, ← mul_assoc, ← mul_assoc, weight_balance]
  simp only [hleft]
  rw [hadd H G hH hG, extended_reversible P κ Q hQ hH, ← hadd _ G hHs hG]
  refine lintegral_congr fun y => lintegral_congr fun p => ?_
  have hsum : ∀ y' (p' : Ω × ℝ), H ((y', p'), (y, p)) + G ((y, p), (y', p'))
      = ENNReal.ofReal (Real.exp p.2) * φ p.1 p.2 y := by
    intro y' p'
    show W p'.2 p.2 * φ p.1 p.2 y + R p.2 p'.2 * φ p.1 p.2 y = _
    rw [← add_mul, show W p'.2 p.2 = W p.2 p'.2 from congrArg ENNReal.ofReal (min_comm _ _), hWR]
  simp [hsum]

theorem hasKer_estimate [MeasurableSpace V] [NeZero N] {m : Smc.Funs N U V} {ref : Kernel V U} [IsMarkovKernel ref]
    {S : StateSpace U V} (hm : PmcmcImplements m ref S) (hS : S.JointMeas) {res : Smc.Resampling N}
    (hres : MeasurableScheme res) (ts : Fin (K + 1) → ℝ) (i : Fin N) :
    HasKer fun key ys => pmcmcEstimate m res key ys ts i := by
  have h := (hasKer_runFilter hm hS hres ts).map (g := fun z => (z.2.1 i, z.2.2))
    (by fun_prop : Measurable fun z : (Fin (K + 1) → V) × ((Fin N → U) × ℝ) => (z.2.1 i, z.2.2))
  simpa only [pmcmcEstimate_eq] using h

omit [MeasurableSpace U] in
theorem E_pmcmcKernel [AddCommGroup V] [Module ℝ V] (m : Funs N U V) (res : Smc.Resampling N) (key : Key) (u : U)
    (l : ℝ) (ys : Fin (K + 1) → V) (y0 : V) (ts : Fin (K + 1) → ℝ) (fwdYs : Key → V → Rand (Fin (K + 1) → V))
    (sdeMean : ℝ → ℝ → V → V) (delta : Option ℝ) (i : Fin N) (φ : U → ℝ → (Fin (K + 1) → V) → ℝ≥0∞) :
    (pmcmcKernel m res key u l ys y0 ts fwdYs sdeMean delta i).E (fun out => φ out.1 out.2.1 out.2.2.1)
      = (pmcmcProposal key ys y0 ts fwdYs sdeMean delta).E fun ys' => (pmcmcEstimate m res key ys' ts i).E fun p' =>
        ENNReal.ofReal (min 1 (Real.exp (p'.2 - l))) * φ p'.1 p'.2 ys'
          + (1 - ENNReal.ofReal (min 1 (Real.exp (p'.2 - l)))) * φ u l ys := by
  simp only [pmcmcKernel, Rand.E_bind, Rand.pure_eq, Rand.E_ret]
  refine Rand.E_congr _ fun ys' => Rand.E_congr _ fun p' => ?_
  rw [← E_accept (split key 4 3)]
  refine Rand.E_congr _ fun z => ?_
  split_ifs <;> rfl

variable [MeasurableSpace V] [AddCommGroup V] [Module ℝ V]

omit [MeasurableSpace U] [MeasurableSpace V] [AddCommGroup V] [Module ℝ V] in
theorem measurable_estInner {A Y W : Type} [MeasurableSpace A] [MeasurableSpace Y] [MeasurableSpace W] (κ : Kernel Y W)
    [IsMarkovKernel κ] {F : A × (Y × W) → ℝ≥0∞} (hF : Measurable F) :
    Measurable fun z : A × Y => ∫⁻ w, F (z.1, (z.2, w)) ∂(κ z.2) := by
  have h3 : Measurable fun z : (A × Y) × W => (z.1.1, (z.1.2, z.2)) := by fun_prop
  exact Measurable.lintegral_kernel_prod_right' (κ := κ.comap Prod.snd measurable_snd) (hF.comp h3)

omit [MeasurableSpace U] [MeasurableSpace V] [AddCommGroup V] [Module ℝ V] in
theorem measurable_section {A B : Type} [MeasurableSpace A] [MeasurableSpace B] {F : A × B → ℝ≥0∞} (hF : Measurable F)
    (a : A) : Measurable fun b => F (a, b) := hF.comp measurable_prodMk_left

omit [MeasurableSpace U] [MeasurableSpace V] [AddCommGroup V] [Module ℝ V] in
theorem measurable_propOuter {W Y : Type} [MeasurableSpace Y] [MeasurableSpace W] (Q : Kernel Y Y)
    [IsMarkovKernel Q] {F : (Y × W) × Y → ℝ≥0∞} (hF : Measurable F) :
    Measurable fun z : Y × W => ∫⁻ y', F (z, y') ∂(Q z.1) :=
  Measurable.lintegral_kernel_prod_right' (κ := Q.comap Prod.fst measurable_fst) hF

omit [MeasurableSpace U] [MeasurableSpace V] [AddCommGroup V] [Module ℝ V] in
theorem E_chain {W Y ι : Type} [MeasurableSpace Y] [MeasurableSpace W] (κ : Kernel Y W) [IsMarkovKernel κ]
    (Q : Kernel Y Y) [IsMarkovKernel Q] {est : ι → Y → Rand W} {prop : ι → Y → Rand Y}
    (hest : ∀ k y f, Measurable f → (est k y).E f = ∫⁻ w, f w ∂(κ y))
    (hprop : ∀ k y f, Measurable f → (prop k y).E f = ∫⁻ y', f y' ∂(Q y)) (P : Measure Y) {e : W → ℝ≥0∞}
    (he : Measurable e) {F : (Y × W) × (Y × W) → ℝ≥0∞} (hF : Measurable F) (k₀ k : ι) :
    ∫⁻ y, (est k₀ y).E (fun w => e w * (prop k y).E fun y' => (est k y').E fun w' => F ((y, w), (y', w'))) ∂P
      = ∫⁻ y, ∫⁻ w, e w * ∫⁻ y', ∫⁻ w', F ((y, w), (y', w')) ∂(κ y') ∂(Q y) ∂(κ y) ∂P := by
  have h3 := measurable_estInner κ hF
  have h2 := measurable_propOuter Q h3
  have e3 : ∀ y w y', (est k y').E (fun w' => F ((y, w), (y', w'))) = ∫⁻ w', F ((y, w), (y', w')) ∂(κ y') :=
    fun y w y' => hest k y' _ ((measurable_section hF (y, w)).comp measurable_prodMk_left)
  have e2 : ∀ y w, (prop k y).E (fun y' => ∫⁻ w', F ((y, w), (y', w')) ∂(κ y'))
      = ∫⁻ y', ∫⁻ w', F ((y, w), (y', w')) ∂(κ y') ∂(Q y) :=
    fun y w => hprop k y _ (measurable_section h3 (y, w))
  simp only [e3, e2]
  exact lintegral_congr fun y => hest k₀ y _ (he.mul (measurable_section h2 y))

/-- The extended target is invariant whenever the proposal of paths is reversible for `P`. -/
theorem extended_invariant [NeZero N] {m : Funs N U V} {ref : Kernel V U} [IsMarkovKernel ref] {S : StateSpace U V}
    (hm : PmcmcImplements m ref S) (hS : S.JointMeas) {res : Smc.Resampling N} (hres : MeasurableScheme res)
    (y0 : V) (ts : Fin (K + 1) → ℝ) (fwdYs : Key → V → Rand (Fin (K + 1) → V)) (sdeMean : ℝ → ℝ → V → V)
    (delta : Option ℝ) (i : Fin N) (P : Measure (Fin (K + 1) → V))
    (hprop : HasKer fun key ys => pmcmcProposal key ys y0 ts fwdYs sdeMean delta)
    (hrev : ∀ key (f : (Fin (K + 1) → V) × (Fin (K + 1) → V) → ℝ≥0∞), Measurable f →
      ∫⁻ ys, (pmcmcProposal key ys y0 ts fwdYs sdeMean delta).E (fun ys' => f (ys, ys')) ∂P
        = ∫⁻ ys, (pmcmcProposal key ys y0 ts fwdYs sdeMean delta).E (fun ys' => f (ys', ys)) ∂P)
    (key₀ key : Key) {φ : U → ℝ → (Fin (K + 1) → V) → ℝ≥0∞}
    (hφ : Measurable fun p : U × ℝ × (Fin (K + 1) → V) => φ p.1 p.2.1 p.2.2) :
    extTarget m res ts i P key₀ (fun u l ys => (pmcmcKernel m res key u l ys y0 ts fwdYs sdeMean delta i).E
        fun out => φ out.1 out.2.1 out.2.2.1)
      = extTarget m res ts i P key₀ φ := by
  obtain ⟨κ, hκ, hest⟩ := hasKer_estimate hm hS hres ts i
  obtain ⟨Q, hQ, hpr⟩ := hprop
  have hφ' : Measurable fun z : (Fin (K + 1) → V) × (U × ℝ) => φ z.2.1 z.2.2 z.1 := by
    have : Measurable fun z : (Fin (K + 1) → V) × (U × ℝ) => (z.2.1, z.2.2, z.1) := by fun_prop
    exact hφ.comp this
  have hF : Measurable fun z : ((Fin (K + 1) → V) × (U × ℝ)) × ((Fin (K + 1) → V) × (U × ℝ)) =>
      ENNReal.ofReal (min 1 (Real.exp (z.2.2.2 - z.1.2.2))) * φ z.2.2.1 z.2.2.2 z.2.1
        + (1 - ENNReal.ofReal (min 1 (Real.exp (z.2.2.2 - z.1.2.2)))) * φ z.1.2.1 z.1.2.2 z.1.1 := by
    have h1 : Measurable fun z : ((Fin (K + 1) → V) × (U × ℝ)) × ((Fin (K + 1) → V) × (U × ℝ)) =>
      ENNReal.ofReal (min 1 (Real.exp (z.2.2.2 - z.1.2.2))) := by fun_prop
    exact (h1.mul (hφ'.comp measurable_snd)).add ((measurable_const.sub h1).mul (hφ'.comp measurable_fst))
  have hexp : Measurable fun w : U × ℝ => ENNReal.ofReal (Real.exp w.2) := by fun_prop
  have hQ' : ∀ f : (Fin (K + 1) → V) × (Fin (K + 1) → V) → ℝ≥0∞, Measurable f →
      ∫⁻ y, ∫⁻ y', f (y, y') ∂(Q y) ∂P = ∫⁻ y, ∫⁻ y', f (y', y) ∂(Q y) ∂P := by
    intro f hf
    have h := hrev key f hf
    have a1 : ∀ ys, _ := fun ys => hpr key ys (fun ys' => f (ys, ys')) (hf.comp measurable_prodMk_left)
    have a2 : ∀ ys, _ := fun ys => hpr key ys (fun ys' => f (ys', ys)) (hf.comp measurable_prodMk_right)
    simp only [a1, a2] at h
    exact h
  have l := E_chain κ Q hest hpr P hexp hF key₀ key
  have r : ∫⁻ ys, (pmcmcEstimate m res key₀ ys ts i).E (fun w => ENNReal.ofReal (Real.exp w.2) * φ w.1 w.2 ys) ∂P
      = ∫⁻ ys, ∫⁻ w, ENNReal.ofReal (Real.exp w.2) * φ w.1 w.2 ys ∂(κ ys) ∂P :=
    lintegral_congr fun ys => hest key₀ ys _ (hexp.mul (measurable_section hφ' ys))
  have pm := pseudo_marginal P κ Q hQ' hφ
  simp only [extTarget, E_pmcmcKernel]
  rw [r, ← pm, ← l]

/-- **C21, extended target, independent proposals.** -/
theorem C21_extended_invariant [NeZero N] {m : Funs N U V} {ref : Kernel V U} [IsMarkovKernel ref]
    {S : StateSpace U V} (hm : PmcmcImplements m ref S) (hS : S.JointMeas) {res : Smc.Resampling N}
    (hres : MeasurableScheme res) (y0 : V) (ts : Fin (K + 1) → ℝ) {fwdYs : Key → V → Rand (Fin (K + 1) → V)}
    (sdeMean : ℝ → ℝ → V → V) (i : Fin N) {P : Measure (Fin (K + 1) → V)} [IsProbabilityMeasure P]
    (hP : ∀ k f, Measurable f → (fwdYs k y0).E f = ∫⁻ ys, f ys ∂P)
    (key₀ key : Key) {φ : U → ℝ → (Fin (K + 1) → V) → ℝ≥0∞}
    (hφ : Measurable fun p : U × ℝ × (Fin (K + 1) → V) => φ p.1 p.2.1 p.2.2) :
    extTarget m res ts i P key₀ (fun u l ys => (pmcmcKernel m res key u l ys y0 ts fwdYs sdeMean none i).E
        fun out => φ out.1 out.2.1 out.2.2.1)
      = extTarget m res ts i P key₀ φ := by
  refine extended_invariant hm hS hres y0 ts fwdYs sdeMean none i P ?_ ?_ key₀ key hφ
  · exact ⟨Kernel.const _ P, inferInstance, fun k _ f hf => by rw [Kernel.const_apply]; exact hP _ f hf⟩
  · intro k f hf
    have a1 : ∀ ys, _ := fun ys => hP (split k 4 0) (fun ys' => f (ys, ys')) (hf.comp measurable_prodMk_left)
    have a2 : ∀ ys, _ := fun ys => hP (split k 4 0) (fun ys' => f (ys', ys)) (hf.comp measurable_prodMk_right)
    simp only [pmcmcProposal, a1, a2]
    exact lintegral_lintegral_swap hf.aemeasurable

end Invariance

section PCN

variable {U V : Type} [MeasurableSpace U] [NormedAddCommGroup V] [NormedSpace ℝ V] [CompleteSpace V]
  [SecondCountableTopology V] [MeasurableSpace V] [BorelSpace V] {N K : ℕ}

omit [CompleteSpace V] in
theorem hasKer_pcn (y0 : V) (ts : Fin (K + 1) → ℝ) {fwdYs : Key → V → Rand (Fin (K + 1) → V)}
    (sdeMean : ℝ → ℝ → V → V) {P : Measure (Fin (K + 1) → V)} [IsProbabilityMeasure P]
    (hP : Draws (fun k => fwdYs k y0) P) (delta : ℝ) :
    HasKer fun key ys => pmcmcProposal key ys y0 ts fwdYs sdeMean (some delta) := by
  have h0 : HasKer fun (key : Key) (_ : Fin (K + 1) → V) => fwdYs (split (split key 4 0) 2 0) y0 :=
    ⟨Kernel.const _ P, inferInstance, fun k _ f hf => by rw [Kernel.const_apply]; exact hP _ f hf⟩
  have h1 : HasKer fun (key : Key) (_ : (Fin (K + 1) → V) × (Fin (K + 1) → V)) =>
      fwdYs (split (split key 4 0) 2 1) y0 :=
    ⟨Kernel.const _ P, inferInstance, fun k _ f hf => by rw [Kernel.const_apply]; exact hP _ f hf⟩
  have hg : Measurable fun z : ((Fin (K + 1) → V) × (Fin (K + 1) → V)) × (Fin (K + 1) → V) =>
    (2 / (2 + delta)) • (z.1.1 + Real.sqrt (delta / 2) • (z.1.2 - fun j => sdeMean (ts j) (ts 0) y0))
      + (1 - 2 / (2 + delta)) • (fun j => sdeMean (ts j) (ts 0) y0)
      + Real.sqrt (1 - 2 / (2 + delta)) • (z.2 - fun j => sdeMean (ts j) (ts 0) y0) := by fun_prop
  exact h0.bind (h1.map hg)

/-- **C21, extended target, preconditioned Crank–Nicolson proposals.** -/
theorem C21_extended_invariant_pcn [NeZero N] {m : Funs N U V} {ref : Kernel V U} [IsMarkovKernel ref]
    {S : StateSpace U V} (hm : PmcmcImplements m ref S) (hS : S.JointMeas) {res : Smc.Resampling N}
    (hres : MeasurableScheme res) (y0 : V) (ts : Fin (K + 1) → ℝ) {fwdYs : Key → V → Rand (Fin (K + 1) → V)}
    {sdeMean : ℝ → ℝ → V → V} (i : Fin N) {P : Measure (Fin (K + 1) → V)} [IsGaussian P]
    (hP : Draws (fun k => fwdYs k y0) P) (hmean : (fun j => sdeMean (ts j) (ts 0) y0) = ∫ ys, ys ∂P)
    {delta : ℝ} (hδ : 0 ≤ delta) (key₀ key : Key) {φ : U → ℝ → (Fin (K + 1) → V) → ℝ≥0∞}
    (hφ : Measurable fun p : U × ℝ × (Fin (K + 1) → V) => φ p.1 p.2.1 p.2.2) :
    extTarget m res ts i P key₀ (fun u l ys => (pmcmcKernel m res key u l ys y0 ts fwdYs sdeMean (some delta) i).E
        fun out => φ out.1 out.2.1 out.2.2.1)
      = extTarget m res ts i P key₀ φ := by
  refine extended_invariant hm hS hres y0 ts fwdYs sdeMean (some delta) i P ?_ ?_ key₀ key hφ
  · exact hasKer_pcn y0 ts sdeMean hP delta
  · intro k f hf
    exact C22_exchangeable (split k 4 0) hδ hP hmean hf

end PCN

section Marginal

variable {U V : Type} [MeasurableSpace U] [MeasurableSpace V] {N K : ℕ}

/-- The average over the particles of the filter, in terms of the model. -/
theorem runFilter_avg [NeZero N] {m : Funs N U V} {ref : Kernel V U} [IsMarkovKernel ref] {S : StateSpace U V}
    (hm : PmcmcImplements m ref S) {res : Smc.Resampling N} (hres : UnbiasedSums res) (ts : Fin (K + 1) → ℝ)
    (key : Key) (ys : Fin (K + 1) → V) {φ : U → ℝ≥0∞} (hφ : Measurable φ) :
    (runFilter m res ts key ys).E
        (fun out => ENNReal.ofReal (Real.exp out.2) * ((N : ℝ≥0∞)⁻¹ * ∑ i, φ (out.1 i)))
      = backwardInt S ref ts ys φ := by
  have h : SmcImplements m (S.startedAt (ref (ys (Fin.last K)))) (toArr1 fun i => ys (Fin.rev i)).1 :=
    ⟨fun k n F hF => by
      have := hm.init k (ys (Fin.last K)) n F hF
      rw [← Fin.rev_zero] at this ⊢
      exact this, hm.trans, hm.lik⟩
  have := C18_pmcmc_filter_unbiased (toArr1 fun i => ys (Fin.rev i)) (toArr1 ts) h hres (by simp [toArr1])
    (split key 4 1) (split key 4 2) hφ
  rw [backwardInt, ← Fin.rev_zero] at *
  exact this

theorem measurable_avg {φ : U → ℝ≥0∞} (hφ : Measurable φ) :
    Measurable fun out : (Fin N → U) × ℝ =>
      ENNReal.ofReal (Real.exp out.2) * ((N : ℝ≥0∞)⁻¹ * ∑ i, φ (out.1 i)) := by
  have h1 : Measurable fun out : (Fin N → U) × ℝ => ENNReal.ofReal (Real.exp out.2) := by fun_prop
  have h2 : Measurable fun out : (Fin N → U) × ℝ => ∑ i, φ (out.1 i) :=
    Finset.measurable_fun_sum _ fun i _ => hφ.comp ((measurable_pi_apply i).comp measurable_fst)
  exact h1.mul (h2.const_mul _)

/-- **C21, average over the particles.**  Averaged over the index `which_u` of the retained particle, the extended
target integrates functions of the particle like the model's backward factorisation. -/
theorem C21_average_marginal [NeZero N] {m : Funs N U V} {ref : Kernel V U} [IsMarkovKernel ref] {S : StateSpace U V}
    (hm : PmcmcImplements m ref S) (hS : S.JointMeas) {res : Smc.Resampling N} (hres : UnbiasedSums res)
    (hres' : MeasurableScheme res) (ts : Fin (K + 1) → ℝ) (P : Measure (Fin (K + 1) → V)) (key : Key)
    {φ : U → ℝ≥0∞} (hφ : Measurable φ) :
    (N : ℝ≥0∞)⁻¹ * ∑ i, extTarget m res ts i P key (fun u _ _ => φ u)
      = ∫⁻ ys, backwardInt S ref ts ys φ ∂P := by
  obtain ⟨κ, hκ, h⟩ := hasKer_runFilter hm hS hres' ts
  have hi : ∀ i : Fin N, Measurable fun out : (Fin N → U) × ℝ => ENNReal.ofReal (Real.exp out.2) * φ (out.1 i) := by
    intro i
    have h1 : Measurable fun out : (Fin N → U) × ℝ => ENNReal.ofReal (Real.exp out.2) := by fun_prop
    exact h1.mul (hφ.comp ((measurable_pi_apply i).comp measurable_fst))
  simp only [extTarget, pmcmcEstimate_eq, Rand.E_map]
  have hE : ∀ ys i, (runFilter m res ts key ys).E (fun out => ENNReal.ofReal (Real.exp out.2) * φ (out.1 i))
      = ∫⁻ out, ENNReal.ofReal (Real.exp out.2) * φ (out.1 i) ∂(κ ys) := fun ys i => h key ys _ (hi i)
  simp only [hE, ← runFilter_avg hm hres ts key _ hφ, fun ys => h key ys _ (measurable_avg hφ)]
  rw [← lintegral_finsetSum _ fun i _ => (hi i).lintegral_kernel,
    ← lintegral_const_mul _ (Finset.measurable_fun_sum _ fun i _ => (hi i).lintegral_kernel)]
  refine lintegral_congr fun ys => ?_
  rw [← lintegral_finsetSum _ fun i _ => hi i,
    ← lintegral_const_mul _ (Finset.measurable_fun_sum _ fun i _ => hi i)]
  refine lintegral_congr fun out => ?_
  rw [← Finset.mul_sum]
  ring

/-- The backward factorisation is a kernel: measurable in the path, linear in the function. -/
theorem backwardInt_kernel [NeZero N] {m : Funs N U V} {ref : Kernel V U} [IsMarkovKernel ref] {S : StateSpace U V}
    (hm : PmcmcImplements m ref S) (hS : S.JointMeas) {res : Smc.Resampling N} (hres : UnbiasedSums res)
    (hres' : MeasurableScheme res) (ts : Fin (K + 1) → ℝ) {φ : U → ℝ≥0∞} (hφ : Measurable φ) :
    (Measurable fun ys => backwardInt S ref ts ys φ) ∧
      ∀ ys c, backwardInt S ref ts ys (fun u => c * φ u) = c * backwardInt S ref ts ys φ := by
  obtain ⟨κ, hκ, h⟩ := hasKer_runFilter hm hS hres' ts
  have he : ∀ ys {φ' : U → ℝ≥0∞}, Measurable φ' → backwardInt S ref ts ys φ' = _ := fun ys φ' hφ' =>
    (runFilter_avg hm hres ts [] ys hφ').symm.trans (h [] ys _ (measurable_avg hφ'))
  refine ⟨?_, fun ys c => ?_⟩
  · simp only [fun ys => he ys hφ]
    exact (measurable_avg hφ).lintegral_kernel
  · rw [he ys hφ, he ys (hφ.const_mul c), ← lintegral_const_mul _ (measurable_avg hφ)]
    refine lintegral_congr fun out => ?_
    rw [← Finset.mul_sum]
    ring

/-- Under separability the particle is independent of the path, whose law is tilted by its likelihood. -/
theorem separable_posterior [NeZero N] {m : Funs N U V} {ref : Kernel V U} [IsMarkovKernel ref] {S : StateSpace U V}
    (hm : PmcmcImplements m ref S) (hS : S.JointMeas) {res : Smc.Resampling N} (hres : UnbiasedSums res)
    (hres' : MeasurableScheme res) {ts : Fin (K + 1) → ℝ} {π0 : Measure U} [IsProbabilityMeasure π0]
    {P : Measure (Fin (K + 1) → V)} (hsep : SeparableExact S ref π0 P ts) {φ : U → ℝ≥0∞} (hφ : Measurable φ) :
    ∫⁻ ys, backwardInt S ref ts ys φ ∂P = (∫⁻ u, φ u ∂π0) * ∫⁻ ys, backwardInt S ref ts ys (fun _ => 1) ∂P := by
  obtain ⟨R, hR⟩ := hsep
  have hb := backwardInt_kernel hm hS hres hres' ts hφ
  have h1 := backwardInt_kernel hm hS hres hres' ts (measurable_const (a := (1 : ℝ≥0∞)))
  have key1 := hR (fun _ ys => backwardInt S ref ts ys φ * 1) (by
    exact (hb.1.comp measurable_snd).mul_const 1)
  have key2 := hR (fun u ys => backwardInt S ref ts ys (fun _ => 1) * φ u)
    ((h1.1.comp measurable_snd).mul (hφ.comp measurable_fst))
  simp only [lintegral_const, measure_univ, mul_one] at key1
  simp only [hb.2] at key2
  have e : ∀ ys : Fin (K + 1) → V, ∫⁻ u, backwardInt S ref ts ys (fun _ => 1) * φ u ∂π0
      = backwardInt S ref ts ys (fun _ => 1) * ∫⁻ u, φ u ∂π0 := fun ys => lintegral_const_mul _ hφ
  simp only [e] at key2
  rw [lintegral_mul_const _ h1.1] at key2
  rw [mul_comm (∫⁻ u, φ u ∂π0), key2, key1]
  refine lintegral_congr fun ys => ?_
  have := h1.2 ys (backwardInt S ref ts ys φ)
  simp only [mul_one] at this
  rw [this, mul_comm]

/-! ### Relabelling the particles -/

theorem lintegral_pi_perm (σ : Equiv.Perm (Fin N)) (μ : Fin N → Measure U) [∀ i, IsProbabilityMeasure (μ i)]
    {F : (Fin N → U) → ℝ≥0∞} (hF : Measurable F) :
    ∫⁻ x, F x ∂(Measure.pi fun i => μ (σ i)) = ∫⁻ x, F (x ∘ σ) ∂(Measure.pi μ) := by
  have h := measurePreserving_piCongrLeft (α := fun _ : Fin N => U) μ σ
  have hc : Measurable fun x : Fin N → U => F (x ∘ σ) :=
    hF.comp (measurable_pi_iff.2 fun i => measurable_pi_apply (σ i))
  rw [← h.lintegral_comp hc]
  refine lintegral_congr fun x => congrArg F (funext fun i => ?_)
  exact (Equiv.piCongrLeft_apply_apply (fun _ => U) σ x i).symm

theorem logsumexp_perm (x : Fin N → ℝ) (σ : Equiv.Perm (Fin N)) : logsumexp (x ∘ σ) = logsumexp x := by
  unfold logsumexp
  exact congrArg Real.log (Equiv.sum_comp σ fun i => Real.exp (x i))

theorem body_perm [NeZero N] {m : Funs N U V} {ref : Kernel V U} {S : StateSpace U V} (hm : PmcmcImplements m ref S)
    {res : Smc.Resampling N} (hex : ExchangeableScheme res) (σ : Equiv.Perm (Fin N)) (x : Fin N → U) (l : ℝ)
    (inp : StepIn V) {F : (Fin N → U) → ℝ → ℝ≥0∞} (hF : ∀ l, Measurable fun x => F x l) :
    (pmcmcBody m res (x ∘ σ, l) inp).E (fun r => F r.1.1 r.1.2)
      = (pmcmcBody m res (x, l) inp).E (fun r => F (r.1.1 ∘ σ) r.1.2) := by
  obtain ⟨v, v', t, key⟩ := inp
  have hl : m.lik v (x ∘ σ) v' t = m.lik v x v' t ∘ σ := funext fun i => by simp [hm.lik]
  have hw : (fun i => Real.exp (m.lik v (x ∘ σ) v' t i - logsumexp (m.lik v (x ∘ σ) v' t)))
      = (fun i => Real.exp (m.lik v x v' t i - logsumexp (m.lik v x v' t))) ∘ σ := by
    rw [hl, logsumexp_perm]; rfl
  simp only [pmcmcBody, Rand.E_bind, Rand.pure_eq, Rand.E_ret, hw]
  refine (hex _ (Csmc.normalise_weights (m.lik v x v' t)) σ _ _).trans (Rand.E_congr _ fun A => ?_)
  have ht : take (x ∘ σ) (fun i => σ.symm (A (σ i))) = take x A ∘ σ := by
    funext i; simp [take]
  have hc : Measurable fun y : Fin N → U => F (y ∘ σ) (l - Real.log N + logsumexp (m.lik v x v' t)) :=
    (hF _).comp (measurable_pi_iff.2 fun i => measurable_pi_apply (σ i))
  rw [ht, hl, logsumexp_perm, hm.trans _ _ _ _ _ (hF _), hm.trans _ _ _ _ _ hc]
  exact lintegral_pi_perm σ (fun i => S.trans v' t (take x A i)) (hF _)

theorem measurable_scan [NeZero N] {m : Funs N U V} {ref : Kernel V U} {S : StateSpace U V} (hm : PmcmcImplements m ref S)
    (hS : S.JointMeas) {res : Smc.Resampling N} (hres : MeasurableScheme res) (inps : List (StepIn V))
    {F : (Fin N → U) × ℝ → ℝ≥0∞} (hF : Measurable F) :
    Measurable fun c => (Rand.scan (pmcmcBody m res) c inps).E fun r => F r.1 := by
  have h := hasKer_scan (X := Unit) (hasKer_pmcmcBody hm hS hres)
    (inps.map fun s => (fun _ => s.1, fun _ => s.2.1, s.2.2.1)) (by
      intro s hs
      obtain ⟨s', _, rfl⟩ := List.mem_map.1 hs
      exact ⟨measurable_const, measurable_const⟩)
  have h' := (h.comap (Y := (Fin N → U) × ℝ) (g := fun c => (c, ())) (by fun_prop)
    fun _ : Unit => ⟨inps.map fun s => s.2.2.2, by simp⟩).measurable () (f := fun _ => F) (hF.comp measurable_snd)
  simp only [Rand.E_map] at h'
  convert h' using 4
  rw [List.zipWith_map, List.zipWith_self]
  simp

theorem scan_perm [NeZero N] {m : Funs N U V} {ref : Kernel V U} {S : StateSpace U V} (hm : PmcmcImplements m ref S)
    (hS : S.JointMeas) {res : Smc.Resampling N} (hres : MeasurableScheme res) (hex : ExchangeableScheme res)
    (σ : Equiv.Perm (Fin N)) {F : (Fin N → U) × ℝ → ℝ≥0∞} (hF : Measurable F) :
    ∀ (inps : List (StepIn V)) (x : Fin N → U) (l : ℝ),
      (Rand.scan (pmcmcBody m res) (x ∘ σ, l) inps).E (fun r => F r.1)
        = (Rand.scan (pmcmcBody m res) (x, l) inps).E fun r => F (r.1.1 ∘ σ, r.1.2)
  | [], x, l => rfl
  | inp :: inps, x, l => by
    simp only [Rand.scan, Rand.E_bind, Rand.pure_eq, Rand.E_ret]
    have hm' : ∀ l, Measurable fun y : Fin N → U => (Rand.scan (pmcmcBody m res) (y, l) inps).E fun r => F r.1 :=
      fun l => (measurable_scan hm hS hres inps hF).comp measurable_prodMk_right
    refine (body_perm hm hex σ x l inp (F := fun y l => (Rand.scan (pmcmcBody m res) (y, l) inps).E fun r => F r.1)
      hm').trans ?_
    exact Rand.E_congr _ fun r => scan_perm hm hS hres hex σ hF inps r.1.1 r.1.2

/-- Under an exchangeable scheme the particles of the filter are exchangeable. -/
theorem runFilter_perm [NeZero N] {m : Funs N U V} {ref : Kernel V U} [IsMarkovKernel ref] {S : StateSpace U V}
    (hm : PmcmcImplements m ref S) (hS : S.JointMeas) {res : Smc.Resampling N} (hres : MeasurableScheme res)
    (hex : ExchangeableScheme res) (ts : Fin (K + 1) → ℝ) (key : Key) (ys : Fin (K + 1) → V)
    (σ : Equiv.Perm (Fin N)) {F : (Fin N → U) × ℝ → ℝ≥0∞} (hF : Measurable F) :
    (runFilter m res ts key ys).E (fun r => F (r.1 ∘ σ, r.2)) = (runFilter m res ts key ys).E F := by
  simp only [runFilter, pmcmcFilterStep, Rand.E_bind, Rand.pure_eq, Rand.E_ret]
  simp only [← scan_perm hm hS hres hex σ hF]
  have h := (measurable_scan hm hS hres (scanInputs (toArr1 fun i => ys (Fin.rev i)) (toArr1 ts)
    (splitAll (split key 4 2) (toArr1 ts).2.length)) hF).comp (measurable_prodMk_right (y := (0 : ℝ)))
  have hc : Measurable fun x : Fin N → U => x ∘ σ := measurable_pi_iff.2 fun i => measurable_pi_apply (σ i)
  refine (hm.init _ _ _ _ (h.comp hc)).trans ?_
  exact (lintegral_pi_perm σ (fun _ => ref (ys (Fin.last K))) h).symm.trans (hm.init _ _ _ _ h).symm

/-- The extended target does not depend on which particle is retained. -/
theorem extTarget_index [NeZero N] {m : Funs N U V} {ref : Kernel V U} [IsMarkovKernel ref] {S : StateSpace U V}
    (hm : PmcmcImplements m ref S) (hS : S.JointMeas) {res : Smc.Resampling N} (hres : MeasurableScheme res)
    (hex : ExchangeableScheme res) (ts : Fin (K + 1) → ℝ) (i j : Fin N) (P : Measure (Fin (K + 1) → V)) (key : Key)
    {φ : U → ℝ≥0∞} (hφ : Measurable φ) :
    extTarget m res ts i P key (fun u _ _ => φ u) = extTarget m res ts j P key (fun u _ _ => φ u) := by
  simp only [extTarget, pmcmcEstimate_eq, Rand.E_map]
  refine lintegral_congr fun ys => ?_
  have h1 : Measurable fun out : (Fin N → U) × ℝ => ENNReal.ofReal (Real.exp out.2) := by fun_prop
  have hj : Measurable fun out : (Fin N → U) × ℝ => ENNReal.ofReal (Real.exp out.2) * φ (out.1 j) :=
    h1.mul (hφ.comp ((measurable_pi_apply j).comp measurable_fst))
  rw [← runFilter_perm hm hS hres hex ts key ys (Equiv.swap i j) hj]
  simp

theorem exchangeable_killing [NeZero N] : ExchangeableScheme (N := N) Resampling.killing := by
  intro w hw σ key F
  have hw' : Weights (w ∘ σ) := ⟨fun i => hw.nonneg _, (Equiv.sum_comp σ w).trans hw.sum_one⟩
  have hv : vmax (w ∘ σ) = vmax w := by
    unfold vmax
    refine le_antisymm (Finset.sup'_le _ _ fun i _ => Finset.le_sup' w (Finset.mem_univ (σ i)))
      (Finset.sup'_le _ _ fun i _ => ?_)
    have := Finset.le_sup' (w ∘ σ) (Finset.mem_univ (σ.symm i))
    simpa using this
  have ht : total (w ∘ σ) = total w := Equiv.sum_comp σ w
  have hk : ∀ m a, killMass (w ∘ σ) m a = killMass w (σ m) (σ a) := by
    intro m a
    simp [killMass, cat, hv, ht]
  rw [E_killing hw', E_killing hw]
  symm
  let e : (Fin N → Fin N) ≃ (Fin N → Fin N) := σ.arrowCongr σ
  rw [← Equiv.sum_comp e]
  refine Finset.sum_congr rfl fun A _ => ?_
  have h1 : ∏ i, killMass w i (e A i) = ∏ m, killMass (w ∘ σ) m (A m) := by
    rw [← Equiv.prod_comp σ]
    refine Finset.prod_congr rfl fun i _ => ?_
    rw [hk]; simp [e]
  rw [h1]
  congr 2
  funext i
  simp [e]

/-- **C21, posterior.**  With exchangeable resampling (`killing`), and the separable dynamics implemented exactly, the
particle of the extended target has the posterior law `π0`. -/
theorem C21_posterior_partial [NeZero N] {m : Funs N U V} {ref : Kernel V U} [IsMarkovKernel ref] {S : StateSpace U V}
    (hm : PmcmcImplements m ref S) (hS : S.JointMeas) {res : Smc.Resampling N} (hres : UnbiasedSums res)
    (hres' : MeasurableScheme res) (hex : ExchangeableScheme res) {ts : Fin (K + 1) → ℝ} (i : Fin N) {π0 : Measure U}
    [IsProbabilityMeasure π0] {P : Measure (Fin (K + 1) → V)} (hsep : SeparableExact S ref π0 P ts) (key : Key)
    {φ : U → ℝ≥0∞} (hφ : Measurable φ) :
    extTarget m res ts i P key (fun u _ _ => φ u)
      = (∫⁻ u, φ u ∂π0) * extTarget m res ts i P key (fun _ _ _ => 1) := by
  have h : ∀ {φ : U → ℝ≥0∞}, Measurable φ →
      extTarget m res ts i P key (fun u _ _ => φ u) = ∫⁻ ys, backwardInt S ref ts ys φ ∂P := by
    intro φ hφ
    rw [← C21_average_marginal hm hS hres hres' ts P key hφ]
    simp only [fun j => extTarget_index hm hS hres' hex ts j i P key hφ, Finset.sum_const, Finset.card_univ,
      Fintype.card_fin, nsmul_eq_mul]
    rw [← mul_assoc, ENNReal.inv_mul_cancel (by simp [NeZero.ne N]) (by simp), one_mul]
  rw [h hφ, h measurable_const]
  exact separable_posterior hm hS hres hres' hsep hφ

/-! ### The chain -/

/-- The part of the result of `pmcmc_kernel` which is passed to the next call. -/
noncomputable def pmcmcNext [AddCommGroup V] [Module ℝ V] (m : Funs N U V) (res : Smc.Resampling N) (y0 : V)
    (ts : Fin (K + 1) → ℝ) (fwdYs : Key → V → Rand (Fin (K + 1) → V)) (sdeMean : ℝ → ℝ → V → V) (delta : Option ℝ)
    (i : Fin N) (key : Key) (s : U × ℝ × (Fin (K + 1) → V)) : Rand (U × ℝ × (Fin (K + 1) → V)) :=
  (fun out => (out.1, out.2.1, out.2.2.1)) <$> pmcmcKernel m res key s.1 s.2.1 s.2.2 y0 ts fwdYs sdeMean delta i

/-- Repeated application with a list of keys. -/
noncomputable def iterKernel {σ : Type} (next : Key → σ → Rand σ) : List Key → σ → Rand σ
  | [], s => Rand.ret s
  | k :: ks, s => next k s >>= iterKernel next ks

theorem hasKer_uniform {X : Type} [MeasurableSpace X] (e : Key → Key) :
    HasKer fun (key : Key) (_ : X) => uniform (e key) :=
  ⟨Kernel.const _ unifMeasure, inferInstance, fun k _ f _ => by rw [Kernel.const_apply]; rfl⟩

theorem hasKer_pmcmcNext [AddCommGroup V] [Module ℝ V] [NeZero N] {m : Funs N U V} {ref : Kernel V U}
    [IsMarkovKernel ref] {S : StateSpace U V} (hm : PmcmcImplements m ref S) (hS : S.JointMeas)
    {res : Smc.Resampling N} (hres : MeasurableScheme res) (y0 : V) (ts : Fin (K + 1) → ℝ)
    (fwdYs : Key → V → Rand (Fin (K + 1) → V)) (sdeMean : ℝ → ℝ → V → V) (delta : Option ℝ) (i : Fin N)
    (hprop : HasKer fun key ys => pmcmcProposal key ys y0 ts fwdYs sdeMean delta) :
    HasKer (pmcmcNext m res y0 ts fwdYs sdeMean delta i) := by
  have h1 := hprop.comap (Y := U × ℝ × (Fin (K + 1) → V)) (g := fun s => s.2.2) (by fun_prop) fun k : Key => k
  have h2 := (hasKer_estimate hm hS hres ts i).comap (Y := (U × ℝ × (Fin (K + 1) → V)) × (Fin (K + 1) → V))
    (g := fun z => z.2) (by fun_prop) fun k : Key => k
  have h3 := hasKer_uniform (X := ((U × ℝ × (Fin (K + 1) → V)) × (Fin (K + 1) → V)) × (U × ℝ)) fun k => split k 4 3
  have hset : MeasurableSet {z : (((U × ℝ × (Fin (K + 1) → V)) × (Fin (K + 1) → V)) × (U × ℝ)) × ℝ |
      accepts z.2 (min 0 (z.1.2.2 - z.1.1.1.2.1)) = true} := by
    have e1 : MeasurableSet {z : (((U × ℝ × (Fin (K + 1) → V)) × (Fin (K + 1) → V)) × (U × ℝ)) × ℝ | z.2 = 0} :=
      measurableSet_eq_fun (by fun_prop) (by fun_prop)
    have e2 : MeasurableSet {z : (((U × ℝ × (Fin (K + 1) → V)) × (Fin (K + 1) → V)) × (U × ℝ)) × ℝ |
        Real.log z.2 < min 0 (z.1.2.2 - z.1.1.1.2.1)} := measurableSet_lt (by fun_prop) (by fun_prop)
    simp only [accepts, decide_eq_true_eq]
    exact e1.union e2
  have hg : Measurable fun z : (((U × ℝ × (Fin (K + 1) → V)) × (Fin (K + 1) → V)) × (U × ℝ)) × ℝ =>
      (if accepts z.2 (min 0 (z.1.2.2 - z.1.1.1.2.1)) then (z.1.2.1, z.1.2.2, z.1.1.2) else z.1.1.1) :=
    Measurable.ite hset (by fun_prop) (by fun_prop)
  refine (h1.bind (h2.bind (h3.map hg))).congr fun key s f hf => ?_
  simp only [pmcmcNext, pmcmcKernel, Rand.E_map, Rand.E_bind, Rand.pure_eq, Rand.E_ret]
  refine Rand.E_congr _ fun ys' => Rand.E_congr _ fun p' => Rand.E_congr _ fun z => ?_
  split_ifs <;> rfl

theorem hasKer_iter {σ : Type} [MeasurableSpace σ] {next : Key → σ → Rand σ} (h : HasKer next) :
    ∀ ks : List Key, HasKer fun (_ : Unit) => iterKernel next ks
  | [] => hasKer_ret measurable_id
  | k :: ks => (h.comap (g := fun s => s) measurable_id fun _ : Unit => k).bind
      ((hasKer_iter h ks).comap (g := Prod.snd) measurable_snd fun u => u)

/-- The extended target is invariant for the chain. -/
theorem iter_invariant [AddCommGroup V] [Module ℝ V] [NeZero N] {m : Funs N U V} {ref : Kernel V U}
    [IsMarkovKernel ref] {S : StateSpace U V} (hm : PmcmcImplements m ref S) (hS : S.JointMeas)
    {res : Smc.Resampling N} (hres : MeasurableScheme res) (y0 : V) (ts : Fin (K + 1) → ℝ)
    (fwdYs : Key → V → Rand (Fin (K + 1) → V)) (sdeMean : ℝ → ℝ → V → V) (delta : Option ℝ) (i : Fin N)
    (hprop : HasKer fun key ys => pmcmcProposal key ys y0 ts fwdYs sdeMean delta) (P : Measure (Fin (K + 1) → V))
    (key₀ : Key)
    (hinv : ∀ key {φ : U → ℝ → (Fin (K + 1) → V) → ℝ≥0∞},
      (Measurable fun p : U × ℝ × (Fin (K + 1) → V) => φ p.1 p.2.1 p.2.2) →
      extTarget m res ts i P key₀ (fun u l ys => (pmcmcKernel m res key u l ys y0 ts fwdYs sdeMean delta i).E
        fun out => φ out.1 out.2.1 out.2.2.1) = extTarget m res ts i P key₀ φ)
    {f : U × ℝ × (Fin (K + 1) → V) → ℝ≥0∞} (hf : Measurable f) : ∀ ks : List Key,
    extTarget m res ts i P key₀ (fun u l ys => (iterKernel (pmcmcNext m res y0 ts fwdYs sdeMean delta i) ks
        (u, l, ys)).E f) = extTarget m res ts i P key₀ fun u l ys => f (u, l, ys)
  | [] => rfl
  | k :: ks => by
    have hm' := (hasKer_iter (hasKer_pmcmcNext hm hS hres y0 ts fwdYs sdeMean delta i hprop) ks).measurable ()
      (f := fun _ => f) (hf.comp measurable_snd)
    rw [← iter_invariant hm hS hres y0 ts fwdYs sdeMean delta i hprop P key₀ hinv hf ks,
      ← hinv k (φ := fun u l ys => (iterKernel (pmcmcNext m res y0 ts fwdYs sdeMean delta i) ks (u, l, ys)).E f) hm']
    simp only [iterKernel, Rand.E_bind, pmcmcNext, Rand.E_map]

end Marginal

section Chain

variable {U V : Type} [MeasurableSpace U] [MeasurableSpace V] {N K : ℕ}

/-- **C21, chain with independent proposals.**  Started from the extended target, after any number of calls of
`pmcmc_kernel` with an exchangeable scheme the particle has the posterior law `π0`. -/
theorem C21_chain_posterior_partial [AddCommGroup V] [Module ℝ V] [NeZero N] {m : Funs N U V} {ref : Kernel V U}
    [IsMarkovKernel ref] {S : StateSpace U V} (hm : PmcmcImplements m ref S) (hS : S.JointMeas)
    {res : Smc.Resampling N} (hres : UnbiasedSums res) (hres' : MeasurableScheme res) (hex : ExchangeableScheme res)
    (y0 : V) {ts : Fin (K + 1) → ℝ} {fwdYs : Key → V → Rand (Fin (K + 1) → V)} (sdeMean : ℝ → ℝ → V → V) (i : Fin N)
    {π0 : Measure U} [IsProbabilityMeasure π0] {P : Measure (Fin (K + 1) → V)} [IsProbabilityMeasure P]
    (hP : ∀ k f, Measurable f → (fwdYs k y0).E f = ∫⁻ ys, f ys ∂P) (hsep : SeparableExact S ref π0 P ts)
    (key₀ : Key) (ks : List Key) {φ : U → ℝ≥0∞} (hφ : Measurable φ) :
    extTarget m res ts i P key₀ (fun u l ys => (iterKernel (pmcmcNext m res y0 ts fwdYs sdeMean none i) ks
        (u, l, ys)).E fun s => φ s.1)
      = (∫⁻ u, φ u ∂π0) * extTarget m res ts i P key₀ fun _ _ _ => 1 := by
  refine (iter_invariant hm hS hres' y0 ts fwdYs sdeMean none i ?_ P key₀
    (fun key _ hφ => C21_extended_invariant hm hS hres' y0 ts sdeMean i hP key₀ key hφ)
    (hφ.comp measurable_fst) ks).trans (C21_posterior_partial hm hS hres hres' hex i hsep key₀ hφ)
  exact ⟨Kernel.const _ P, inferInstance, fun k _ f hf => by rw [Kernel.const_apply]; exact hP _ f hf⟩

/-- **C21, chain with preconditioned Crank–Nicolson proposals.** -/
theorem C21_chain_posterior_pcn_partial {V : Type} [NormedAddCommGroup V] [NormedSpace ℝ V] [CompleteSpace V]
    [SecondCountableTopology V] [MeasurableSpace V] [BorelSpace V] [NeZero N] {m : Funs N U V} {ref : Kernel V U}
    [IsMarkovKernel ref] {S : StateSpace U V} (hm : PmcmcImplements m ref S) (hS : S.JointMeas)
    {res : Smc.Resampling N} (hres : UnbiasedSums res) (hres' : MeasurableScheme res) (hex : ExchangeableScheme res)
    (y0 : V) {ts : Fin (K + 1) → ℝ} {fwdYs : Key → V → Rand (Fin (K + 1) → V)} {sdeMean : ℝ → ℝ → V → V} (i : Fin N)
    {π0 : Measure U} [IsProbabilityMeasure π0] {P : Measure (Fin (K + 1) → V)} [IsGaussian P]
    (hP : Draws (fun k => fwdYs k y0) P) (hmean : (fun j => sdeMean (ts j) (ts 0) y0) = ∫ ys, ys ∂P)
    {delta : ℝ} (hδ : 0 ≤ delta) (hsep : SeparableExact S ref π0 P ts)
    (key₀ : Key) (ks : List Key) {φ : U → ℝ≥0∞} (hφ : Measurable φ) :
    extTarget m res ts i P key₀ (fun u l ys => (iterKernel (pmcmcNext m res y0 ts fwdYs sdeMean (some delta) i) ks
        (u, l, ys)).E fun s => φ s.1)
      = (∫⁻ u, φ u ∂π0) * extTarget m res ts i P key₀ fun _ _ _ => 1 :=
  (iter_invariant hm hS hres' y0 ts fwdYs sdeMean (some delta) i (hasKer_pcn y0 ts sdeMean hP delta) P key₀
    (fun key _ hφ => C21_extended_invariant_pcn hm hS hres' y0 ts i hP hmean hδ key₀ key hφ)
    (hφ.comp measurable_fst) ks).trans (C21_posterior_partial hm hS hres hres' hex i hsep key₀ hφ)

end Chain

/-! ### A concrete model, and the failure for `stratified` -/

section Example

/-- A fair coin which is never moved; heads have likelihood 8, tails 1. -/
noncomputable def coinSpace : StateSpace Bool ℝ where
  init := (2 : ℝ≥0∞)⁻¹ • (Measure.dirac true + Measure.dirac false)
  prob := ⟨by simp [ENNReal.inv_two_add_inv_two]⟩
  trans _ _ := Kernel.id
  markov _ _ := inferInstance
  logG _ _ _ u := if u then Real.log 8 else 0
  measG _ _ _ := measurable_of_finite _
  logG0 _ _ _ := 0
  measG0 _ _ := measurable_const

/-- Heads with probability 8/9. -/
noncomputable def coinPosterior : Measure Bool :=
  (9 : ℝ≥0∞)⁻¹ • ((8 : ℝ≥0∞) • Measure.dirac true + Measure.dirac false)

instance : IsProbabilityMeasure coinPosterior := ⟨by
  have h : (9 : ℝ≥0∞)⁻¹ * 8 + 9⁻¹ = 9⁻¹ * (8 + 1) := by ring
  have h9 : (8 : ℝ≥0∞) + 1 = 9 := by norm_num
  simp [coinPosterior, h]
  rw [h9, ENNReal.inv_mul_cancel (by simp) (by simp)]⟩

theorem coin_implements (N : ℕ) : PmcmcImplements (smcFuns coinSpace N) (Kernel.const ℝ coinSpace.init) coinSpace :=
  ⟨fun _ _ _ _ _ => by simp only [Kernel.const_apply]; rfl, fun _ _ _ _ _ _ => rfl, fun _ _ _ _ _ => rfl⟩

theorem coin_jointMeas : coinSpace.JointMeas := by
  refine ⟨fun t => ?_, fun t => ?_⟩
  · exact (Kernel.id (α := Bool)).measurable.comp measurable_snd
  · exact (measurable_of_finite fun u : Bool => if u then Real.log 8 else 0).comp (measurable_snd.comp measurable_snd)

theorem coin_backward (ts : Fin 2 → ℝ) (ys : Fin 2 → ℝ) (φ : Bool → ℝ≥0∞) :
    backwardInt coinSpace (Kernel.const ℝ coinSpace.init) ts ys φ = 2⁻¹ * (8 * φ true + φ false) := by
  have h8 : ENNReal.ofReal (Real.exp (Real.log 8)) = 8 := by rw [Real.exp_log (by norm_num)]; simp
  simp [backwardInt, StateSpace.filterInt, StateSpace.startedAt, coinSpace, arr, StateSpace.steps, pathInt, Arr1.toList,
    Kernel.const_apply, Kernel.id_apply, h8, mul_add]

theorem coin_separable (P : Measure (Fin 2 → ℝ)) (ts : Fin 2 → ℝ) :
    SeparableExact coinSpace (Kernel.const ℝ coinSpace.init) coinPosterior P ts := by
  refine ⟨((2 : ℝ≥0∞) * 9⁻¹) • P, fun ψ hψ => ?_⟩
  have hb : ∀ b, Measurable fun ys => ψ b ys := fun b => hψ.comp measurable_prodMk_left
  simp only [coin_backward]
  rw [lintegral_smul_measure, smul_eq_mul, ← lintegral_const_mul _ (by fun_prop)]
  refine lintegral_congr fun ys => ?_
  have : (2 : ℝ≥0∞) * 9⁻¹ * (2⁻¹ * (8 * ψ true ys + ψ false ys))
      = 2 * 2⁻¹ * (9⁻¹ * (8 * ψ true ys + ψ false ys)) := by ring
  rw [this, ENNReal.mul_inv_cancel (by simp) (by simp), one_mul]
  simp [coinPosterior, mul_add]

/-- `killing` gives the posterior in the example. -/
example (key₀ : Key) (ks : List Key) (ts : Fin 2 → ℝ) (i : Fin 3) (y0 : ℝ) :
    extTarget (smcFuns coinSpace 3) Resampling.killing ts i (Measure.pi fun _ => unifMeasure) key₀
        (fun u l ys => (iterKernel (pmcmcNext (smcFuns coinSpace 3) Resampling.killing y0 ts (fun k _ => uniforms k 2)
          (fun _ _ y => y) none i) ks (u, l, ys)).E fun s => if s.1 then 1 else 0)
      = (8 / 9) * extTarget (smcFuns coinSpace 3) Resampling.killing ts i (Measure.pi fun _ => unifMeasure) key₀
          fun _ _ _ => 1 := by
  rw [C21_chain_posterior_partial (coin_implements 3) coin_jointMeas sums_killing scheme_killing exchangeable_killing y0
    (fun _ _ y => y) i (π0 := coinPosterior) (fun k f _ => rfl) (coin_separable _ ts) key₀ ks
    (φ := fun u => if u then 1 else 0) (measurable_of_finite _)]
  simp [coinPosterior, ENNReal.div_eq_inv_mul]

/-- Paths of two rows, the first fixed at 0 and the second standard normal. -/
noncomputable def gaussPath : Measure (Fin (1 + 1) → ℝ) :=
  (gaussianReal 0 1).map (ContinuousLinearMap.pi fun i : Fin (1 + 1) => if i = 0 then 0 else ContinuousLinearMap.id ℝ ℝ)

instance : IsGaussian gaussPath := by unfold gaussPath; infer_instance

theorem gaussPath_mean : ∫ ys, ys ∂gaussPath = 0 := by
  unfold gaussPath
  rw [integral_map (by fun_prop) (by fun_prop), ContinuousLinearMap.integral_comp_comm _ IsGaussian.integrable_fun_id]
  simp
  rfl

example (key₀ : Key) (ks : List Key) (ts : Fin 2 → ℝ) (i : Fin 3) :
    extTarget (smcFuns coinSpace 3) Resampling.killing ts i gaussPath key₀
        (fun u l ys => (iterKernel (pmcmcNext (smcFuns coinSpace 3) Resampling.killing 0 ts
          (fun k _ => Rand.sample k Set.univ gaussPath) (fun _ _ y => y) (some 2) i) ks (u, l, ys)).E
            fun s => if s.1 then 1 else 0)
      = (8 / 9) * extTarget (smcFuns coinSpace 3) Resampling.killing ts i gaussPath key₀ fun _ _ _ => 1 := by
  rw [C21_chain_posterior_pcn_partial (coin_implements 3) coin_jointMeas sums_killing scheme_killing
    exchangeable_killing 0 i (π0 := coinPosterior) (fun k f _ => rfl) (by rw [gaussPath_mean]; rfl) (by norm_num)
    (coin_separable _ ts) key₀ ks (φ := fun u => if u then 1 else 0) (measurable_of_finite _)]
  simp [coinPosterior, ENNReal.div_eq_inv_mul]

theorem coin_weights (x : Fin 3 → Bool) :
    Real.exp (0 - Real.log (3 : ℕ) + logsumexp fun i => if x i then Real.log 8 else (0 : ℝ))
      = (∑ i, if x i then 8 else 1) / 3 := by
  have hs : ∑ i, Real.exp (if x i then Real.log 8 else (0 : ℝ)) = ∑ i, if x i then (8 : ℝ) else 1 :=
    Finset.sum_congr rfl fun i _ => by split_ifs <;> simp [Real.exp_log]
  have hp : 0 < ∑ i, if x i then (8 : ℝ) else 1 :=
    Finset.sum_pos (fun i _ => by split_ifs <;> norm_num) Finset.univ_nonempty
  rw [logsumexp, hs, zero_sub, neg_add_eq_sub, Real.exp_sub, Real.exp_log hp, Real.exp_log (by norm_num)]
  norm_num

/-- Position 0 of a stratified draw is beyond index `j` with probability at most `1 - 3 (w_0 + .. + w_j)`. -/
theorem stratified_first {w : Fin 3 → ℝ} (hw : Weights w) (key : Key) (x : Fin 3 → Bool) (j : Fin 3)
    (hx : ∀ i ≤ j, x i = false) :
    (Resampling.stratified w key).E (fun A => if x (A 0) then 1 else 0) ≤ ENNReal.ofReal (1 - 3 * cumsum w j) := by
  unfold Resampling.stratified uniforms
  rw [Rand.E_map, Rand.E_sample]
  have hm : MeasurableSet (Set.Ioi (3 * cumsum w j)) := measurableSet_Ioi
  calc _ ≤ ∫⁻ u : Fin 3 → ℝ, (Set.Ioi (3 * cumsum w j)).indicator 1 (u 0) ∂(Measure.pi fun _ => unifMeasure) := by
        refine lintegral_mono fun u => ?_
        by_cases hu : u 0 ≤ 3 * cumsum w j
        · have : Resampling.comb w u 0 ≤ j := by
            have h : searchsorted (cumsum w) ((((0 : Fin 3) : ℕ) + u 0) / (3 : ℕ)) ≤ j := by
              rw [searchsorted_le_iff hw.nonneg]
              simp
              linarith
            unfold Resampling.comb
            rw [clipIdx_of_lt (lt_of_le_of_lt h j.2)]
            exact h
          simp [hx _ this]
        · push Not at hu
          have : u 0 ∈ Set.Ioi (3 * cumsum w j) := hu
          rw [Set.indicator_of_mem this]
          simp only [Pi.one_apply]
          split_ifs <;> simp
    _ = ∫⁻ u : ℝ, (Set.Ioi (3 * cumsum w j)).indicator 1 u ∂unifMeasure :=
        (measurePreserving_eval (fun _ : Fin 3 => unifMeasure) 0).lintegral_comp (measurable_one.indicator hm)
    _ = unifMeasure (Set.Ioi (3 * cumsum w j)) := lintegral_indicator_one hm
    _ ≤ _ := by
        rw [unifMeasure, Measure.restrict_apply hm, ← Real.volume_Ioo]
        exact measure_mono fun u hu => ⟨hu.1, hu.2.2⟩

/-- The normalised weights of the coins. -/
theorem coin_normalise (x : Fin 3 → Bool) (j : Fin 3) :
    Csmc.normalise (fun i => if x i then Real.log 8 else (0 : ℝ)) j
      = (if x j then 8 else 1) / ∑ i, if x i then (8 : ℝ) else 1 := by
  have hs : ∑ i, Real.exp (if x i then Real.log 8 else (0 : ℝ)) = ∑ i, if x i then (8 : ℝ) else 1 :=
    Finset.sum_congr rfl fun i _ => by split_ifs <;> simp [Real.exp_log]
  have hp : 0 < ∑ i, if x i then (8 : ℝ) else 1 :=
    Finset.sum_pos (fun i _ => by split_ifs <;> norm_num) Finset.univ_nonempty
  unfold Csmc.normalise Csmc.normaliseLog logsumexp
  rw [hs, Real.exp_sub, Real.exp_log hp]
  congr 1
  by_cases h : x j = true <;> simp [h, Real.exp_log]

theorem coin_runFilter (ts ys : Fin 2 → ℝ) (key : Key) :
    (pmcmcEstimate (smcFuns coinSpace 3) Resampling.stratified key ys ts 0).E
        (fun p => ENNReal.ofReal (Real.exp p.2) * if p.1 then 1 else 0)
      = ∫⁻ x : Fin 3 → Bool, ENNReal.ofReal ((∑ i, if x i then 8 else 1) / 3) *
          (Resampling.stratified (Csmc.normalise fun i => if x i then Real.log 8 else (0 : ℝ))
            (split (split (split key 4 2) 1 0) 2 1)).E (fun A => if x (A 0) then 1 else 0)
          ∂(Measure.pi fun _ => coinSpace.init) := by
  have hd : ∀ a : Fin 3 → Bool, (Measure.pi fun i => Kernel.id (a i)) = Measure.dirac a := by
    intro a
    simp only [Kernel.id_apply]
    exact Csmc.pi_dirac a
  simp only [pmcmcEstimate, pmcmcFilterStep, Rand.E_bind, Rand.pure_eq, Rand.E_ret]
  refine lintegral_congr fun x => ?_
  rw [← Rand.E_const_mul _ ENNReal.ofReal_ne_top, ← coin_weights]
  simp [Smc.scanInputs, toArr1, Arr1.init, splitAll, Rand.scan, Rand.E_bind, pmcmcBody, smcFuns, coinSpace, hd, take]
  rfl

theorem coin_bound (x : Fin 3 → Bool) (key : Key) :
    ENNReal.ofReal ((∑ i, if x i then 8 else 1) / 3) *
        (Resampling.stratified (Csmc.normalise fun i => if x i then Real.log 8 else (0 : ℝ)) key).E
          (fun A => if x (A 0) then 1 else 0)
      ≤ ENNReal.ofReal ((if x 0 then ∑ i, (if x i then 8 else 1) else if x 1 then ∑ i, (if x i then 8 else 1) - 3
          else if x 2 then 4 else 0) / 3) := by
  have hw := Csmc.normalise_weights fun i => if x i then Real.log 8 else (0 : ℝ)
  have hp : 0 < ∑ i, if x i then (8 : ℝ) else 1 :=
    Finset.sum_pos (fun i _ => by split_ifs <;> norm_num) Finset.univ_nonempty
  by_cases h0 : x 0 = true
  · simp only [h0, if_true]
    refine mul_le_of_le_one_right' ?_
    refine (Rand.E_mono (g := fun _ => 1) _ fun A => ?_).trans ?_
    · split_ifs <;> simp
    · simp [Resampling.stratified, uniforms, Rand.E_map]
  · have f0 : x 0 = false := by simpa using h0
    have c0 : ∀ w : Fin 3 → ℝ, cumsum w 0 = w 0 := fun w => by
      have : Finset.Iic (0 : Fin 3) = {0} := rfl
      simp [cumsum, this]
    have c1 : ∀ w : Fin 3 → ℝ, cumsum w 1 = w 0 + w 1 := fun w => by
      have : Finset.Iic (1 : Fin 3) = {0, 1} := rfl
      simp [cumsum, this]
    have c2 : ∀ w : Fin 3 → ℝ, cumsum w 2 = w 0 + w 1 + w 2 := fun w => by
      have : Finset.Iic (2 : Fin 3) = {0, 1, 2} := rfl
      simp [cumsum, this, add_assoc]
    have step : ∀ j : Fin 3, (∀ i ≤ j, x i = false) → _ := fun j hj =>
      (mul_le_mul_right (stratified_first hw key x j hj)
        (ENNReal.ofReal ((∑ i, if x i then 8 else 1) / 3))).trans
        (ENNReal.ofReal_mul (by positivity)).symm.le
    by_cases h1 : x 1 = true
    · refine (step 0 fun i hi => ?_).trans (ENNReal.ofReal_le_ofReal ?_)
      · rw [Fin.le_zero_iff.1 hi, f0]
      · rw [c0, coin_normalise]
        simp only [f0, h1, if_true, if_false, Bool.false_eq_true]
        field_simp
        exact le_refl _
    · have f1 : x 1 = false := by simpa using h1
      by_cases h2 : x 2 = true
      · refine (step 1 fun i hi => ?_).trans (ENNReal.ofReal_le_ofReal ?_)
        · fin_cases i
          · exact f0
          · exact f1
          · exact absurd hi (by decide)
        · rw [c1, coin_normalise, coin_normalise]
          simp only [Fin.sum_univ_three, f0, f1, h2, if_true, if_false, Bool.false_eq_true]
          norm_num
      · have f2 : x 2 = false := by simpa using h2
        refine (step 2 fun i _ => ?_).trans (ENNReal.ofReal_le_ofReal ?_)
        · fin_cases i
          · exact f0
          · exact f1
          · exact f2
        · rw [c2, coin_normalise, coin_normalise, coin_normalise]
          simp only [Fin.sum_univ_three, f0, f1, f2, if_false, Bool.false_eq_true]
          norm_num

/-- **C21 fails for `stratified` with a fixed index.**  In the example all the hypotheses of `C21_posterior_partial` but
exchangeability hold, and the particle of the extended target does not have the posterior law. -/
theorem C21_stratified_counterexample (ts : Fin 2 → ℝ) (P : Measure (Fin 2 → ℝ)) [IsProbabilityMeasure P] (key : Key) :
    PmcmcImplements (smcFuns coinSpace 3) (Kernel.const ℝ coinSpace.init) coinSpace ∧ coinSpace.JointMeas ∧
    SeparableExact coinSpace (Kernel.const ℝ coinSpace.init) coinPosterior P ts ∧
    extTarget (smcFuns coinSpace 3) Resampling.stratified ts 0 P key (fun u _ _ => if u then 1 else 0)
      < (∫⁻ u, (if u then 1 else 0) ∂coinPosterior) *
        extTarget (smcFuns coinSpace 3) Resampling.stratified ts 0 P key (fun _ _ _ => 1) := by
  refine ⟨coin_implements 3, coin_jointMeas, coin_separable P ts, ?_⟩
  have hs : ∀ b, coinSpace.init {b} = 2⁻¹ := by
    intro b; cases b <;> simp [coinSpace]
  have hu : (Finset.univ : Finset (Fin 3 → Bool)) = {![true, true, true], ![true, true, false], ![true, false, true],
      ![true, false, false], ![false, true, true], ![false, true, false], ![false, false, true],
      ![false, false, false]} := by decide
  have hl : extTarget (smcFuns coinSpace 3) Resampling.stratified ts 0 P key (fun u _ _ => if u then 1 else 0)
      ≤ ENNReal.ofReal (31 / 8) := by
    unfold extTarget
    simp only [coin_runFilter]
    rw [lintegral_const, measure_univ, mul_one]
    refine (lintegral_mono fun x => coin_bound x _).trans ?_
    rw [lintegral_fintype]
    simp only [Measure.pi_singleton, hs, Finset.prod_const, Finset.card_univ, Fintype.card_fin]
    rw [← Finset.sum_mul, ← ENNReal.ofReal_sum_of_nonneg]
    · have : ((2 : ℝ≥0∞)⁻¹) ^ 3 = ENNReal.ofReal (1 / 8) := by
        rw [show (1 / 8 : ℝ) = (2⁻¹) ^ 3 by norm_num, ENNReal.ofReal_pow (by norm_num),
          ENNReal.ofReal_inv_of_pos (by norm_num)]
        simp
      rw [this, ← ENNReal.ofReal_mul' (by norm_num), hu]
      refine ENNReal.ofReal_le_ofReal ?_
      simp [Fin.sum_univ_three]
      norm_num
    · intro x _
      refine div_nonneg ?_ (by norm_num)
      simp only [Fin.sum_univ_three]
      split_ifs <;> norm_num
  have hr : extTarget (smcFuns coinSpace 3) Resampling.stratified ts 0 P key (fun _ _ _ => 1) = 2⁻¹ * (8 + 1) := by
    have h := C21_average_marginal (coin_implements 3) coin_jointMeas sums_stratified scheme_stratified ts P key
      (measurable_const (a := (1 : ℝ≥0∞)))
    have hi : ∀ i, extTarget (smcFuns coinSpace 3) Resampling.stratified ts i P key (fun _ _ _ => 1)
        = extTarget (smcFuns coinSpace 3) Resampling.stratified ts 0 P key (fun _ _ _ => 1) := by
      intro i
      simp only [extTarget, pmcmcEstimate_eq, Rand.E_map]
    simp only [hi, coin_backward, lintegral_const, measure_univ, mul_one, Finset.sum_const, Finset.card_univ,
      Fintype.card_fin, nsmul_eq_mul] at h
    rw [← h, ← mul_assoc, ENNReal.inv_mul_cancel (by simp) (by simp), one_mul]
  have h4 : (∫⁻ u, (if u then 1 else 0) ∂coinPosterior) *
      extTarget (smcFuns coinSpace 3) Resampling.stratified ts 0 P key (fun _ _ _ => 1) = ENNReal.ofReal 4 := by
    rw [hr]
    have : ∫⁻ u, (if u then (1 : ℝ≥0∞) else 0) ∂coinPosterior = 9⁻¹ * 8 := by simp [coinPosterior]
    rw [this]
    have e9 : (8 : ℝ≥0∞) + 1 = 9 := by norm_num
    have e4 : (8 : ℝ≥0∞) = 2 * 4 := by norm_num
    rw [e9, e4]
    calc (9 : ℝ≥0∞)⁻¹ * (2 * 4) * (2⁻¹ * 9) = (9⁻¹ * 9) * ((2 * 2⁻¹) * 4) := by ring
      _ = ENNReal.ofReal 4 := by
        rw [ENNReal.inv_mul_cancel (by simp) (by simp), ENNReal.mul_inv_cancel (by simp) (by simp)]
        simp
  rw [h4]
  exact hl.trans_lt (by rw [ENNReal.ofReal_lt_ofReal_iff (by norm_num)]; norm_num)

end Example

end Props
end Fbs
