import Verif.Props.PmcmcLaw
import Mathlib.Data.Fin.Tuple.Basic

/-!
# C68: the particle at a fixed index after `stratified` resampling
-/

open MeasureTheory ProbabilityTheory
open scoped ENNReal

namespace Fbs
namespace Props

open Jax Spec Smc

variable {N n : ℕ}

/-- Position 0 of a stratified draw lies among the indices up to `j` at least with probability
`min 1 (N (w_0 + .. + w_j))`. -/
theorem stratified_zero_ge [NeZero N] {w : Fin N → ℝ} (hw : Weights w) (key : Key) {c : Fin N → ℝ≥0∞} (j : Fin N)
    (hc : ∀ i ≤ j, 1 ≤ c i) :
    ENNReal.ofReal (min 1 (N * cumsum w j)) ≤ (Resampling.stratified w key).E fun A => c (A 0) := by
  unfold Resampling.stratified uniforms
  rw [Rand.E_map, Rand.E_sample]
  have hN : (0 : ℝ) < N := Nat.cast_pos.2 (Nat.pos_of_ne_zero (NeZero.ne N))
  have hm : MeasurableSet (Set.Iic (N * cumsum w j)) := measurableSet_Iic
  calc ENNReal.ofReal (min 1 (N * cumsum w j)) = volume (Set.Ico 0 (min 1 (N * cumsum w j))) := by
        rw [Real.volume_Ico, sub_zero]
    _ ≤ unifMeasure (Set.Iic (N * cumsum w j)) := by
        rw [unifMeasure, Measure.restrict_apply hm]
        exact measure_mono fun u hu => ⟨hu.2.le.trans (min_le_right _ _), hu.1, hu.2.trans_le (min_le_left _ _)⟩
    _ = ∫⁻ u : ℝ, (Set.Iic (N * cumsum w j)).indicator 1 u ∂unifMeasure := (lintegral_indicator_one hm).symm
    _ = ∫⁻ u : Fin N → ℝ, (Set.Iic (N * cumsum w j)).indicator 1 (u 0) ∂(Measure.pi fun _ => unifMeasure) :=
        ((measurePreserving_eval (fun _ : Fin N => unifMeasure) 0).lintegral_comp (measurable_one.indicator hm)).symm
    _ ≤ _ := by
        refine lintegral_mono fun u => ?_
        by_cases hu : u 0 ≤ N * cumsum w j
        · have h : searchsorted (cumsum w) ((((0 : Fin N) : ℕ) + u 0) / N) ≤ j := by
            rw [searchsorted_le_iff hw.nonneg, div_le_iff₀ hN]
            simp
            linarith
          have : Resampling.comb w u 0 ≤ j := by
            unfold Resampling.comb
            rw [clipIdx_of_lt (lt_of_le_of_lt h j.2)]
            exact h
          exact (Set.indicator_le_self' (by simp) _).trans (hc _ this)
        · rw [Set.indicator_of_notMem (by simpa using hu)]
          exact zero_le

/-- A fair coin which is never moved; heads have likelihood 3, tails 1. -/
noncomputable def tiltSpace : StateSpace Bool ℝ where
  init := (2 : ℝ≥0∞)⁻¹ • (Measure.dirac true + Measure.dirac false)
  prob := ⟨by simp [ENNReal.inv_two_add_inv_two]⟩
  trans _ _ := Kernel.id
  markov _ _ := inferInstance
  logG _ _ _ u := if u then Real.log 3 else 0
  measG _ _ _ := measurable_of_finite _
  logG0 _ _ _ := 0
  measG0 _ _ := measurable_const

theorem tilt_filter (vs : ℝ × List ℝ) (v : ℝ) (hvs : vs.2 = [v]) (ts : Arr1 ℝ) (φ : Bool → ℝ≥0∞) :
    tiltSpace.filterInt vs ts φ = 2⁻¹ * (3 * φ true + φ false) := by
  have h3 : ENNReal.ofReal (Real.exp (Real.log 3)) = 3 := by rw [Real.exp_log (by norm_num)]; simp
  simp [StateSpace.filterInt, tiltSpace, hvs, StateSpace.steps, pathInt, Arr1.toList, Kernel.id_apply, h3, mul_add]

/-- The sum of the weights. -/
def wsum (x : Fin N → Bool) : ℝ := ∑ i, if x i then 3 else 1

theorem wsum_pos [NeZero N] (x : Fin N → Bool) : 0 < wsum x :=
  Finset.sum_pos (fun i _ => by split_ifs <;> norm_num) Finset.univ_nonempty

theorem wsum_exp (x : Fin N → Bool) :
    ∑ i, Real.exp (if x i then Real.log 3 else (0 : ℝ)) = wsum x :=
  Finset.sum_congr rfl fun i _ => by split_ifs <;> simp [Real.exp_log]

theorem wsum_cons (a b : Bool) (y : Fin n → Bool) :
    wsum (Fin.cons a (Fin.cons b y : Fin (n + 1) → Bool) : Fin (n + 2) → Bool)
      = (if a then 3 else 1) + ((if b then 3 else 1) + wsum y) := by
  simp [wsum, Fin.sum_univ_succ]

theorem wsum_not (y : Fin n → Bool) : wsum y + wsum (fun i => !y i) = 4 * n := by
  rw [wsum, wsum, ← Finset.sum_add_distrib, Finset.sum_congr rfl fun i _ => show _ = (4 : ℝ) by
    cases y i <;> norm_num]
  simp
  ring

theorem wsum_le (y : Fin n → Bool) : wsum y ≤ 3 * n := by
  have h : wsum y ≤ ∑ _i : Fin n, (3 : ℝ) := Finset.sum_le_sum fun i _ => by split_ifs <;> norm_num
  simpa [mul_comm] using h

theorem le_wsum (y : Fin n → Bool) : n ≤ wsum y := by
  have h : ∑ _i : Fin n, (1 : ℝ) ≤ wsum y := Finset.sum_le_sum fun i _ => by split_ifs <;> norm_num
  simpa using h

/-- Pairing a configuration with its opposite. -/
theorem sum_coins_pair (f : (Fin n → Bool) → ℝ) {c : ℝ} (h : ∀ y, c ≤ f y + f fun i => !y i) :
    2 ^ n * (c / 2) ≤ ∑ y, f y := by
  have e : ∑ y, f y = ∑ y : Fin n → Bool, f fun i => !y i :=
    (Equiv.sum_comp (Equiv.piCongrRight fun _ : Fin n => Bool.involutive_not.toPerm) f).symm
  have h2 : ∑ _y : Fin n → Bool, c ≤ ∑ y : Fin n → Bool, (f y + f fun i => !y i) := Finset.sum_le_sum fun y _ => h y
  rw [Finset.sum_add_distrib, ← e] at h2
  simp at h2
  linarith

theorem sum_coins_cons (f : (Fin (n + 2) → Bool) → ℝ) :
    ∑ x, f x = ∑ a, ∑ b, ∑ y : Fin n → Bool, f (Fin.cons a (Fin.cons b y : Fin (n + 1) → Bool)) := by
  have h : ∀ {k : ℕ} (g : (Fin (k + 1) → Bool) → ℝ), ∑ x, g x = ∑ a, ∑ y : Fin k → Bool, g (Fin.cons a y) := by
    intro k g
    rw [← (Fin.consEquiv fun _ => Bool).sum_comp, Fintype.sum_prod_type]
    rfl
  rw [h]
  exact Finset.sum_congr rfl fun a _ => h _

/-- Integral of a real function of the coins. -/
theorem lintegral_coins (f : (Fin N → Bool) → ℝ) (hf : ∀ x, 0 ≤ f x) :
    ∫⁻ x : Fin N → Bool, ENNReal.ofReal (f x) ∂(Measure.pi fun _ => tiltSpace.init)
      = ENNReal.ofReal ((∑ x, f x) / 2 ^ N) := by
  have hs : ∀ b, tiltSpace.init {b} = 2⁻¹ := by
    intro b; cases b <;> simp [tiltSpace]
  rw [lintegral_fintype]
  simp only [Measure.pi_singleton, hs, Finset.prod_const, Finset.card_univ, Fintype.card_fin]
  rw [← Finset.sum_mul, ← ENNReal.ofReal_sum_of_nonneg fun x _ => hf x, div_eq_mul_inv,
    ENNReal.ofReal_mul (Finset.sum_nonneg fun x _ => hf x)]
  congr 1
  rw [← inv_pow, ENNReal.ofReal_pow (by norm_num), ENNReal.ofReal_inv_of_pos (by norm_num)]
  simp

/-- The probability that position 0 of a stratified draw is a tail. -/
theorem tilt_zero (x : Fin (n + 2) → Bool) (key : Key) :
    ENNReal.ofReal (if x 0 then 0 else if x 1 then (n + 2) / wsum x else min 1 (2 * (n + 2) / wsum x))
      ≤ (Resampling.stratified (fun i => Real.exp ((if x i then Real.log 3 else (0 : ℝ)) -
          logsumexp fun i => if x i then Real.log 3 else (0 : ℝ))) key).E fun A => if x (A 0) then 0 else 1 := by
  have hw := Csmc.normalise_weights fun i => if x i then Real.log 3 else (0 : ℝ)
  change Weights (fun i => Real.exp ((if x i then Real.log 3 else (0 : ℝ)) -
          logsumexp fun i => if x i then Real.log 3 else (0 : ℝ))) at hw
  have hp := wsum_pos x
  have hv : ∀ i, Real.exp ((if x i then Real.log 3 else (0 : ℝ)) -
          logsumexp fun i => if x i then Real.log 3 else (0 : ℝ)) = (if x i then 3 else 1) / wsum x := by
    intro i
    rw [logsumexp, wsum_exp, Real.exp_sub, Real.exp_log hp]
    congr 1
    split_ifs
    · exact Real.exp_log (by norm_num)
    · exact Real.exp_zero
  have hle : (n + 2 : ℝ) ≤ wsum x := by
    have := le_wsum x
    push_cast at this
    exact this
  by_cases h0 : x 0 = true
  · simp [h0]
  have f0 : x 0 = false := by simpa using h0
  by_cases h1 : x 1 = true
  · refine le_trans (ENNReal.ofReal_le_ofReal ?_) (stratified_zero_ge (c := fun i => if x i then 0 else 1) hw key 0 fun i hi => ?_)
    · have : Finset.Iic (0 : Fin (n + 2)) = {0} := by
        ext i
        simp
      rw [cumsum, this, Finset.sum_singleton, hv]
      simp only [f0, h1, if_true, if_false, Bool.false_eq_true]
      refine le_min ((div_le_one hp).2 hle) ?_
      push_cast
      rw [mul_one_div]
    · rw [Fin.le_zero_iff.1 hi, f0]
      simp
  · have f1 : x 1 = false := by simpa using h1
    refine le_trans (ENNReal.ofReal_le_ofReal ?_) (stratified_zero_ge (c := fun i => if x i then 0 else 1) hw key 1 fun i hi => ?_)
    · have : Finset.Iic (1 : Fin (n + 2)) = {0, 1} := by
        ext i
        have e0 : ((0 : Fin (n + 2)) : ℕ) = 0 := rfl
        have e1 : ((1 : Fin (n + 2)) : ℕ) = 1 := rfl
        simp only [Finset.mem_Iic, Finset.mem_insert, Finset.mem_singleton, Fin.le_def, Fin.ext_iff, e0, e1]
        omega
      rw [cumsum, this, Finset.sum_pair (by simp), hv, hv]
      simp only [f0, f1, if_false, Bool.false_eq_true]
      push_cast
      refine min_le_min le_rfl (le_of_eq ?_)
      field_simp
      ring
    · have : i = 0 ∨ i = 1 := by
        have e0 : ((0 : Fin (n + 2)) : ℕ) = 0 := rfl
        have e1 : ((1 : Fin (n + 2)) : ℕ) = 1 := rfl
        simp only [Fin.le_def, Fin.ext_iff, e0, e1] at hi ⊢
        omega
      rcases this with rfl | rfl
      · simp [f0]
      · simp [f1]

theorem coins_pow : (2 : ℝ) ^ (n + 2) = 4 * 2 ^ n := by ring

theorem tilt_unweighted :
    7 / 24 ≤ (∑ x : Fin (n + 2) → Bool,
      if x 0 then 0 else if x 1 then (n + 2) / wsum x else min 1 (2 * (n + 2) / wsum x)) / 2 ^ (n + 2) := by
  have hn : (0 : ℝ) ≤ n := Nat.cast_nonneg n
  rw [sum_coins_cons, coins_pow]
  simp only [Fintype.sum_bool, Fin.cons_zero, Fin.cons_one, if_true, Bool.false_eq_true, if_false, wsum_cons,
    Finset.sum_const_zero]
  have h1 : (2 : ℝ) ^ n * (1 / 2) ≤ ∑ y : Fin n → Bool, ((n : ℝ) + 2) / (1 + (3 + wsum y)) := by
    refine sum_coins_pair _ fun y => ?_
    have e := wsum_not y
    have p := le_wsum y
    have q := le_wsum fun i => !y i
    rw [div_add_div _ _ (by linarith) (by linarith), le_div_iff₀ (by nlinarith)]
    nlinarith [sq_nonneg (wsum y - wsum fun i => !y i)]
  have h2 : (2 : ℝ) ^ n * (2 / 3) ≤ ∑ y : Fin n → Bool, min 1 (2 * ((n : ℝ) + 2) / (1 + (1 + wsum y))) := by
    have : ∑ _y : Fin n → Bool, (2 / 3 : ℝ) ≤ ∑ y : Fin n → Bool, min 1 (2 * ((n : ℝ) + 2) / (1 + (1 + wsum y))) := by
      refine Finset.sum_le_sum fun y _ => le_min (by norm_num) ?_
      have p := le_wsum y
      have q := wsum_le y
      rw [le_div_iff₀ (by linarith)]
      linarith
    simpa using this
  rw [le_div_iff₀ (by positivity)]
  linarith

/-- **C68.**  For the model of a fair coin with likelihoods 3 and 1, the filtering probability of tails is 1/4; particle 0
of `bootstrap_filter` with `stratified` resampling is tails with probability at least 7/24, for any number of
particles. -/
theorem C68_particle_zero_inconsistent (v v' : ℝ) (ts : Arr1 ℝ) (hts : ts.2.length = 1) (key : Key) (log rl : Bool) :
    SmcImplements (smcFuns tiltSpace (n + 2)) tiltSpace v ∧
    tiltSpace.filterInt (v, [v']) ts (fun u => if u then 0 else 1)
      = 4⁻¹ * tiltSpace.filterInt (v, [v']) ts (fun _ => 1) ∧
    7 / 24 ≤ (bootstrapFilter (smcFuns tiltSpace (n + 2)) Resampling.stratified (v, [v']) ts key log rl).E
      fun out => if out.final 0 then 0 else 1 := by
  refine ⟨implements_smcFuns _ _ _, ?_, ?_⟩
  · rw [tilt_filter _ v' rfl, tilt_filter _ v' rfl]
    have h4 : (3 : ℝ≥0∞) * 1 + 1 = 4 := by norm_num
    have : (4 : ℝ≥0∞)⁻¹ * (2⁻¹ * 4) = 4⁻¹ * 4 * 2⁻¹ := by ring
    rw [h4, this, ENNReal.inv_mul_cancel (by simp) (by simp)]
    simp
  have hrl : (bootstrapFilter (smcFuns tiltSpace (n + 2)) Resampling.stratified (v, [v']) ts key log rl).E
        (fun out => if out.final 0 then (0 : ℝ≥0∞) else 1)
      = (bootstrapFilter (smcFuns tiltSpace (n + 2)) Resampling.stratified (v, [v']) ts key log true).E
        (fun out => if out.final 0 then 0 else 1) := by
    cases rl
    · rw [C19_return_last, Rand.E_map]
      rfl
    · rfl
  rw [hrl]
  obtain ⟨t, ts⟩ := ts
  obtain ⟨t', rfl⟩ := List.length_eq_one_iff.1 hts
  have hd : ∀ a : Fin (n + 2) → Bool, (Measure.pi fun i => Kernel.id (a i)) = Measure.dirac a := by
    intro a
    simp only [Kernel.id_apply]
    exact Csmc.pi_dirac a
  have hE : (bootstrapFilter (smcFuns tiltSpace (n + 2)) Resampling.stratified (v, [v']) (t, [t']) key log true).E
        (fun out => if out.final 0 then (0 : ℝ≥0∞) else 1)
      = ∫⁻ x : Fin (n + 2) → Bool, (Resampling.stratified (fun i => Real.exp ((if x i then Real.log 3 else (0 : ℝ)) -
          logsumexp fun i => if x i then Real.log 3 else (0 : ℝ))) (split (split (split key 2 1) 1 0) 2 1)).E
            (fun A => if x (A 0) then 0 else 1) ∂(Measure.pi fun _ => tiltSpace.init) := by
    simp only [bootstrapFilter, Rand.E_bind, if_true, Rand.pure_eq, Rand.E_ret]
    refine lintegral_congr fun x => ?_
    simp [Smc.scanInputs, Arr1.init, splitAll, Rand.scan, Rand.E_bind, filterBody, smcFuns, tiltSpace, hd, take,
      FilterOut.final]
    rfl
  rw [hE]
  refine le_trans ?_ (lintegral_mono fun x => tilt_zero x _)
  rw [lintegral_coins]
  · refine le_trans (le_of_eq ?_) (ENNReal.ofReal_le_ofReal tilt_unweighted)
    rw [ENNReal.ofReal_div_of_pos (by norm_num)]
    simp
  · intro x
    have := wsum_pos x
    split_ifs
    · rfl
    · positivity
    · exact le_min zero_le_one (by positivity)

theorem tilt_weighted (hn : 1 ≤ n) :
    7 / 12 ≤ (∑ x : Fin (n + 2) → Bool, wsum x / (n + 2) *
      if x 0 then 0 else if x 1 then (n + 2) / wsum x else min 1 (2 * (n + 2) / wsum x)) / 2 ^ (n + 2) := by
  have hn' : (1 : ℝ) ≤ n := by exact_mod_cast hn
  rw [sum_coins_cons, coins_pow]
  simp only [Fintype.sum_bool, Fin.cons_zero, Fin.cons_one, if_true, Bool.false_eq_true, if_false, wsum_cons,
    Finset.sum_const_zero, mul_zero]
  have h1 : ∑ y : Fin n → Bool, (1 + (3 + wsum y)) / ((n : ℝ) + 2) * (((n : ℝ) + 2) / (1 + (3 + wsum y))) = 2 ^ n := by
    rw [Finset.sum_congr rfl fun y _ => show _ = (1 : ℝ) by
      have p := le_wsum y
      rw [div_mul_div_comm, mul_comm, div_self (by nlinarith)]]
    simp
  have h2 : (2 : ℝ) ^ n * (8 / 3 / 2) ≤
      ∑ y : Fin n → Bool, (1 + (1 + wsum y)) / ((n : ℝ) + 2) * min 1 (2 * ((n : ℝ) + 2) / (1 + (1 + wsum y))) := by
    refine sum_coins_pair _ fun y => ?_
    have e := wsum_not y
    have key : ∀ z : Fin n → Bool, (1 + (1 + wsum z)) / ((n : ℝ) + 2) * min 1 (2 * ((n : ℝ) + 2) / (1 + (1 + wsum z)))
        = min ((1 + (1 + wsum z)) / ((n : ℝ) + 2)) 2 := by
      intro z
      have p := le_wsum z
      rw [mul_min_of_nonneg _ _ (div_nonneg (by linarith) (by linarith)), mul_one]
      congr 1
      rw [div_mul_div_comm, div_eq_iff (by nlinarith)]
      ring
    have hs : (1 + (1 + wsum y)) / ((n : ℝ) + 2) + (1 + (1 + wsum fun i => !y i)) / ((n : ℝ) + 2)
        = (4 * n + 4) / (n + 2) := by
      rw [← add_div]
      congr 1
      linarith
    have h8 : (8 : ℝ) / 3 ≤ (4 * n + 4) / (n + 2) := by
      rw [div_le_div_iff₀ (by norm_num) (by linarith)]
      linarith
    have hb : ∀ z : Fin n → Bool, 1 ≤ (1 + (1 + wsum z)) / ((n : ℝ) + 2) := by
      intro z
      have p := le_wsum z
      rw [le_div_iff₀ (by linarith)]
      linarith
    rw [key, key]
    have b1 := hb y
    have b2 := hb fun i => !y i
    rcases le_total ((1 + (1 + wsum y)) / ((n : ℝ) + 2)) 2 with c | c <;>
      rcases le_total ((1 + (1 + wsum fun i => !y i)) / ((n : ℝ) + 2)) 2 with c' | c' <;>
      simp only [min_eq_left c, min_eq_left c', min_eq_right c, min_eq_right c'] <;> linarith
  rw [le_div_iff₀ (by positivity), h1]
  linarith

theorem tilt_implements (N : ℕ) : PmcmcImplements (smcFuns tiltSpace N) (Kernel.const ℝ tiltSpace.init) tiltSpace :=
  ⟨fun _ _ _ _ _ => by simp only [Kernel.const_apply]; rfl, fun _ _ _ _ _ _ => rfl, fun _ _ _ _ _ => rfl⟩

theorem tilt_jointMeas : tiltSpace.JointMeas := by
  refine ⟨fun t => ?_, fun t => ?_⟩
  · exact (Kernel.id (α := Bool)).measurable.comp measurable_snd
  · exact (measurable_of_finite fun u : Bool => if u then Real.log 3 else 0).comp (measurable_snd.comp measurable_snd)

/-- Tails with probability 1/4. -/
noncomputable def tiltPosterior : Measure Bool :=
  (4 : ℝ≥0∞)⁻¹ • ((3 : ℝ≥0∞) • Measure.dirac true + Measure.dirac false)

theorem tilt_backward (ts ys : Fin 2 → ℝ) (φ : Bool → ℝ≥0∞) :
    backwardInt tiltSpace (Kernel.const ℝ tiltSpace.init) ts ys φ = 2⁻¹ * (3 * φ true + φ false) := by
  have h3 : ENNReal.ofReal (Real.exp (Real.log 3)) = 3 := by rw [Real.exp_log (by norm_num)]; simp
  simp [backwardInt, StateSpace.filterInt, StateSpace.startedAt, tiltSpace, arr, StateSpace.steps, pathInt, Arr1.toList,
    Kernel.const_apply, Kernel.id_apply, h3, mul_add]

theorem tilt_separable (P : Measure (Fin 2 → ℝ)) (ts : Fin 2 → ℝ) :
    SeparableExact tiltSpace (Kernel.const ℝ tiltSpace.init) tiltPosterior P ts := by
  refine ⟨((2 : ℝ≥0∞) * 4⁻¹) • P, fun ψ hψ => ?_⟩
  have hb : ∀ b, Measurable fun ys => ψ b ys := fun b => hψ.comp measurable_prodMk_left
  simp only [tilt_backward]
  rw [lintegral_smul_measure, smul_eq_mul, ← lintegral_const_mul _ (by fun_prop)]
  refine lintegral_congr fun ys => ?_
  have : (2 : ℝ≥0∞) * 4⁻¹ * (2⁻¹ * (3 * ψ true ys + ψ false ys))
      = 2 * 2⁻¹ * (4⁻¹ * (3 * ψ true ys + ψ false ys)) := by ring
  rw [this, ENNReal.mul_inv_cancel (by simp) (by simp), one_mul]
  simp [tiltPosterior, mul_add]

theorem tilt_estimate (ts ys : Fin 2 → ℝ) (key : Key) :
    (pmcmcEstimate (smcFuns tiltSpace (n + 2)) Resampling.stratified key ys ts 0).E
        (fun p => ENNReal.ofReal (Real.exp p.2) * if p.1 then 0 else 1)
      = ∫⁻ x : Fin (n + 2) → Bool, ENNReal.ofReal (wsum x / (n + 2)) *
          (Resampling.stratified (fun i => Real.exp ((if x i then Real.log 3 else (0 : ℝ)) -
            logsumexp fun i => if x i then Real.log 3 else (0 : ℝ)))
            (split (split (split key 4 2) 1 0) 2 1)).E (fun A => if x (A 0) then 0 else 1)
          ∂(Measure.pi fun _ => tiltSpace.init) := by
  have hd : ∀ a : Fin (n + 2) → Bool, (Measure.pi fun i => Kernel.id (a i)) = Measure.dirac a := by
    intro a
    simp only [Kernel.id_apply]
    exact Csmc.pi_dirac a
  have hw : ∀ x : Fin (n + 2) → Bool, wsum x / (n + 2) = Real.exp (0 - Real.log ((n + 2 : ℕ) : ℝ) +
      logsumexp fun i => if x i then Real.log 3 else (0 : ℝ)) := by
    intro x
    rw [logsumexp, wsum_exp, zero_sub, neg_add_eq_sub, Real.exp_sub, Real.exp_log (wsum_pos x),
      Real.exp_log (by positivity)]
    push_cast
    rfl
  simp only [pmcmcEstimate, pmcmcFilterStep, Rand.E_bind, Rand.pure_eq, Rand.E_ret]
  refine lintegral_congr fun x => ?_
  rw [← Rand.E_const_mul _ ENNReal.ofReal_ne_top, hw]
  simp [Smc.scanInputs, toArr1, Arr1.init, splitAll, Rand.scan, Rand.E_bind, pmcmcBody, smcFuns, tiltSpace, hd, take]
  rfl

/-- **C21 fails for `stratified` with a fixed index, for every number of particles from 3 on.**  In the example all the
hypotheses of `C21_posterior_partial` but exchangeability hold, the posterior probability of tails is 1/4 and the extended
target gives tails at least 7/24. -/
theorem C21_stratified_inconsistent (hn : 1 ≤ n) (ts : Fin 2 → ℝ) (P : Measure (Fin 2 → ℝ)) [IsProbabilityMeasure P]
    (key : Key) :
    PmcmcImplements (smcFuns tiltSpace (n + 2)) (Kernel.const ℝ tiltSpace.init) tiltSpace ∧ tiltSpace.JointMeas ∧
    SeparableExact tiltSpace (Kernel.const ℝ tiltSpace.init) tiltPosterior P ts ∧
    (∫⁻ u, (if u then 0 else 1) ∂tiltPosterior) = 1 / 4 ∧
    7 / 24 * extTarget (smcFuns tiltSpace (n + 2)) Resampling.stratified ts 0 P key (fun _ _ _ => 1)
      ≤ extTarget (smcFuns tiltSpace (n + 2)) Resampling.stratified ts 0 P key fun u _ _ => if u then 0 else 1 := by
  refine ⟨tilt_implements _, tilt_jointMeas, tilt_separable P ts, by simp [tiltPosterior], ?_⟩
  have hr : extTarget (smcFuns tiltSpace (n + 2)) Resampling.stratified ts 0 P key (fun _ _ _ => 1) = 2⁻¹ * (3 + 1) := by
    have h := C21_average_marginal (tilt_implements (n + 2)) tilt_jointMeas sums_stratified scheme_stratified ts P key
      (measurable_const (a := (1 : ℝ≥0∞)))
    have hi : ∀ i, extTarget (smcFuns tiltSpace (n + 2)) Resampling.stratified ts i P key (fun _ _ _ => 1)
        = extTarget (smcFuns tiltSpace (n + 2)) Resampling.stratified ts 0 P key (fun _ _ _ => 1) := by
      intro i
      simp only [extTarget, pmcmcEstimate_eq, Rand.E_map]
    simp only [hi, tilt_backward, lintegral_const, measure_univ, mul_one, Finset.sum_const, Finset.card_univ,
      Fintype.card_fin, nsmul_eq_mul] at h
    rw [← h, ← mul_assoc, ENNReal.inv_mul_cancel (by simp) (by simp), one_mul]
  have hl : ENNReal.ofReal (7 / 12) ≤
      extTarget (smcFuns tiltSpace (n + 2)) Resampling.stratified ts 0 P key fun u _ _ => if u then 0 else 1 := by
    unfold extTarget
    simp only [tilt_estimate]
    rw [lintegral_const, measure_univ, mul_one]
    refine le_trans ?_ (lintegral_mono fun x => mul_le_mul_right (tilt_zero x _) _)
    have hc : ∀ x : Fin (n + 2) → Bool, 0 ≤ wsum x / (n + 2) := fun x => div_nonneg (wsum_pos x).le (by positivity)
    simp only [← ENNReal.ofReal_mul (hc _)]
    rw [lintegral_coins]
    · exact ENNReal.ofReal_le_ofReal (tilt_weighted hn)
    · intro x
      refine mul_nonneg (hc x) ?_
      have := wsum_pos x
      split_ifs
      · rfl
      · positivity
      · exact le_min zero_le_one (by positivity)
  rw [hr]
  refine le_trans (le_of_eq ?_) hl
  have h : (2 : ℝ≥0∞)⁻¹ * (3 + 1) = 2 := by
    rw [show (3 : ℝ≥0∞) + 1 = 2 * 2 by norm_num, ← mul_assoc, ENNReal.inv_mul_cancel (by simp) (by simp), one_mul]
  rw [h, show (7 / 12 : ℝ) = 7 / 24 * 2 by norm_num, ENNReal.ofReal_mul (by norm_num),
    ENNReal.ofReal_div_of_pos (by norm_num)]
  simp

end Props
end Fbs
