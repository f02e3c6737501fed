import Verif.Model.Nn
import Mathlib.Analysis.SpecialFunctions.Trigonometric.Angle
import Mathlib.Analysis.Convex.Combination

/-!
# C47, C48, C50: time embedding, pixel shuffle, exponential moving average
-/

namespace Fbs
namespace Props

open Nn

/-! ## C47 -/

theorem emb_ok {outDim maxPeriod : ℕ} (he : Even outDim) (hp : 0 < maxPeriod) (t : ℝ) :
    sinusoidalEmbedding t outDim maxPeriod = .ok
      (((List.range (outDim / 2)).map fun i => (freq (outDim / 2) maxPeriod i).map fun f => Real.sin (t * f)) ++
        (List.range (outDim / 2)).map fun i => (freq (outDim / 2) maxPeriod i).map fun f => Real.cos (t * f)) := by
  have h1 : ¬ maxPeriod = 0 := by omega
  have h2 : ¬ outDim % 2 = 1 := by rw [Nat.even_iff] at he; omega
  simp only [sinusoidalEmbedding, if_neg h1, if_neg h2, List.map_map]
  congr 3 <;>
  · ext i; simp [Function.comp_def]

/-- **C47, errors.**  The embedding refuses exactly the odd dimensions and the period zero. -/
theorem C47_refuses (t : ℝ) (outDim maxPeriod : ℕ) :
    (∃ e, sinusoidalEmbedding t outDim maxPeriod = .error e) ↔ Odd outDim ∨ maxPeriod = 0 := by
  constructor
  · rintro ⟨e, he⟩
    by_contra hc
    rw [not_or, Nat.not_odd_iff_even] at hc
    rw [emb_ok hc.1 (by omega)] at he
    exact absurd he (by simp)
  · intro h
    by_cases hp : maxPeriod = 0
    · exact ⟨.mathDomain, by simp [sinusoidalEmbedding, hp]⟩
    · have h1 := Nat.odd_iff.1 (h.resolve_right hp)
      exact ⟨.oddDim, by simp [sinusoidalEmbedding, hp, h1]⟩

/-- **C47, shape and range.**  For even dimensions other than two there are `out_dim` numbers, all in `[-1, 1]`; entry
`i` of the first half and of the second half are the sine and the cosine of the time times a frequency, and the
frequencies run geometrically from `1` down to `1 / max_period`. -/
theorem C47_values_partial {outDim maxPeriod : ℕ} (he : Even outDim) (h2 : outDim ≠ 2) (hp : 0 < maxPeriod) (t : ℝ) :
    ∃ v : List ℝ, sinusoidalEmbedding t outDim maxPeriod = .ok (v.map some) ∧ v.length = outDim ∧
      (∀ a ∈ v, -1 ≤ a ∧ a ≤ 1) ∧
      ∀ i (_hi : i < outDim / 2) (h3 : i < v.length) (h4 : outDim / 2 + i < v.length),
        v[i] = Real.sin (t * (maxPeriod : ℝ) ^ (-(i / ((outDim / 2 : ℕ) - 1 : ℝ)))) ∧
        v[outDim / 2 + i] = Real.cos (t * (maxPeriod : ℝ) ^ (-(i / ((outDim / 2 : ℕ) - 1 : ℝ)))) := by
  have hh : ¬ outDim / 2 = 1 := by rw [Nat.even_iff] at he; omega
  have hev : 2 * (outDim / 2) = outDim := Nat.two_mul_div_two_of_even he
  have hpow : ∀ i : ℕ, Real.exp (-Real.log maxPeriod * (i : ℝ) / (((outDim / 2 : ℕ) : ℝ) - 1)) =
      (maxPeriod : ℝ) ^ (-(i / ((outDim / 2 : ℕ) - 1 : ℝ))) := by
    intro i
    rw [Real.rpow_def_of_pos (by exact_mod_cast hp)]
    congr 1; ring
  refine ⟨((List.range (outDim / 2)).map fun i : ℕ =>
      Real.sin (t * (maxPeriod : ℝ) ^ (-(i / ((outDim / 2 : ℕ) - 1 : ℝ))))) ++
    (List.range (outDim / 2)).map fun i : ℕ =>
      Real.cos (t * (maxPeriod : ℝ) ^ (-(i / ((outDim / 2 : ℕ) - 1 : ℝ)))), ?_, ?_, ?_, ?_⟩
  · rw [emb_ok he hp]
    simp only [freq, if_neg hh, Option.map_some, hpow, List.map_append, List.map_map]
    rfl
  · simp; omega
  · intro a ha
    rw [List.mem_append, List.mem_map, List.mem_map] at ha
    rcases ha with ⟨i, _, rfl⟩ | ⟨i, _, rfl⟩
    · exact ⟨Real.neg_one_le_sin _, Real.sin_le_one _⟩
    · exact ⟨Real.neg_one_le_cos _, Real.cos_le_one _⟩
  · intro i hi h3 h4
    constructor
    · rw [List.getElem_append_left (by simpa using hi)]
      simp
    · rw [List.getElem_append_right (by simp)]
      simp

/-- **C47 fails for `out_dim = 2`.**  Both entries are `nan` (from `0 / 0`), whatever the time. -/
theorem C47_two_counterexample (t : ℝ) {maxPeriod : ℕ} (hp : 0 < maxPeriod) :
    sinusoidalEmbedding t 2 maxPeriod = .ok [none, none] := by
  rw [emb_ok (by decide) hp]
  simp [freq]

/-- **C47, injectivity.**  For even dimensions from four on, two different times less than one period
`2π max_period` of the slowest frequency apart have different embeddings. -/
theorem C47_injective_partial {outDim maxPeriod : ℕ} (he : Even outDim) (h4 : 4 ≤ outDim) (hp : 0 < maxPeriod) {t t' : ℝ}
    (hper : |t - t'| < 2 * Real.pi * maxPeriod)
    (heq : sinusoidalEmbedding t outDim maxPeriod = sinusoidalEmbedding t' outDim maxPeriod) : t = t' := by
  obtain ⟨v, hv, hl, -, hg⟩ := C47_values_partial he (by omega) hp t
  obtain ⟨v', hv', hl', -, hg'⟩ := C47_values_partial he (by omega) hp t'
  rw [hv, hv'] at heq
  have hvv : v = v' := List.map_injective_iff.2 (Option.some_injective ℝ) (Except.ok.inj heq)
  subst hvv
  obtain ⟨a1, a2⟩ := hg (outDim / 2 - 1) (by omega) (by omega) (by omega)
  obtain ⟨b1, b2⟩ := hg' (outDim / 2 - 1) (by omega) (by omega) (by omega)
  have hne : ((outDim / 2 : ℕ) : ℝ) - 1 ≠ 0 := by
    have : (2 : ℝ) ≤ ((outDim / 2 : ℕ) : ℝ) := by exact_mod_cast (by omega : 2 ≤ outDim / 2)
    intro h; linarith
  have hexp : (maxPeriod : ℝ) ^ (-(((outDim / 2 - 1 : ℕ) : ℝ) / (((outDim / 2 : ℕ) : ℝ) - 1))) = (maxPeriod : ℝ)⁻¹ := by
    rw [Nat.cast_sub (by omega), Nat.cast_one, div_self hne, Real.rpow_neg_one]
  rw [hexp] at a1 a2 b1 b2
  have hP : (0 : ℝ) < maxPeriod := by exact_mod_cast hp
  have hs : Real.sin (t * (maxPeriod : ℝ)⁻¹) = Real.sin (t' * (maxPeriod : ℝ)⁻¹) := a1.symm.trans b1
  have hc : Real.cos (t * (maxPeriod : ℝ)⁻¹) = Real.cos (t' * (maxPeriod : ℝ)⁻¹) := a2.symm.trans b2
  have hang := Real.Angle.cos_sin_inj hc hs
  obtain ⟨k, hk⟩ := Real.Angle.angle_eq_iff_two_pi_dvd_sub.1 hang
  have hdiff : t - t' = 2 * Real.pi * maxPeriod * k := by
    field_simp at hk
    linarith
  have hpi : 0 < 2 * Real.pi * maxPeriod := by have := Real.pi_pos; positivity
  rw [hdiff, abs_mul, abs_of_pos hpi] at hper
  have hk1 : |(k : ℝ)| < 1 := by
    by_contra hcon
    push Not at hcon
    nlinarith
  have hk0 : k = 0 := by
    rw [← Int.cast_abs] at hk1
    have : |k| < 1 := by exact_mod_cast hk1
    exact Int.abs_lt_one_iff.1 this
  rw [hk0] at hdiff
  simp at hdiff
  linarith

/-! ## C48 -/

/-- **C48, values.**  Output pixel `(h s + i, w s + j)` takes its channel `c` from the channel `(i s + j) C + c` of
input pixel `(h, w)`. -/
theorem C48_values {α : Type} {b h w c s : ℕ} (x : Fin b → Fin h → Fin w → Fin (s * s * c) → α)
    (bi : Fin b) (hi : Fin h) (wi : Fin w) (i j : Fin s) (ci : Fin c)
    (h1 : (hi : ℕ) * s + i < h * s) (h2 : (wi : ℕ) * s + j < w * s) (h3 : ((i : ℕ) * s + j) * c + ci < s * s * c) :
    pixelShuffle s x bi ⟨hi * s + i, h1⟩ ⟨wi * s + j, h2⟩ ci = x bi hi wi ⟨(i * s + j) * c + ci, h3⟩ := by
  have e1 : (⟨hi * s + i, h1⟩ : Fin (h * s)) = splitAxis.symm (hi, i) := Fin.ext (by
    simp [splitAxis]; ring)
  have e2 : (⟨wi * s + j, h2⟩ : Fin (w * s)) = splitAxis.symm (wi, j) := Fin.ext (by
    simp [splitAxis]; ring)
  rw [pixelShuffle, e1, e2]
  simp only [Equiv.apply_symm_apply]
  congr 1
  exact Fin.ext (by simp [splitAxis]; ring)

/-- **C48, lossless.**  The output is the input read through a bijection between output and input positions. -/
theorem C48_lossless {α : Type} {b h w c s : ℕ} :
    ∃ e : (Fin b × Fin (h * s) × Fin (w * s) × Fin c) ≃ (Fin b × Fin h × Fin w × Fin (s * s * c)),
      ∀ x : Fin b → Fin h → Fin w → Fin (s * s * c) → α, ∀ bi hh ww ci,
        pixelShuffle s x bi hh ww ci =
          x (e (bi, hh, ww, ci)).1 (e (bi, hh, ww, ci)).2.1 (e (bi, hh, ww, ci)).2.2.1 (e (bi, hh, ww, ci)).2.2.2 := by
  refine ⟨⟨fun p => (p.1, (splitAxis p.2.1).1, (splitAxis p.2.2.1).1,
      splitAxis.symm (splitAxis.symm ((splitAxis p.2.1).2, (splitAxis p.2.2.1).2), p.2.2.2)),
    fun q => (q.1, splitAxis.symm (q.2.1, (splitAxis (splitAxis q.2.2.2).1).1),
      splitAxis.symm (q.2.2.1, (splitAxis (splitAxis q.2.2.2).1).2), (splitAxis q.2.2.2).2), ?_, ?_⟩, ?_⟩
  · rintro ⟨a, b, c, d⟩; simp
  · rintro ⟨a, b, c, d⟩; simp
  · intro x bi hh ww ci; rfl

/-! ## C50 -/


end Props

namespace Spec

/-- What step `count` does to the average: copy the parameters, mix them in, or nothing. -/
inductive EmaStep
  | copy
  | mix
  | keep

/-- Documented schedule: copy before `start`, then mix at every multiple of `every`. -/
def emaStep (start every count : ℕ) : EmaStep :=
  if count < start then .copy else if every ∣ count then .mix else .keep

/-- Share of the new parameters in the average after a step. -/
def EmaStep.gain (decay : ℝ) : EmaStep → ℝ
  | .copy => 1
  | .mix => 1 - decay
  | .keep => 0

/-- Weight of the initial average after a history. -/
def emaWeight0 (start every : ℕ) (decay : ℝ) (counts : List ℕ) : ℝ :=
  (counts.map fun c => 1 - (emaStep start every c).gain decay).prod

/-- Weights of the parameters of a history: the share with which they entered, reduced by all later steps. -/
def emaWeights (start every : ℕ) (decay : ℝ) : List ℕ → List ℝ
  | [] => []
  | c :: cs => (emaStep start every c).gain decay * emaWeight0 start every decay cs :: emaWeights start every decay cs

end Spec

namespace Props

open Nn Spec

section

variable {V : Type} [AddCommGroup V] [Module ℝ V]

theorem emaKernel_eq {start every : ℕ} (he : 0 < every) (decay : ℝ) (e p : V) (c : ℕ) :
    emaKernel e p c start every decay = some ((1 - (emaStep start every c).gain decay) • e +
      (emaStep start every c).gain decay • p) := by
  unfold emaKernel emaStep
  by_cases h1 : c < start
  · simp [h1, EmaStep.gain]
  · rw [if_neg h1, if_neg h1, if_neg he.ne']
    by_cases h2 : every ∣ c
    · rw [if_pos (Nat.mod_eq_zero_of_dvd h2), if_pos h2]
      simp [EmaStep.gain, emaUpdate]
    · rw [if_neg (fun h => h2 (Nat.dvd_of_mod_eq_zero h)), if_neg h2]
      simp [EmaStep.gain]

/-- **C50, errors.**  A call fails exactly when it has to divide by a zero `count_every`. -/
theorem C50_refuses (start every : ℕ) (decay : ℝ) (e p : V) (c : ℕ) :
    emaKernel e p c start every decay = none ↔ every = 0 ∧ start ≤ c := by
  unfold emaKernel
  by_cases h1 : c < start
  · simp [h1]
  · rw [if_neg h1]
    by_cases h2 : every = 0
    · simp [h2]; omega
    · rw [if_neg h2]
      simp only [h2, false_and, iff_false]
      split <;> simp

/-- **C50, weights.**  After any history the average is the initial average and the past parameters with the documented
weights. -/
theorem C50_weights {start every : ℕ} (he : 0 < every) (decay : ℝ) (ema0 : V) (hist : List (ℕ × V)) :
    emaRun start every decay ema0 hist = some (emaWeight0 start every decay (hist.map Prod.fst) • ema0 +
      ((emaWeights start every decay (hist.map Prod.fst)).zipWith (· • ·) (hist.map Prod.snd)).sum) := by
  induction hist generalizing ema0 with
  | nil => simp [emaRun, emaWeight0, emaWeights]
  | cons p hist ih =>
    have h1 : emaRun start every decay ema0 (p :: hist) =
        emaRun start every decay ((1 - (emaStep start every p.1).gain decay) • ema0 +
          (emaStep start every p.1).gain decay • p.2) hist := by
      rw [emaRun, List.foldlM_cons, emaKernel_eq he]
      rfl
    rw [h1, ih]
    congr 1
    simp only [List.map_cons, emaWeight0, List.prod_cons, emaWeights, List.zipWith_cons_cons, List.sum_cons, smul_add,
      smul_smul, add_assoc]
    congr 1
    · rw [mul_comm]
    · congr 1
      rw [mul_comm]

/-- **C50, convexity.**  The weights are non-negative and add up to one. -/
theorem C50_convex (start every : ℕ) {decay : ℝ} (h0 : 0 ≤ decay) (h1 : decay ≤ 1) (counts : List ℕ) :
    0 ≤ emaWeight0 start every decay counts ∧ (∀ a ∈ emaWeights start every decay counts, 0 ≤ a) ∧
      emaWeight0 start every decay counts + (emaWeights start every decay counts).sum = 1 := by
  have hg : ∀ s : EmaStep, 0 ≤ s.gain decay ∧ s.gain decay ≤ 1 := by
    intro s
    cases s <;> simp only [EmaStep.gain] <;> constructor <;> linarith
  induction counts with
  | nil => simp [emaWeight0, emaWeights]
  | cons c cs ih =>
    obtain ⟨i1, i2, i3⟩ := ih
    have hc := hg (emaStep start every c)
    have hw : emaWeight0 start every decay (c :: cs) =
        (1 - (emaStep start every c).gain decay) * emaWeight0 start every decay cs := by
      simp [emaWeight0]
    refine ⟨?_, ?_, ?_⟩
    · rw [hw]; exact mul_nonneg (by linarith) i1
    · intro a ha
      rw [emaWeights, List.mem_cons] at ha
      rcases ha with rfl | ha
      · exact mul_nonneg hc.1 i1
      · exact i2 a ha
    · rw [hw, emaWeights, List.sum_cons]
      linarith

/-- **C50, invariant sets.**  The average stays in every convex set (in particular every box) containing the initial
average and all parameters. -/
theorem C50_stays {start every : ℕ} (he : 0 < every) {decay : ℝ} (h0 : 0 ≤ decay) (h1 : decay ≤ 1) {s : Set V}
    (hs : Convex ℝ s) {ema0 : V} (hist : List (ℕ × V)) (hm0 : ema0 ∈ s) (hm : ∀ p ∈ hist, p.2 ∈ s) :
    ∃ e ∈ s, emaRun start every decay ema0 hist = some e := by
  induction hist generalizing ema0 with
  | nil => exact ⟨ema0, hm0, rfl⟩
  | cons p hist ih =>
    have h2 : emaRun start every decay ema0 (p :: hist) =
        emaRun start every decay ((1 - (emaStep start every p.1).gain decay) • ema0 +
          (emaStep start every p.1).gain decay • p.2) hist := by
      rw [emaRun, List.foldlM_cons, emaKernel_eq he]
      rfl
    rw [h2]
    refine ih ?_ fun q hq => hm q (List.mem_cons_of_mem _ hq)
    have hg : 0 ≤ (emaStep start every p.1).gain decay ∧ (emaStep start every p.1).gain decay ≤ 1 := by
      cases emaStep start every p.1 <;> simp only [EmaStep.gain] <;> constructor <;> linarith
    exact hs hm0 (hm p List.mem_cons_self) (by linarith) hg.1 (by ring)

/-- **C50, restart.**  A call with a count below `count_start` erases the past: what comes before it has no effect.  In
`experiments/imgs/train.py` the count is the step within the epoch, so every epoch restarts the average. -/
theorem C50_restart {start every : ℕ} (he : 0 < every) (decay : ℝ) (ema0 : V) (past later : List (ℕ × V)) (p : ℕ × V)
    (hp : p.1 < start) :
    emaRun start every decay ema0 (past ++ p :: later) = emaRun start every decay p.2 later := by
  rw [emaRun, List.foldlM_append]
  have h : past.foldlM (fun e p => emaKernel e p.2 p.1 start every decay) ema0 = some _ :=
    C50_weights he decay ema0 past
  rw [h]
  have h3 : ∀ e : V, emaKernel e p.2 p.1 start every decay = some p.2 := fun e => by rw [emaKernel, if_pos hp]
  simp only [List.foldlM_cons, h3]
  rfl

/-- **C50, running counts.**  With counts `0, 1, …` and an update at every step, the average after the parameters
`p₀ … pₙ` with `n ≥ start ≥ 1` is `decay^(n+1-start) p_(start-1) + Σ (1 - decay) decay^(n-i) p_i`. -/
theorem C50_running (start k : ℕ) (decay : ℝ) (ema0 : V) (p : ℕ → V) :
    emaRun (start + 1) 1 decay ema0 ((List.range (start + 1 + k)).map fun i => (i, p i)) =
      some (decay ^ k • p start +
        ∑ i ∈ Finset.range k, ((1 - decay) * decay ^ (k - 1 - i)) • p (start + 1 + i)) := by
  induction k with
  | zero =>
    rw [Nat.add_zero, List.range_succ, List.map_append, List.map_singleton]
    rw [C50_restart one_pos decay ema0 _ [] (start, p start) (Nat.lt_succ_self _)]
    simp [emaRun]
  | succ k ih =>
    rw [← Nat.add_assoc, List.range_succ, List.map_append, List.map_singleton, emaRun, List.foldlM_append]
    rw [emaRun] at ih
    rw [ih]
    have h1 : ¬ start + 1 + k < start + 1 := by omega
    have hk : ∀ e : V, emaKernel e (p (start + 1 + k)) (start + 1 + k) (start + 1) 1 decay =
        some (emaUpdate (p (start + 1 + k)) e decay) := fun e => by
      rw [emaKernel, if_neg h1, if_neg one_ne_zero, if_pos (Nat.mod_one _)]
    show (emaKernel _ _ _ _ _ _ >>= fun e => some e) = _
    rw [hk]
    show some _ = some _
    congr 1
    rw [emaUpdate, Finset.sum_range_succ, smul_add, smul_smul, ← pow_succ', add_assoc]
    congr 1
    have h2 : k + 1 - 1 - k = 0 := by omega
    rw [h2, pow_zero, mul_one]
    congr 1
    rw [Finset.smul_sum]
    refine Finset.sum_congr rfl fun i hi => ?_
    have h3 : k + 1 - 1 - i = k - 1 - i + 1 := by have := Finset.mem_range.1 hi; omega
    rw [h3, pow_succ, smul_smul]
    congr 1; ring

end

/-! ### The hypotheses can be met -/

/-- The values of the code: 64 dimensions and period 10000; times differ by less than `2π · 10000`. -/
example : Even 64 ∧ 4 ≤ 64 ∧ (0 : ℕ) < 10000 ∧ |(1 : ℝ) - 0| < 2 * Real.pi * (10000 : ℕ) := by
  refine ⟨by decide, by norm_num, by norm_num, ?_⟩
  have := Real.two_le_pi
  push_cast
  rw [sub_zero, abs_one]
  nlinarith

/-- One copied and one mixed step. -/
example : emaRun (V := ℝ) 1 1 0.5 7 [(0, 2), (1, 4)] = some 3 := by
  rw [C50_weights one_pos]
  norm_num [emaWeight0, emaWeights, emaStep, EmaStep.gain]

example : (pixelShuffle 2 (fun (_ : Fin 1) (_ : Fin 1) (_ : Fin 1) (k : Fin (2 * 2 * 1)) => k) 0
    ⟨0 * 2 + 1, by norm_num⟩ ⟨0 * 2 + 0, by norm_num⟩ 0 : Fin 4) = 2 :=
  C48_values _ 0 0 0 1 0 0 _ _ (by norm_num)

end Props
end Fbs
