import Verif.Props.ScoreUnique
import Verif.Props.LossesMore

/-!
# C52, C53, C54: excess of the losses over their least value, and uniqueness of the minimiser
-/

open MeasureTheory ProbabilityTheory
open scoped ENNReal NNReal

namespace Fbs
namespace Props

open Linear Spec Jax Losses

section Excess
variable {ι : Type} [Fintype ι] [DecidableEq ι] {n : ℕ}

omit [DecidableEq ι] in
/-- The variances from the start of the grid. -/
theorem grid_pos {sde : SDE} (hd : Defined sde) (ts : Arr1 ℝ) (hg : GridOk sde ts.1 ts.2)
    (hQ : ∀ k < ts.2.length, 0 < (discretise sde (ts.toList.getD (k + 1) 0) (ts.toList.getD k 0)).2) :
    ∀ t ∈ ts.2, 0 < (discretise sde t ts.1).2 := by
  intro t ht
  obtain ⟨k, hk, rfl⟩ := List.getElem_of_mem ht
  have h1 := hQ k hk
  have h2 : ts.toList.getD (k + 1) 0 = ts.2[k] := by
    simp [Arr1.toList, hk]
  rw [← h2, (C26_flow hd _ (ts.toList.getD k 0) ts.1).2.2]
  exact add_pos_of_nonneg_of_pos (mul_nonneg (sq_nonneg _) (pair_vars hd ts hg hk).1) h1

/-- A sum of weighted distances that adds nothing to a finite value vanishes termwise. -/
theorem terms_zero {A B : ℝ≥0∞} {m : ℕ} {c e : ℕ → ℝ≥0∞} (hB : B ≠ ∞) (hA : A = B + ∑ k ∈ Finset.range m, c k * e k)
    (hle : A ≤ B) (hc : ∀ k < m, c k ≠ 0) : ∀ k < m, e k = 0 := by
  rw [hA] at hle
  have h3 := ENNReal.le_of_add_le_add_left hB (hle.trans_eq (add_zero _).symm)
  have h2 := le_antisymm h3 bot_le
  rw [Finset.sum_eq_zero_iff] at h2
  exact fun k hk => (mul_eq_zero.1 (h2 k (Finset.mem_range.2 hk))).resolve_left (hc k hk)

omit [DecidableEq ι] in
/-- Noising the noised law further. -/
theorem lintegral_noisedLaw_step {sde : SDE} (hd : Defined sde) {t s t0 : ℝ} (h1 : 0 ≤ (discretise sde t s).2)
    (h2 : 0 ≤ (discretise sde s t0).2) (π : Measure (ι → ℝ)) [IsProbabilityMeasure π] {f : (ι → ℝ) → ℝ≥0∞}
    (hf : Measurable f) :
    ∫⁻ y, ∫⁻ z, f z ∂(transLaw sde t s y) ∂(noisedLaw sde s t0 π) = ∫⁻ z, f z ∂(noisedLaw sde t t0 π) := by
  have h3 : 0 ≤ (discretise sde t t0).2 := by
    rw [(C26_flow hd t s t0).2.2]
    exact add_nonneg (mul_nonneg (sq_nonneg _) h2) h1
  rw [lintegral_noisedLaw h2 π (measurable_lintegral_transLaw (f := fun _ z => f z) h1 (hf.comp measurable_snd)),
    lintegral_noisedLaw h3 π hf]
  exact lintegral_congr fun x => transLaw_comp hd h1 h2 x hf

/-- Two continuous functions at distance zero under the noised law are equal. -/
theorem eq_of_noisedLaw {sde : SDE} {t t0 : ℝ} (hQ : 0 < (discretise sde t t0).2) (π : Measure (ι → ℝ))
    [IsProbabilityMeasure π] {s r : (ι → ℝ) → ι → ℝ} (hs : Continuous s) (hr : Continuous r)
    (h0 : ∫⁻ x, ENNReal.ofReal (∑ i, (s x i - r x i) ^ 2) ∂(noisedLaw sde t t0 π) = 0) : s = r := by
  have hc : Continuous fun x i => s x i - r x i + noisedScore sde t t0 π x i := by
    have h1 : Continuous (noisedScore sde t t0 π) := by
      rw [noisedScore_eq]
      exact Score.continuous_score (Real.toNNReal_pos.2 hQ).ne' (measurable_scale _)
    fun_prop
  have hme : Measurable fun x : ι → ℝ => ENNReal.ofReal (∑ i, (s x i - r x i) ^ 2) :=
    (Continuous.measurable (by fun_prop)).ennreal_ofReal
  rw [lintegral_noisedLaw hQ.le π hme] at h0
  have h := eq_noisedScore sde hQ π hc (by simpa only [add_sub_cancel_right] using h0)
  funext x i
  have := congrFun (congrFun h x) i
  linarith

/-- A continuous function at distance zero from the score under the noised law is the score. -/
theorem eq_noisedScore_of_law {sde : SDE} {t t0 : ℝ} (hQ : 0 < (discretise sde t t0).2) (π : Measure (ι → ℝ))
    [IsProbabilityMeasure π] {s : (ι → ℝ) → ι → ℝ} (hs : Continuous s)
    (h0 : ∫⁻ x, ENNReal.ofReal (∑ i, (s x i - noisedScore sde t t0 π x i) ^ 2) ∂(noisedLaw sde t t0 π) = 0) :
    s = noisedScore sde t t0 π := by
  rw [lintegral_noisedLaw hQ.le π] at h0
  · exact eq_noisedScore sde hQ π hs h0
  · exact (Finset.measurable_sum _ fun i _ => (((measurable_pi_apply i).comp hs.measurable).sub
      ((measurable_pi_apply i).comp (measurable_noisedScore sde hQ π))).pow_const 2).ennreal_ofReal

/-- The score of the noised law is continuous. -/
theorem continuous_noisedScore {sde : SDE} {t t0 : ℝ} (hQ : 0 < (discretise sde t t0).2) (π : Measure (ι → ℝ))
    [IsProbabilityMeasure π] : Continuous (noisedScore sde t t0 π) := by
  rw [noisedScore_eq]
  exact Score.continuous_score (Real.toNNReal_pos.2 hQ).ne' (measurable_scale _)

omit [DecidableEq ι] in
/-- The expected `'ipf-score'` loss with independent data. -/
theorem ipfScore_population {sde : SDE} (hd : Defined sde) (key : Key) (π : Measure (ι → ℝ))
    [IsProbabilityMeasure π] (ts : Arr1 ℝ) (hg : GridOk sde ts.1 ts.2) {s : ℝ → (ι → ℝ) → ι → ℝ}
    (hs : ∀ t ∈ ts.2, Measurable (s t)) :
    ∫⁻ x0s, (fwdPaths sde key x0s ts).E
      (fun paths => ENNReal.ofReal (ipfScoreValue (n := n) sde (rowwise s) ts paths)) ∂(Measure.pi fun _ => π) =
    ∑ k ∈ Finset.range ts.2.length, ENNReal.ofReal (1 / (Fintype.card ι * (ts.2.length * n))) *
        ∑ _j : Fin n, ∫⁻ y, ∫⁻ z, ENNReal.ofReal (∑ i, (s (timeAt ts (k + 1)) z i -
          condScore sde (z i) (timeAt ts (k + 1)) (y i) (timeAt ts k)) ^ 2)
          ∂(transLaw sde (timeAt ts (k + 1)) (timeAt ts k) y) ∂(noisedLaw sde (timeAt ts k) ts.1 π) := by
  refine meanCols_population (n := n) hd key π ts hg (fun k y z i => s (timeAt ts (k + 1)) z i -
        condScore sde (z i) (timeAt ts (k + 1)) (y i) (timeAt ts k)) fun k hk => measurable_pi_iff.2 fun i => ?_
  refine ((measurable_pi_apply i).comp ((hs _ (timeAt_mem hk)).comp measurable_snd)).sub ?_
  unfold condScore; fun_prop

/-- **C52, excess loss.**  The expected `'ipf-score'` loss of a network exceeds that of the score of the noised data law by
the mean over the times of the mean squared distance to that score under the noised law. -/
theorem C52_excess {sde : SDE} (hd : Defined sde) (key : Key) (π : Measure (ι → ℝ))
    [IsProbabilityMeasure π] (ts : Arr1 ℝ) (hg : GridOk sde ts.1 ts.2)
    (hQ : ∀ k < ts.2.length, 0 < (discretise sde (ts.toList.getD (k + 1) 0) (ts.toList.getD k 0)).2)
    {s : ℝ → (ι → ℝ) → ι → ℝ} (hs : ∀ t ∈ ts.2, Measurable (s t)) :
    ∫⁻ x0s, (fwdPaths sde key x0s ts).E
      (fun paths => ENNReal.ofReal (ipfScoreValue (n := n) sde (rowwise s) ts paths)) ∂(Measure.pi fun _ => π) =
    ∫⁻ x0s, (fwdPaths sde key x0s ts).E (fun paths => ENNReal.ofReal
      (ipfScoreValue (n := n) sde (rowwise fun t => noisedScore sde t ts.1 π) ts paths)) ∂(Measure.pi fun _ => π) +
    ∑ k ∈ Finset.range ts.2.length, ENNReal.ofReal (1 / (Fintype.card ι * (ts.2.length * n))) * n *
      ∫⁻ x, ENNReal.ofReal (∑ i, (s (ts.toList.getD (k + 1) 0) x i -
        noisedScore sde (ts.toList.getD (k + 1) 0) ts.1 π x i) ^ 2) ∂(noisedLaw sde (ts.toList.getD (k + 1) 0) ts.1 π) := by
  have hpos := grid_pos hd ts hg hQ
  rw [ipfScore_population hd key π ts hg hs,
    ipfScore_population hd key π ts hg fun t ht => measurable_noisedScore sde (hpos t ht) π, ← Finset.sum_add_distrib]
  refine Finset.sum_congr rfl fun k hk => ?_
  have hk' := Finset.mem_range.1 hk
  have hv := (pair_vars hd ts hg hk').1
  have hsm := hs _ (timeAt_mem hk')
  have hp : 0 < (discretise sde (timeAt ts (k + 1)) ts.1).2 := hpos _ (timeAt_mem hk')
  have h1 := denoise_excess sde (t := timeAt ts (k + 1)) (t0 := timeAt ts k) (hQ k hk')
    (noisedLaw sde (timeAt ts k) ts.1 π) hsm
  rw [noisedScore_noisedLaw (t := timeAt ts (k + 1)) (s := timeAt ts k) hd (hQ k hk') hv π] at h1
  have h2 := lintegral_noisedLaw_step (t := timeAt ts (k + 1)) (s := timeAt ts k) hd (hQ k hk').le hv π
    (f := fun x => ENNReal.ofReal (∑ i, (s (timeAt ts (k + 1)) x i - noisedScore sde (timeAt ts (k + 1)) ts.1 π x i) ^ 2))
    (Finset.measurable_sum _ fun i _ => (((measurable_pi_apply i).comp hsm).sub
      ((measurable_pi_apply i).comp (measurable_noisedScore sde hp π))).pow_const 2).ennreal_ofReal
  rw [h1, h2]
  simp only [Finset.sum_const, Finset.card_univ, Fintype.card_fin, nsmul_eq_mul]
  show _ = _ + _ * ∫⁻ x, ENNReal.ofReal (∑ i, (s (timeAt ts (k + 1)) x i -
        noisedScore sde (timeAt ts (k + 1)) ts.1 π x i) ^ 2) ∂(noisedLaw sde (timeAt ts (k + 1)) ts.1 π)
  ring

omit [DecidableEq ι] in
/-- The weight of one time is positive. -/
theorem weight_ne_zero [NeZero n] [Nonempty ι] {m k : ℕ} (hk : k < m) :
    ENNReal.ofReal (1 / (Fintype.card ι * (m * n))) * n ≠ 0 := by
  have h6 : 0 < Fintype.card ι := Fintype.card_pos
  have h7 : 0 < m := by omega
  have h8 : 0 < n := Nat.pos_of_ne_zero (NeZero.ne n)
  refine mul_ne_zero (ENNReal.ofReal_pos.2 (by positivity)).ne' (by exact_mod_cast h8.ne')

/-- **C52, uniqueness.**  A continuous network whose expected `'ipf-score'` loss is not above that of the score of the noised data
law (the least value) is that score at every time of the loss. -/
theorem C52_unique [NeZero n] {sde : SDE} (hd : Defined sde) (key : Key) (π : Measure (ι → ℝ))
    [IsProbabilityMeasure π] (ts : Arr1 ℝ) (hg : GridOk sde ts.1 ts.2)
    (hQ : ∀ k < ts.2.length, 0 < (discretise sde (ts.toList.getD (k + 1) 0) (ts.toList.getD k 0)).2)
    {s : ℝ → (ι → ℝ) → ι → ℝ} (hs : ∀ t ∈ ts.2, Continuous (s t))
    (hle : ∫⁻ x0s, (fwdPaths sde key x0s ts).E
        (fun paths => ENNReal.ofReal (ipfScoreValue (n := n) sde (rowwise s) ts paths)) ∂(Measure.pi fun _ => π) ≤
      ∫⁻ x0s, (fwdPaths sde key x0s ts).E (fun paths => ENNReal.ofReal (ipfScoreValue (n := n) sde
        (rowwise fun t => noisedScore sde t ts.1 π) ts paths)) ∂(Measure.pi fun _ => π)) :
    ∀ t ∈ ts.2, s t = noisedScore sde t ts.1 π := by
  have hpos := grid_pos hd ts hg hQ
  intro t ht
  rcases isEmpty_or_nonempty ι with he | he
  · funext x i; exact he.elim i
  obtain ⟨k, hk, rfl⟩ := List.getElem_of_mem ht
  have htk : ts.toList.getD (k + 1) 0 = ts.2[k] := by simp [Arr1.toList, hk]
  refine eq_noisedScore_of_law (hpos _ ht) π (hs _ ht) ?_
  rw [← htk]
  refine terms_zero (k := k) ?_ (C52_excess (n := n) hd key π ts hg hQ fun t ht => (hs t ht).measurable)
    hle (fun k hk => weight_ne_zero hk) hk
  rw [ipfScore_population hd key π ts hg fun t ht => measurable_noisedScore sde (hpos t ht) π]
  refine ENNReal.sum_ne_top.2 fun k hk => ENNReal.mul_ne_top ENNReal.ofReal_ne_top (ENNReal.sum_ne_top.2 fun j _ => ?_)
  have hk' := Finset.mem_range.1 hk
  rw [← noisedScore_noisedLaw (t := timeAt ts (k + 1)) (s := timeAt ts k) hd (hQ k hk') (pair_vars hd ts hg hk').1 π]
  exact denoise_ne_top sde (hQ k hk') _

omit [DecidableEq ι] in
/-- The one-step loss of `'ipf'` is a multiple of the denoising loss of an affine image of the network. -/
theorem ipf_scale {sde : SDE} {t s : ℝ} (hQ : 0 < (discretise sde t s).2) (ν : Measure (ι → ℝ)) [IsProbabilityMeasure ν]
    {r : (ι → ℝ) → ι → ℝ} (hr : Measurable r) :
    ∫⁻ y, ∫⁻ z, ENNReal.ofReal (∑ i, (r z i - (z i + (discretise sde t s).1 * y i - (discretise sde t s).1 * z i)) ^ 2)
      ∂(transLaw sde t s y) ∂ν =
    ENNReal.ofReal ((discretise sde t s).2 ^ 2) * ∫⁻ y, ∫⁻ z, ENNReal.ofReal (∑ i,
      ((r z i - 2 * z i + (discretise sde t s).1 * z i) / (discretise sde t s).2 - condScore sde (z i) t (y i) s) ^ 2)
      ∂(transLaw sde t s y) ∂ν := by
  set F := (discretise sde t s).1 with hF
  set Q := (discretise sde t s).2 with hQd
  have h0 := hQ.ne'
  have hmeas : Measurable fun z i => (r z i - 2 * z i + F * z i) / Q := by
    refine measurable_pi_iff.2 fun i => ?_
    have h1 : Measurable fun z => r z i := (measurable_pi_apply i).comp hr
    exact (((h1.sub ((measurable_pi_apply i).const_mul 2)).add ((measurable_pi_apply i).const_mul _)).div_const _)
  rw [← lintegral_const_mul _ (measurable_inner sde hQ.le hmeas)]
  refine lintegral_congr fun y => ?_
  rw [← lintegral_const_mul' _ _ ENNReal.ofReal_ne_top]
  refine lintegral_congr fun z => ?_
  rw [← ENNReal.ofReal_mul (sq_nonneg _), Finset.mul_sum]
  congr 1
  refine Finset.sum_congr rfl fun i _ => ?_
  have : condScore sde (z i) t (y i) s = -(z i - F * y i) / Q := rfl
  rw [this]
  field_simp
  ring

/-- The one-step loss of `'ipf'` exceeds its least value by the mean squared distance to
`z + F E[Y | Z = z] - F z = 2 z - F z + Q score(z)`. -/
theorem ipf_step_excess {sde : SDE} {t s : ℝ} (hQ : 0 < (discretise sde t s).2) (ν : Measure (ι → ℝ))
    [IsProbabilityMeasure ν] {m r : (ι → ℝ) → ι → ℝ} (hr : Measurable r)
    (hm : ∀ z i, m z i = 2 * z i - (discretise sde t s).1 * z i + (discretise sde t s).2 * noisedScore sde t s ν z i) :
    ∫⁻ y, ∫⁻ z, ENNReal.ofReal (∑ i, (r z i - (z i + (discretise sde t s).1 * y i - (discretise sde t s).1 * z i)) ^ 2)
      ∂(transLaw sde t s y) ∂ν =
    ∫⁻ y, ∫⁻ z, ENNReal.ofReal (∑ i, (m z i - (z i + (discretise sde t s).1 * y i - (discretise sde t s).1 * z i)) ^ 2)
      ∂(transLaw sde t s y) ∂ν +
    ∫⁻ y, ∫⁻ z, ENNReal.ofReal (∑ i, (r z i - m z i) ^ 2) ∂(transLaw sde t s y) ∂ν ∧
    ∫⁻ y, ∫⁻ z, ENNReal.ofReal (∑ i, (m z i - (z i + (discretise sde t s).1 * y i - (discretise sde t s).1 * z i)) ^ 2)
      ∂(transLaw sde t s y) ∂ν ≠ ∞ := by
  have h0 := hQ.ne'
  have hsm := measurable_noisedScore sde hQ ν
  have hmm : Measurable m := by
    refine measurable_pi_iff.2 fun i => ?_
    rw [funext fun z => hm z i]
    have h1 := (measurable_pi_apply i).comp hsm
    exact (((measurable_pi_apply i).const_mul 2).sub ((measurable_pi_apply i).const_mul _)).add (h1.const_mul _)
  have hmeas : Measurable fun z i => (r z i - 2 * z i + (discretise sde t s).1 * z i) / (discretise sde t s).2 := by
    refine measurable_pi_iff.2 fun i => ?_
    have h1 : Measurable fun z => r z i := (measurable_pi_apply i).comp hr
    exact (((h1.sub ((measurable_pi_apply i).const_mul 2)).add ((measurable_pi_apply i).const_mul _)).div_const _)
  have hsc : ∀ z i, (m z i - 2 * z i + (discretise sde t s).1 * z i) / (discretise sde t s).2 =
      noisedScore sde t s ν z i := by
    intro z i
    rw [hm z i]
    field_simp
    ring
  have hd : Measurable fun z : ι → ℝ => ENNReal.ofReal (∑ i, ((r z i - 2 * z i + (discretise sde t s).1 * z i) /
      (discretise sde t s).2 - noisedScore sde t s ν z i) ^ 2) :=
    (Finset.measurable_sum _ fun i _ => (((measurable_pi_apply i).comp hmeas).sub
      ((measurable_pi_apply i).comp hsm)).pow_const 2).ennreal_ofReal
  rw [ipf_scale hQ ν hr, ipf_scale hQ ν hmm]
  simp only [hsc]
  refine ⟨?_, ENNReal.mul_ne_top ENNReal.ofReal_ne_top (denoise_ne_top sde hQ ν)⟩
  rw [denoise_excess sde hQ ν hmeas, mul_add]
  congr 1
  rw [← lintegral_const_mul _ (measurable_lintegral_transLaw (f := fun _ z => _) hQ.le (hd.comp measurable_snd))]
  refine lintegral_congr fun y => ?_
  rw [← lintegral_const_mul' _ _ ENNReal.ofReal_ne_top]
  refine lintegral_congr fun z => ?_
  rw [← ENNReal.ofReal_mul (sq_nonneg _), Finset.mul_sum]
  congr 1
  refine Finset.sum_congr rfl fun i _ => ?_
  rw [hm z i]
  field_simp
  ring

omit [DecidableEq ι] in
/-- The expected `'ipf'` loss with independent data. -/
theorem ipf_population {sde : SDE} (hd : Defined sde) (key : Key) (π : Measure (ι → ℝ))
    [IsProbabilityMeasure π] (ts : Arr1 ℝ) (hg : GridOk sde ts.1 ts.2) {s : ℝ → (ι → ℝ) → ι → ℝ}
    (hs : ∀ k < ts.2.length, Measurable (s (timeAt ts (k + 1)))) :
    ∫⁻ x0s, (fwdPaths sde key x0s ts).E
      (fun paths => ENNReal.ofReal (ipfValue (n := n) sde (rowwise s) ts paths)) ∂(Measure.pi fun _ => π) =
    ∑ k ∈ Finset.range ts.2.length, ENNReal.ofReal (1 / (Fintype.card ι * (ts.2.length * n))) *
        ∑ _j : Fin n, ∫⁻ y, ∫⁻ z, ENNReal.ofReal (∑ i, (s (timeAt ts (k + 1)) z i -
          (z i + (discretise sde (timeAt ts (k + 1)) (timeAt ts k)).1 * y i
            - (discretise sde (timeAt ts (k + 1)) (timeAt ts k)).1 * z i)) ^ 2)
          ∂(transLaw sde (timeAt ts (k + 1)) (timeAt ts k) y) ∂(noisedLaw sde (timeAt ts k) ts.1 π) := by
  refine meanCols_population (n := n) hd key π ts hg (fun k y z i => s (timeAt ts (k + 1)) z i -
        (z i + (discretise sde (timeAt ts (k + 1)) (timeAt ts k)).1 * y i
            - (discretise sde (timeAt ts (k + 1)) (timeAt ts k)).1 * z i)) fun k hk => measurable_pi_iff.2 fun i => ?_
  exact ((measurable_pi_apply i).comp ((hs _ hk).comp measurable_snd)).sub (by fun_prop)

section Ipf
variable {sde : SDE} (hd : Defined sde) (key : Key) (π : Measure (ι → ℝ))
    [IsProbabilityMeasure π] (ts : Arr1 ℝ) (hg : GridOk sde ts.1 ts.2)
    (hQ : ∀ k < ts.2.length, 0 < (discretise sde (ts.toList.getD (k + 1) 0) (ts.toList.getD k 0)).2)
    {m : ℝ → (ι → ℝ) → ι → ℝ} (hm : ∀ k < ts.2.length, ∀ x i, m (ts.toList.getD (k + 1) 0) x i =
      let F := (discretise sde (ts.toList.getD (k + 1) 0) (ts.toList.getD k 0)).1
      x i + F * prevMean sde (ts.toList.getD (k + 1) 0) (ts.toList.getD k 0)
        (noisedLaw sde (ts.toList.getD k 0) ts.1 π) x i - F * x i)
include hd hg hQ hm

omit hd hg in
theorem ipf_target (k : ℕ) (hk : k < ts.2.length) (z : ι → ℝ) (i : ι) : m (timeAt ts (k + 1)) z i =
    2 * z i - (discretise sde (timeAt ts (k + 1)) (timeAt ts k)).1 * z i
      + (discretise sde (timeAt ts (k + 1)) (timeAt ts k)).2 *
        noisedScore sde (timeAt ts (k + 1)) (timeAt ts k) (noisedLaw sde (timeAt ts k) ts.1 π) z i := by
  have hF : (discretise sde (timeAt ts (k + 1)) (timeAt ts k)).1 ≠ 0 := by
    rw [F_eq]; exact (Real.exp_pos _).ne'
  have h1 := C53_tweedie sde (t := timeAt ts (k + 1)) (s := timeAt ts k) (hQ k hk) hF (noisedLaw sde (timeAt ts k) ts.1 π) z i
  have h2 : m (timeAt ts (k + 1)) z i = z i + (discretise sde (timeAt ts (k + 1)) (timeAt ts k)).1 *
      prevMean sde (timeAt ts (k + 1)) (timeAt ts k) (noisedLaw sde (timeAt ts k) ts.1 π) z i
        - (discretise sde (timeAt ts (k + 1)) (timeAt ts k)).1 * z i := hm k hk z i
  rw [h2, h1]
  ring

omit hd hg in
theorem ipf_target_continuous (k : ℕ) (hk : k < ts.2.length) : Continuous (m (timeAt ts (k + 1))) := by
  refine continuous_pi fun i => ?_
  rw [funext fun z => ipf_target π ts hQ hm k hk z i]
  have h1 := (continuous_apply i).comp (continuous_noisedScore (sde := sde) (t := timeAt ts (k + 1)) (t0 := timeAt ts k)
    (hQ k hk) (noisedLaw sde (timeAt ts k) ts.1 π))
  exact (((continuous_apply i).const_mul 2).sub ((continuous_apply i).const_mul _)).add (h1.const_mul _)

/-- **C53, excess loss.**  The expected `'ipf'` loss of a network exceeds that of the network
`x ↦ x + F E[X_k | X_{k+1} = x] - F x` by the mean over the times of the mean squared distance to it under the noised law. -/
theorem C53_excess {s : ℝ → (ι → ℝ) → ι → ℝ} (hs : ∀ t ∈ ts.2, Measurable (s t)) :
    ∫⁻ x0s, (fwdPaths sde key x0s ts).E
      (fun paths => ENNReal.ofReal (ipfValue (n := n) sde (rowwise s) ts paths)) ∂(Measure.pi fun _ => π) =
    ∫⁻ x0s, (fwdPaths sde key x0s ts).E (fun paths => ENNReal.ofReal
      (ipfValue (n := n) sde (rowwise m) ts paths)) ∂(Measure.pi fun _ => π) +
    ∑ k ∈ Finset.range ts.2.length, ENNReal.ofReal (1 / (Fintype.card ι * (ts.2.length * n))) * n *
      ∫⁻ x, ENNReal.ofReal (∑ i, (s (ts.toList.getD (k + 1) 0) x i - m (ts.toList.getD (k + 1) 0) x i) ^ 2)
        ∂(noisedLaw sde (ts.toList.getD (k + 1) 0) ts.1 π) := by
  rw [ipf_population hd key π ts hg fun k hk => hs _ (timeAt_mem hk),
    ipf_population hd key π ts hg fun k hk => (ipf_target_continuous π ts hQ hm k hk).measurable, ← Finset.sum_add_distrib]
  refine Finset.sum_congr rfl fun k hk => ?_
  have hk' := Finset.mem_range.1 hk
  have hv := (pair_vars hd ts hg hk').1
  have hsm := hs _ (timeAt_mem hk')
  have hmm := (ipf_target_continuous π ts hQ hm k hk').measurable
  have h2 := lintegral_noisedLaw_step (t := timeAt ts (k + 1)) (s := timeAt ts k) hd (hQ k hk').le hv π
    (f := fun x => ENNReal.ofReal (∑ i, (s (timeAt ts (k + 1)) x i - m (timeAt ts (k + 1)) x i) ^ 2))
    (Finset.measurable_sum _ fun i _ => (((measurable_pi_apply i).comp hsm).sub
      ((measurable_pi_apply i).comp hmm)).pow_const 2).ennreal_ofReal
  rw [(ipf_step_excess (t := timeAt ts (k + 1)) (s := timeAt ts k) (hQ k hk') (noisedLaw sde (timeAt ts k) ts.1 π) hsm
    (ipf_target π ts hQ hm k hk')).1, h2]
  simp only [Finset.sum_const, Finset.card_univ, Fintype.card_fin, nsmul_eq_mul]
  show _ = _ + _ * ∫⁻ x, ENNReal.ofReal (∑ i, (s (timeAt ts (k + 1)) x i - m (timeAt ts (k + 1)) x i) ^ 2)
    ∂(noisedLaw sde (timeAt ts (k + 1)) ts.1 π)
  ring

/-- **C53, uniqueness.**  A continuous network whose expected `'ipf'` loss is not above that of
`x ↦ x + F E[X_k | X_{k+1} = x] - F x` (the least value) is this network at every time of the loss. -/
theorem C53_unique [NeZero n] {s : ℝ → (ι → ℝ) → ι → ℝ} (hs : ∀ t ∈ ts.2, Continuous (s t))
    (hle : ∫⁻ x0s, (fwdPaths sde key x0s ts).E
        (fun paths => ENNReal.ofReal (ipfValue (n := n) sde (rowwise s) ts paths)) ∂(Measure.pi fun _ => π) ≤
      ∫⁻ x0s, (fwdPaths sde key x0s ts).E
        (fun paths => ENNReal.ofReal (ipfValue (n := n) sde (rowwise m) ts paths)) ∂(Measure.pi fun _ => π)) :
    ∀ t ∈ ts.2, s t = m t := by
  have hpos := grid_pos hd ts hg hQ
  intro t ht
  rcases isEmpty_or_nonempty ι with he | he
  · funext x i; exact he.elim i
  have hat : ∀ {k : ℕ} (hk : k < ts.2.length), ts.toList.getD (k + 1) 0 = ts.2[k] := fun hk => by simp [Arr1.toList, hk]
  have hmc : ∀ t ∈ ts.2, Continuous (m t) := fun t ht => by
    obtain ⟨k, hk, rfl⟩ := List.getElem_of_mem ht
    have := ipf_target_continuous π ts hQ hm k hk
    rwa [timeAt, hat hk] at this
  obtain ⟨k, hk, rfl⟩ := List.getElem_of_mem ht
  refine eq_of_noisedLaw (hpos _ ht) π (hs _ ht) (hmc _ ht) ?_
  rw [← hat hk]
  refine terms_zero (k := k) ?_ (C53_excess (n := n) hd key π ts hg hQ hm fun t ht => (hs t ht).measurable)
    hle (fun k hk => weight_ne_zero hk) hk
  rw [ipf_population hd key π ts hg fun k hk => (ipf_target_continuous π ts hQ hm k hk).measurable]
  refine ENNReal.sum_ne_top.2 fun k hk => ENNReal.mul_ne_top ENNReal.ofReal_ne_top (ENNReal.sum_ne_top.2 fun j _ => ?_)
  have hk' := Finset.mem_range.1 hk
  exact (ipf_step_excess (t := timeAt ts (k + 1)) (s := timeAt ts k) (hQ k hk') (noisedLaw sde (timeAt ts k) ts.1 π)
    (ipf_target_continuous π ts hQ hm k hk').measurable (ipf_target π ts hQ hm k hk')).2

end Ipf

omit [DecidableEq ι] in
/-- The expected memory-saving loss with independent data. -/
theorem saveMem_population {sde : SDE} (key : Key) (π : Measure (ι → ℝ)) [IsProbabilityMeasure π] (t0 : ℝ)
    (ts : Fin n → ℝ) (hQ : ∀ j, 0 < (discretise sde (ts j) t0).2) {s : ℝ → (ι → ℝ) → ι → ℝ}
    (hs : ∀ j, Measurable (s (ts j))) :
    ∫⁻ x0s, (saveMemStates sde key x0s t0 ts).E (fun xs => ENNReal.ofReal (saveMemValue sde
        (rowwiseTimes s) t0 x0s ts fun j => (xs j).toOption.getD 0)) ∂(Measure.pi fun _ => π) =
      ∑ j, ENNReal.ofReal ((discretise sde (ts j) t0).2 / (Fintype.card ι * n)) *
        ∫⁻ x0, ∫⁻ x, ENNReal.ofReal (∑ i, (s (ts j) x i - condScore sde (x i) (ts j) (x0 i) t0) ^ 2)
          ∂(transLaw sde (ts j) t0 x0) ∂π := by
  rw [lintegral_congr fun x0s => C54_expected_loss key x0s t0 ts (fun j => (hQ j).le) hs]
  have hmi := fun j => measurable_inner sde (hQ j).le (hs j)
  have hmj : ∀ j : Fin n, Measurable fun x0s : Fin n → ι → ℝ =>
      ∫⁻ x, ENNReal.ofReal (∑ i, (s (ts j) x i - condScore sde (x i) (ts j) (x0s j i) t0) ^ 2)
        ∂(transLaw sde (ts j) t0 (x0s j)) := fun j => (hmi j).comp (measurable_pi_apply j)
  rw [lintegral_finsetSum _ fun j _ => (hmj j).const_mul _]
  refine Finset.sum_congr rfl fun j _ => ?_
  rw [lintegral_const_mul _ (hmj j)]
  congr 1
  exact (measurePreserving_eval (fun _ : Fin n => π) j).lintegral_comp (hmi j)

/-- **C54, excess loss.**  The expected memory-saving loss exceeds that of the score by the weighted mean squared distances
to the score at the times of the samples. -/
theorem C54_excess {sde : SDE} (key : Key) (π : Measure (ι → ℝ)) [IsProbabilityMeasure π] (t0 : ℝ)
    (ts : Fin n → ℝ) (hQ : ∀ j, 0 < (discretise sde (ts j) t0).2) {s : ℝ → (ι → ℝ) → ι → ℝ}
    (hs : ∀ j, Measurable (s (ts j))) :
    ∫⁻ x0s, (saveMemStates sde key x0s t0 ts).E (fun xs => ENNReal.ofReal (saveMemValue sde
      (rowwiseTimes s) t0 x0s ts fun j => (xs j).toOption.getD 0)) ∂(Measure.pi fun _ => π) =
    ∫⁻ x0s, (saveMemStates sde key x0s t0 ts).E (fun xs => ENNReal.ofReal (saveMemValue sde
      (rowwiseTimes fun t => noisedScore sde t t0 π) t0 x0s ts fun j => (xs j).toOption.getD 0))
        ∂(Measure.pi fun _ => π) +
    ∑ j, ENNReal.ofReal ((discretise sde (ts j) t0).2 / (Fintype.card ι * n)) *
      ∫⁻ x, ENNReal.ofReal (∑ i, (s (ts j) x i - noisedScore sde (ts j) t0 π x i) ^ 2) ∂(noisedLaw sde (ts j) t0 π) := by
  rw [saveMem_population key π t0 ts hQ hs,
    saveMem_population key π t0 ts hQ fun j => measurable_noisedScore sde (hQ j) π, ← Finset.sum_add_distrib]
  refine Finset.sum_congr rfl fun j _ => ?_
  rw [denoise_excess sde (hQ j) π (hs j), mul_add, lintegral_noisedLaw (hQ j).le π]
  exact (Finset.measurable_sum _ fun i _ => (((measurable_pi_apply i).comp (hs j)).sub
      ((measurable_pi_apply i).comp (measurable_noisedScore sde (hQ j) π))).pow_const 2).ennreal_ofReal

/-- **C54, uniqueness.**  A continuous network whose expected memory-saving loss is not above that of the score of the noised data
law (the least value) is that score at every time of the loss. -/
theorem C54_unique {sde : SDE} (key : Key) (π : Measure (ι → ℝ)) [IsProbabilityMeasure π] (t0 : ℝ)
    (ts : Fin n → ℝ) (hQ : ∀ j, 0 < (discretise sde (ts j) t0).2) {s : ℝ → (ι → ℝ) → ι → ℝ}
    (hs : ∀ j, Continuous (s (ts j)))
    (hle : ∫⁻ x0s, (saveMemStates sde key x0s t0 ts).E (fun xs => ENNReal.ofReal (saveMemValue sde
        (rowwiseTimes s) t0 x0s ts fun j => (xs j).toOption.getD 0)) ∂(Measure.pi fun _ => π) ≤
      ∫⁻ x0s, (saveMemStates sde key x0s t0 ts).E (fun xs => ENNReal.ofReal (saveMemValue sde
        (rowwiseTimes fun t => noisedScore sde t t0 π) t0 x0s ts fun j => (xs j).toOption.getD 0))
        ∂(Measure.pi fun _ => π)) (j : Fin n) :
    s (ts j) = noisedScore sde (ts j) t0 π := by
  rcases isEmpty_or_nonempty ι with he | he
  · funext x i; exact he.elim i
  refine eq_noisedScore_of_law (hQ j) π (hs j) ?_
  rw [C54_excess key π t0 ts hQ fun j => (hs j).measurable] at hle
  have hfin : ∫⁻ x0s, (saveMemStates sde key x0s t0 ts).E (fun xs => ENNReal.ofReal (saveMemValue sde
      (rowwiseTimes fun t => noisedScore sde t t0 π) t0 x0s ts fun j => (xs j).toOption.getD 0))
        ∂(Measure.pi fun _ => π) ≠ ∞ := by
    rw [saveMem_population key π t0 ts hQ fun j => measurable_noisedScore sde (hQ j) π]
    exact ENNReal.sum_ne_top.2 fun k _ => ENNReal.mul_ne_top ENNReal.ofReal_ne_top (denoise_ne_top sde (hQ k) π)
  have h3 := ENNReal.le_of_add_le_add_left hfin (hle.trans_eq (add_zero _).symm)
  have h2 := le_antisymm h3 bot_le
  rw [Finset.sum_eq_zero_iff] at h2
  refine (mul_eq_zero.1 (h2 j (Finset.mem_univ j))).resolve_left (ENNReal.ofReal_pos.2 ?_).ne'
  have h6 : 0 < Fintype.card ι := Fintype.card_pos
  have h8 : 0 < n := Nat.pos_of_ne_zero fun h => by subst h; exact j.elim0
  have := hQ j
  positivity

theorem fixedTimes_mem {t0 T : ℝ} {nsteps k : ℕ} (h1 : (fixedTimes t0 T nsteps).2.length = nsteps) (hk : k < nsteps) :
    t0 + (k + 1) * ((T - t0) / nsteps) ∈ (fixedTimes t0 T nsteps).2 := by
  have h4 := fixedTimes_get (t0 := t0) (T := T) (nsteps := nsteps) (k := k + 1) hk
  have h5 := timeAt_mem (ts := fixedTimes t0 T nsteps) (k := k) (by rw [h1]; exact hk)
  rw [timeAt, h4] at h5
  exact_mod_cast h5

omit [Fintype ι] [DecidableEq ι] in
theorem fixedTimes_continuous {t0 T : ℝ} {nsteps : ℕ} (h1 : (fixedTimes t0 T nsteps).2.length = nsteps)
    {s : ℝ → (ι → ℝ) → ι → ℝ} (hs : ∀ k < nsteps, Continuous (s (t0 + (k + 1) * ((T - t0) / nsteps)))) :
    ∀ t ∈ (fixedTimes t0 T nsteps).2, Continuous (s t) := by
  intro t ht
  obtain ⟨k, hk, rfl⟩ := List.getElem_of_mem ht
  have hk' : k < nsteps := by omega
  have h2 : (fixedTimes t0 T nsteps).toList.getD (k + 1) 0 = (fixedTimes t0 T nsteps).2[k] := by simp [Arr1.toList, hk]
  rw [← h2, fixedTimes_get hk']
  exact_mod_cast hs k hk'

/-- **C52, program, uniqueness.**  A continuous network whose expected value of
`make_linear_sde_law_loss(..., loss_type='ipf-score', random_times=False)` is not above that of the score of the noised data
law is that score at every time `t0 + k (T - t0) / nsteps`, `k = 1, ..., nsteps`. -/
theorem C52_program_unique [NeZero n] {sde : SDE} {t0 T : ℝ} {nsteps : ℕ} (hn : nsteps ≠ 0) (hT : t0 < T)
    (hadm : ∀ t, t0 ≤ t → t ≤ T → Admissible sde t) (key : Key) (π : Measure (ι → ℝ)) [IsProbabilityMeasure π]
    {s : ℝ → (ι → ℝ) → ι → ℝ} (hs : ∀ k < nsteps, Continuous (s (t0 + (k + 1) * ((T - t0) / nsteps))))
    (hle : ∫⁻ x0s, (lossFn (n := n) sde (rowwise s) t0 T nsteps false "ipf-score" key x0s).E okValue
        ∂(Measure.pi fun _ => π) ≤
      ∫⁻ x0s, (lossFn (n := n) sde (rowwise fun t => noisedScore sde t t0 π) t0 T nsteps false "ipf-score" key x0s).E
        okValue ∂(Measure.pi fun _ => π)) (k : ℕ) (hk : k < nsteps) :
    s (t0 + (k + 1) * ((T - t0) / nsteps)) = noisedScore sde (t0 + (k + 1) * ((T - t0) / nsteps)) t0 π := by
  have hd : Defined sde := Admissible.defined (hadm t0 le_rfl hT.le)
  obtain ⟨h1, h2, h3⟩ := fixedTimes_facts hn hT hadm
  simp only [(lossFn_fixed ..).1] at hle
  exact C52_unique (n := n) hd (split key 2 1) π (fixedTimes t0 T nsteps) h2 (fun k hk => h3 k (h1 ▸ hk))
    (fixedTimes_continuous h1 hs) hle _ (fixedTimes_mem h1 hk)

/-- **C53, program, uniqueness.**  A continuous network whose expected value of
`make_linear_sde_law_loss(..., loss_type='ipf', random_times=False)` is not above the least value is
`x + F E[X_{t - dt} | X_t = x] - F x` at every time of the grid. -/
theorem C53_program_unique [NeZero n] {sde : SDE} {t0 T : ℝ} {nsteps : ℕ} (hn : nsteps ≠ 0) (hT : t0 < T)
    (hadm : ∀ t, t0 ≤ t → t ≤ T → Admissible sde t) (key : Key) (π : Measure (ι → ℝ)) [IsProbabilityMeasure π]
    {s : ℝ → (ι → ℝ) → ι → ℝ} (hs : ∀ k < nsteps, Continuous (s (t0 + (k + 1) * ((T - t0) / nsteps)))) :
    let dt := (T - t0) / nsteps
    let m : ℝ → (ι → ℝ) → ι → ℝ := fun t x i => x i
      + (discretise sde t (t - dt)).1 * prevMean sde t (t - dt) (noisedLaw sde (t - dt) t0 π) x i
      - (discretise sde t (t - dt)).1 * x i
    ∫⁻ x0s, (lossFn (n := n) sde (rowwise s) t0 T nsteps false "ipf" key x0s).E okValue ∂(Measure.pi fun _ => π) ≤
    ∫⁻ x0s, (lossFn (n := n) sde (rowwise m) t0 T nsteps false "ipf" key x0s).E okValue ∂(Measure.pi fun _ => π) →
    ∀ k < nsteps, s (t0 + (k + 1) * dt) = m (t0 + (k + 1) * dt) := by
  have hd : Defined sde := Admissible.defined (hadm t0 le_rfl hT.le)
  obtain ⟨h1, h2, h3⟩ := fixedTimes_facts hn hT hadm
  intro dt m hle k hk
  simp only [(lossFn_fixed ..).2] at hle
  refine C53_unique (n := n) hd (split key 2 1) π (fixedTimes t0 T nsteps) h2 (fun k hk => h3 k (h1 ▸ hk)) (m := m)
    (fun k hk x i => ?_) (fixedTimes_continuous h1 hs) hle _ (fixedTimes_mem h1 hk)
  have hk' : k < nsteps := h1 ▸ hk
  have e : (fixedTimes t0 T nsteps).toList.getD k 0 = (fixedTimes t0 T nsteps).toList.getD (k + 1) 0 - dt := by
    rw [fixedTimes_get hk', fixedTimes_get hk'.le]
    push_cast; ring
  rw [e]
  rfl

/-- **C54, program, uniqueness.**  A continuous network whose expected memory-saving loss with `random_times=False` is not
above that of the score of the noised data law is that score at every time `t0 + k (T - t0) / n`, `k = 1, ..., n`. -/
theorem C54_program_unique {sde : SDE} {t0 T : ℝ} (hT : t0 + eps ≤ T)
    (hadm : ∀ t, t0 ≤ t → t ≤ T → Admissible sde t) (key : Key) (π : Measure (ι → ℝ)) [IsProbabilityMeasure π]
    {s : ℝ → (ι → ℝ) → ι → ℝ} (hs : ∀ j : Fin n, Continuous (s (t0 + (j + 1) * ((T - t0) / n))))
    (hle : ∫⁻ x0s, (lossFnSaveMem (n := n) sde (rowwiseTimes s) t0 T false key x0s).E okValue ∂(Measure.pi fun _ => π) ≤
      ∫⁻ x0s, (lossFnSaveMem (n := n) sde (rowwiseTimes fun t => noisedScore sde t t0 π) t0 T false key x0s).E okValue
        ∂(Measure.pi fun _ => π)) (j : Fin n) :
    s (t0 + (j + 1) * ((T - t0) / n)) = noisedScore sde (t0 + (j + 1) * ((T - t0) / n)) t0 π := by
  have hn : n ≠ 0 := fun h => by subst h; exact j.elim0
  have hts : ∀ j : Fin n, (Simulators.linspace (t0 + (T - t0) / n) T n).getD j 0 = t0 + (j + 1) * ((T - t0) / n) := by
    intro j
    have hj := j.2
    unfold Simulators.linspace
    rw [getD_of_lt _ _ (by simp)]
    simp only [List.getElem_map, List.getElem_range]
    obtain ⟨m, rfl⟩ := Nat.exists_eq_succ_of_ne_zero hn
    simp only [Nat.succ_eq_add_one, Nat.add_sub_cancel]
    rcases Nat.eq_zero_or_pos m with rfl | hm
    · simp
    · have : (m : ℝ) ≠ 0 := by positivity
      push_cast
      field_simp
      ring
  have hok : ∀ j : Fin n, 0 < (discretise sde (t0 + (j + 1) * ((T - t0) / n)) t0).2 := fun j => by
    rw [← hts j]
    exact C54_times_ok (key := key) hn hT hadm false (by simp [saveMemTimes, Rand.pure_eq, Rand.returns_ret]) j
  have e : ∀ (s : ℝ → (ι → ℝ) → ι → ℝ) x0s, (lossFnSaveMem (n := n) sde (rowwiseTimes s) t0 T false key x0s).E okValue =
      (saveMemStates sde (split key 2 1) x0s t0 fun j : Fin n => t0 + (j + 1) * ((T - t0) / n)).E fun xs =>
        ENNReal.ofReal (saveMemValue sde (rowwiseTimes s) t0 x0s (fun j : Fin n => t0 + (j + 1) * ((T - t0) / n))
          fun j => (xs j).toOption.getD 0) := by
    intro s x0s
    simp only [lossFnSaveMem, saveMemTimes, Bool.false_eq_true, if_false, Rand.E_bind, Rand.pure_eq, Rand.E_ret, hts]
    rfl
  simp only [e] at hle
  exact C54_unique (split key 2 1) π t0 (fun j : Fin n => t0 + (j + 1) * ((T - t0) / n)) hok hs hle j

end Excess

/-! ### The hypotheses can be met -/

/-- The score itself: four images of two pixels, three fixed times, the linear schedule. -/
example : noisedScore (.lin 0.02 4 0 2) (0 + ((1 : ℕ) + 1) * ((2 - 0) / (3 : ℕ))) 0 (empirical ![![0, 1], ![1, 1], ![(0 : ℝ), 0]]) =
    noisedScore (.lin 0.02 4 0 2) (0 + ((1 : ℕ) + 1) * ((2 - 0) / (3 : ℕ))) 0 (empirical ![![0, 1], ![1, 1], ![(0 : ℝ), 0]]) := by
  have hadm : ∀ t, (0 : ℝ) ≤ t → t ≤ 2 → Admissible (.lin 0.02 4 0 2) t :=
    fun _ h1 h2 => ⟨by norm_num, by norm_num, by norm_num, h1, h2⟩
  refine C52_program_unique (n := 4) (T := 2) (nsteps := 3)
    (s := fun t => noisedScore (.lin 0.02 4 0 2) t 0 (empirical ![![0, 1], ![1, 1], ![(0 : ℝ), 0]]))
    (by norm_num) (by norm_num) hadm [] _ (fun k hk => continuous_noisedScore ?_ _) le_rfl 1 (by norm_num)
  have hk' : (k : ℝ) + 1 ≤ 3 := by exact_mod_cast hk
  have h0 : (0 : ℝ) < 0 + (k + 1) * ((2 - 0) / (3 : ℕ)) := by positivity
  refine (C29_bounds (hadm _ h0.le ?_) (hadm 0 le_rfl (by norm_num)) h0).2.1
  push_cast
  linarith

end Props
end Fbs
