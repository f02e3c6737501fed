import Verif.Props.TimeReversal

/-!
# C38, C81: the trained network is the score, and it reverses the noising
-/

open MeasureTheory ProbabilityTheory
open scoped ENNReal NNReal

namespace Fbs
namespace Score

variable {ι : Type} [Fintype ι] [DecidableEq ι] {A : Type} [MeasurableSpace A] {π : Measure A} [IsProbabilityMeasure π]
  {q : ℝ≥0} {m : A → ι → ℝ}

omit [DecidableEq ι] in
theorem continuous_dens (q : ℝ≥0) (m : ι → ℝ) : Continuous fun x => dens q m x := by
  simp only [dens_eq]
  fun_prop

theorem continuous_score (hq : q ≠ 0) (hm : Measurable m) : Continuous fun x => score π q m x := by
  refine continuous_pi fun i => ?_
  simp only [score_eq hq hm]
  refine Continuous.div₀ ?_ (continuous_mix hq hm) fun x => (mix_pos hq hm x).ne'
  obtain ⟨C, -, hC⟩ := exists_bound (ι := ι) hq
  refine continuous_of_dominated (bound := fun _ => C) (fun x => (integrable_cs hq hm x i).aestronglyMeasurable)
    (fun x => Filter.Eventually.of_forall fun a => ?_) (integrable_const C)
    (Filter.Eventually.of_forall fun a => ?_)
  · rw [norm_mul, Real.norm_of_nonneg (dens_pos hq _ _).le]; exact (hC _ _).2.1 i
  · refine Continuous.mul ?_ (continuous_dens q (m a))
    unfold cs
    fun_prop

/-- The least value of the denoising objective is finite. -/
theorem population_ne_top (hq : q ≠ 0) (hm : Measurable m) :
    ∫⁻ a, ∫⁻ x, ENNReal.ofReal (∑ i, (score π q m x i - cs q (m a) x i) ^ 2)
      ∂(Measure.pi fun i => gaussianReal (m a i) q) ∂π ≠ ∞ := by
  have hq' : (q : ℝ) ≠ 0 := by exact_mod_cast hq
  refine ne_top_of_le_ne_top ?_ (population_min hq hm (s := fun _ _ => 0) measurable_const)
  have h1 : ∀ a, ∫⁻ x, ENNReal.ofReal (∑ i, (0 - cs q (m a) x i) ^ 2) ∂(Measure.pi fun i => gaussianReal (m a i) q) =
      ∑ _i : ι, ENNReal.ofReal (1 / q) := by
    intro a
    have h2 : ∀ x : ι → ℝ, ENNReal.ofReal (∑ i, (0 - cs q (m a) x i) ^ 2) =
        ∑ i, ENNReal.ofReal ((x i - m a i) ^ 2 / q ^ 2) := fun x => by
      rw [ENNReal.ofReal_sum_of_nonneg fun i _ => sq_nonneg _]
      refine Finset.sum_congr rfl fun i _ => ?_
      congr 1
      rw [cs]
      field_simp
      ring
    simp only [h2]
    rw [lintegral_finsetSum _ fun i _ => by fun_prop]
    refine Finset.sum_congr rfl fun i _ => ?_
    have h3 := (measurePreserving_eval (fun i => gaussianReal (m a i) q) i).lintegral_comp
      (f := fun y => ENNReal.ofReal ((y - m a i) ^ 2 / (q : ℝ) ^ 2)) (by fun_prop)
    have h4 : ∫⁻ x, ENNReal.ofReal ((x i - m a i) ^ 2 / (q : ℝ) ^ 2) ∂(Measure.pi fun i => gaussianReal (m a i) q) = _ := h3
    rw [h4]
    have hv := variance_fun_id_gaussianReal (μ := m a i) (v := q)
    have hi : Integrable (fun y => (y - m a i) ^ 2) (gaussianReal (m a i) q) :=
      ((memLp_id_gaussianReal (μ := m a i) (v := q) 2).sub (memLp_const (m a i))).integrable_sq
    rw [← ofReal_integral_eq_lintegral_ofReal (hi.div_const _) (Filter.Eventually.of_forall fun y => by positivity),
      integral_div]
    congr 1
    rw [variance_eq_integral (by fun_prop)] at hv
    simp only [integral_id_gaussianReal] at hv
    rw [hv]
    field_simp
  simp only [h1, lintegral_const, measure_univ, mul_one]
  exact ENNReal.sum_ne_top.2 fun _ _ => ENNReal.ofReal_ne_top

end Score

namespace Props

open Linear Spec Jax Losses

section Unique
variable {ι : Type} [Fintype ι] [DecidableEq ι] {n : ℕ}

/-- The objective at one time exceeds its least value by the mean squared distance to the score. -/
theorem denoise_excess (sde : SDE) {t t0 : ℝ} (hQ : 0 < (discretise sde t t0).2) (π : Measure (ι → ℝ))
    [IsProbabilityMeasure π] {s : (ι → ℝ) → ι → ℝ} (hs : Measurable s) :
    ∫⁻ x0, ∫⁻ x, ENNReal.ofReal (∑ i, (s x i - condScore sde (x i) t (x0 i) t0) ^ 2)
      ∂(transLaw sde t t0 x0) ∂π =
    ∫⁻ x0, ∫⁻ x, ENNReal.ofReal (∑ i, (noisedScore sde t t0 π x i - condScore sde (x i) t (x0 i) t0) ^ 2)
      ∂(transLaw sde t t0 x0) ∂π +
    ∫⁻ x0, ∫⁻ x, ENNReal.ofReal (∑ i, (s x i - noisedScore sde t t0 π x i) ^ 2) ∂(transLaw sde t t0 x0) ∂π := by
  have hqc : ((discretise sde t t0).2.toNNReal : ℝ) = (discretise sde t t0).2 := Real.coe_toNNReal _ hQ.le
  have hcs : ∀ (x0 x : ι → ℝ) i, Score.cs (discretise sde t t0).2.toNNReal
      (fun i => (discretise sde t t0).1 * x0 i) x i = condScore sde (x i) t (x0 i) t0 := by
    intro x0 x i; rw [Score.cs, hqc]; rfl
  have h := Score.population_pythagoras (π := π) (Real.toNNReal_pos.2 hQ).ne' (measurable_scale (discretise sde t t0).1) hs
  simp only [hcs, ← noisedScore_eq] at h
  exact h

theorem denoise_ne_top (sde : SDE) {t t0 : ℝ} (hQ : 0 < (discretise sde t t0).2) (π : Measure (ι → ℝ))
    [IsProbabilityMeasure π] :
    ∫⁻ x0, ∫⁻ x, ENNReal.ofReal (∑ i, (noisedScore sde t t0 π x i - condScore sde (x i) t (x0 i) t0) ^ 2)
      ∂(transLaw sde t t0 x0) ∂π ≠ ∞ := by
  have hqc : ((discretise sde t t0).2.toNNReal : ℝ) = (discretise sde t t0).2 := Real.coe_toNNReal _ hQ.le
  have hcs : ∀ (x0 x : ι → ℝ) i, Score.cs (discretise sde t t0).2.toNNReal
      (fun i => (discretise sde t t0).1 * x0 i) x i = condScore sde (x i) t (x0 i) t0 := by
    intro x0 x i; rw [Score.cs, hqc]; rfl
  have h := Score.population_ne_top (π := π) (Real.toNNReal_pos.2 hQ).ne' (measurable_scale (discretise sde t t0).1)
  simp only [hcs, ← noisedScore_eq] at h
  exact h

/-- A continuous function at distance zero from the score is the score. -/
theorem eq_noisedScore (sde : SDE) {t t0 : ℝ} (hQ : 0 < (discretise sde t t0).2) (π : Measure (ι → ℝ))
    [IsProbabilityMeasure π] {s : (ι → ℝ) → ι → ℝ} (hs : Continuous s)
    (h0 : ∫⁻ x0, ∫⁻ x, ENNReal.ofReal (∑ i, (s x i - noisedScore sde t t0 π x i) ^ 2) ∂(transLaw sde t t0 x0) ∂π = 0) :
    s = noisedScore sde t t0 π := by
  have hq : (discretise sde t t0).2.toNNReal ≠ 0 := (Real.toNNReal_pos.2 hQ).ne'
  have hm : Measurable fun (x0 : ι → ℝ) i => (discretise sde t t0).1 * x0 i := measurable_scale _
  have hsc : Continuous (noisedScore sde t t0 π) := by
    rw [noisedScore_eq]; exact Score.continuous_score hq hm
  have hme : Measurable fun x => ENNReal.ofReal (∑ i, (s x i - noisedScore sde t t0 π x i) ^ 2) :=
    (Continuous.measurable (by fun_prop)).ennreal_ofReal
  rw [C38_noised_density sde hQ π hme, lintegral_eq_zero_iff (Measurable.fun_mul hme (by
    rw [noisedDens_eq]; exact (Score.continuous_mix hq hm).measurable.ennreal_ofReal))] at h0
  refine (Continuous.ae_eq_iff_eq (μ := (volume : Measure (ι → ℝ))) hs hsc).1 ?_
  filter_upwards [h0] with x hx
  rw [Pi.zero_apply, mul_eq_zero] at hx
  have hp : ENNReal.ofReal (noisedDens sde t t0 π x) ≠ 0 := by
    rw [noisedDens_eq]
    exact (ENNReal.ofReal_pos.2 (Score.mix_pos hq hm x)).ne'
  have h1 := hx.resolve_right hp
  rw [ENNReal.ofReal_eq_zero] at h1
  have h2 := le_antisymm h1 (Finset.sum_nonneg fun i _ => sq_nonneg _)
  rw [Finset.sum_eq_zero_iff_of_nonneg fun i _ => sq_nonneg _] at h2
  funext i
  have := h2 i (Finset.mem_univ i)
  rwa [pow_eq_zero_iff two_ne_zero, sub_eq_zero] at this

omit [DecidableEq ι] in
/-- The expected loss for data drawn independently from `π`. -/
theorem population_loss {sde : SDE} (hd : Defined sde) (key : Key) (π : Measure (ι → ℝ))
    [IsProbabilityMeasure π] (ts : Arr1 ℝ) (hg : GridOk sde ts.1 ts.2)
    (hQ : ∀ t ∈ ts.2, 0 < (discretise sde t ts.1).2) {s : ℝ → (ι → ℝ) → ι → ℝ} (hs : ∀ t ∈ ts.2, Measurable (s t)) :
    ∫⁻ x0s, (fwdPaths sde key x0s ts).E
        (fun paths => ENNReal.ofReal (scoreValue (n := n) sde (rowwise s) ts paths)) ∂(Measure.pi fun _ => π) =
      ∑ k ∈ Finset.range ts.2.length,
        ENNReal.ofReal ((discretise sde (timeAt ts (k + 1)) ts.1).2 / (Fintype.card ι * (ts.2.length * n))) *
        ∑ _j : Fin n, ∫⁻ x0, ∫⁻ x, ENNReal.ofReal (∑ i, (s (timeAt ts (k + 1)) x i -
          condScore sde (x i) (timeAt ts (k + 1)) (x0 i) ts.1) ^ 2)
            ∂(transLaw sde (timeAt ts (k + 1)) ts.1 x0) ∂π := by
  have hQ' : ∀ k < ts.2.length, 0 < (discretise sde (timeAt ts (k + 1)) ts.1).2 := fun k hk => hQ _ (timeAt_mem hk)
  rw [lintegral_congr fun x0s => C38_expected_loss hd key x0s ts hg hQ' hs]
  have hmi : ∀ k < ts.2.length, Measurable _ := fun k hk =>
    measurable_inner sde (hQ' k hk).le (hs _ (timeAt_mem hk))
  have hmj : ∀ k < ts.2.length, ∀ j : Fin n, Measurable fun x0s : Fin n → ι → ℝ =>
      ∫⁻ x, ENNReal.ofReal (∑ i, (s (timeAt ts (k + 1)) x i -
        condScore sde (x i) (timeAt ts (k + 1)) (x0s j i) ts.1) ^ 2)
          ∂(transLaw sde (timeAt ts (k + 1)) ts.1 (x0s j)) := fun k hk j =>
    (hmi k hk).comp (measurable_pi_apply j)
  rw [lintegral_finsetSum _ fun k hk => (Finset.measurable_sum _ fun j _ =>
    hmj k (Finset.mem_range.1 hk) j).const_mul _]
  refine Finset.sum_congr rfl fun k hk => ?_
  have hk' := Finset.mem_range.1 hk
  rw [lintegral_const_mul _ (Finset.measurable_sum _ fun j _ => hmj k hk' j),
    lintegral_finsetSum _ fun j _ => hmj k hk' j]
  congr 1
  refine Finset.sum_congr rfl fun j _ => ?_
  exact (measurePreserving_eval (fun _ : Fin n => π) j).lintegral_comp (hmi k hk')

/-- **C38, excess loss.**  The expected loss of a network exceeds that of the score of the noised data by the weighted mean
squared distance to the score. -/
theorem C38_excess {sde : SDE} (hd : Defined sde) (key : Key) (π : Measure (ι → ℝ))
    [IsProbabilityMeasure π] (ts : Arr1 ℝ) (hg : GridOk sde ts.1 ts.2)
    (hQ : ∀ t ∈ ts.2, 0 < (discretise sde t ts.1).2) {s : ℝ → (ι → ℝ) → ι → ℝ} (hs : ∀ t ∈ ts.2, Measurable (s t)) :
    ∫⁻ x0s, (fwdPaths sde key x0s ts).E
        (fun paths => ENNReal.ofReal (scoreValue (n := n) sde (rowwise s) ts paths)) ∂(Measure.pi fun _ => π) =
    ∫⁻ x0s, (fwdPaths sde key x0s ts).E (fun paths => ENNReal.ofReal
      (scoreValue (n := n) sde (rowwise fun t => noisedScore sde t ts.1 π) ts paths)) ∂(Measure.pi fun _ => π) +
    ∑ k ∈ Finset.range ts.2.length,
      ENNReal.ofReal ((discretise sde (timeAt ts (k + 1)) ts.1).2 / (Fintype.card ι * (ts.2.length * n))) *
      (n * ∫⁻ x0, ∫⁻ x, ENNReal.ofReal (∑ i, (s (timeAt ts (k + 1)) x i -
        noisedScore sde (timeAt ts (k + 1)) ts.1 π x i) ^ 2) ∂(transLaw sde (timeAt ts (k + 1)) ts.1 x0) ∂π) := by
  have hQ' : ∀ k < ts.2.length, 0 < (discretise sde (timeAt ts (k + 1)) ts.1).2 := fun k hk => hQ _ (timeAt_mem hk)
  rw [population_loss hd key π ts hg hQ hs,
    population_loss hd key π ts hg hQ fun t ht => measurable_noisedScore sde (hQ t ht) π, ← Finset.sum_add_distrib]
  refine Finset.sum_congr rfl fun k hk => ?_
  have hk' := Finset.mem_range.1 hk
  rw [denoise_excess sde (hQ' k hk') π (hs _ (timeAt_mem hk'))]
  simp only [Finset.sum_const, Finset.card_univ, Fintype.card_fin, nsmul_eq_mul]
  ring

/-- **C38, uniqueness.**  A continuous network whose expected loss is as small as possible is, at every time of the loss, the
score of the noised data. -/
theorem C38_unique [NeZero n] {sde : SDE} (hd : Defined sde) (key : Key) (π : Measure (ι → ℝ))
    [IsProbabilityMeasure π] (ts : Arr1 ℝ) (hg : GridOk sde ts.1 ts.2)
    (hQ : ∀ t ∈ ts.2, 0 < (discretise sde t ts.1).2) {s : ℝ → (ι → ℝ) → ι → ℝ} (hs : ∀ t ∈ ts.2, Continuous (s t))
    (hmin : ∀ r : ℝ → (ι → ℝ) → ι → ℝ, (∀ t ∈ ts.2, Continuous (r t)) →
      ∫⁻ x0s, (fwdPaths sde key x0s ts).E
        (fun paths => ENNReal.ofReal (scoreValue (n := n) sde (rowwise s) ts paths)) ∂(Measure.pi fun _ => π) ≤
      ∫⁻ x0s, (fwdPaths sde key x0s ts).E
        (fun paths => ENNReal.ofReal (scoreValue (n := n) sde (rowwise r) ts paths)) ∂(Measure.pi fun _ => π)) :
    ∀ t ∈ ts.2, s t = noisedScore sde t ts.1 π := by
  have hn : (n : ℝ≥0∞) ≠ 0 := by exact_mod_cast NeZero.ne n
  have hq : ∀ t ∈ ts.2, (discretise sde t ts.1).2.toNNReal ≠ 0 := fun t ht => (Real.toNNReal_pos.2 (hQ t ht)).ne'
  have hQ' : ∀ k < ts.2.length, 0 < (discretise sde (timeAt ts (k + 1)) ts.1).2 := fun k hk => hQ _ (timeAt_mem hk)
  have hfin : ∫⁻ x0s, (fwdPaths sde key x0s ts).E (fun paths => ENNReal.ofReal
      (scoreValue (n := n) sde (rowwise fun t => noisedScore sde t ts.1 π) ts paths)) ∂(Measure.pi fun _ => π) ≠ ∞ := by
    rw [population_loss hd key π ts hg hQ fun t ht => measurable_noisedScore sde (hQ t ht) π]
    refine ENNReal.sum_ne_top.2 fun k hk => ENNReal.mul_ne_top ENNReal.ofReal_ne_top (ENNReal.sum_ne_top.2 fun j _ => ?_)
    exact denoise_ne_top sde (hQ' k (Finset.mem_range.1 hk)) π
  have h1 := hmin (fun t => noisedScore sde t ts.1 π) fun t ht => by
    show Continuous (noisedScore sde t ts.1 π)
    rw [noisedScore_eq]; exact Score.continuous_score (hq t ht) (measurable_scale _)
  rw [C38_excess hd key π ts hg hQ fun t ht => (hs t ht).measurable] at h1
  have h2 : ∑ k ∈ Finset.range ts.2.length,
      ENNReal.ofReal ((discretise sde (timeAt ts (k + 1)) ts.1).2 / (Fintype.card ι * (ts.2.length * n))) *
      (n * ∫⁻ x0, ∫⁻ x, ENNReal.ofReal (∑ i, (s (timeAt ts (k + 1)) x i -
        noisedScore sde (timeAt ts (k + 1)) ts.1 π x i) ^ 2) ∂(transLaw sde (timeAt ts (k + 1)) ts.1 x0) ∂π) = 0 := by
    have h3 := ENNReal.le_of_add_le_add_left hfin (h1.trans_eq (add_zero _).symm)
    exact le_antisymm h3 bot_le
  rw [Finset.sum_eq_zero_iff] at h2
  intro t ht
  rcases isEmpty_or_nonempty ι with he | he
  · funext x i; exact he.elim i
  obtain ⟨k, hk, rfl⟩ := List.getElem_of_mem ht
  have htk : timeAt ts (k + 1) = ts.2[k] := by
    simp only [timeAt, Arr1.toList, List.getD_cons_succ]
    rw [getD_of_lt _ _ hk]
  have h3 := h2 k (Finset.mem_range.2 hk)
  rw [htk] at h3
  rcases mul_eq_zero.1 h3 with h4 | h4
  · rw [ENNReal.ofReal_eq_zero] at h4
    have h5 : (0 : ℝ) < (discretise sde ts.2[k] ts.1).2 / (Fintype.card ι * (ts.2.length * n)) := by
      have h6 : 0 < Fintype.card ι := Fintype.card_pos
      have h7 : 0 < ts.2.length := by omega
      have h8 : 0 < n := Nat.pos_of_ne_zero (NeZero.ne n)
      have := hQ _ ht
      positivity
    exact absurd h4 (not_le.2 h5)
  · exact eq_noisedScore sde (hQ _ ht) π (hs _ ht) ((mul_eq_zero.1 h4).resolve_left hn)

/-- **C81, the trained network.**  If a continuous network has the least expected loss, then at every time of the loss the
reverse drift of the image experiments with this network satisfies the Fokker–Planck equation of the reversed noising. -/
theorem C81_trained [NeZero n] {sde : SDE} (hd : Defined sde) (key : Key) (π : Measure (ι → ℝ))
    [IsProbabilityMeasure π] (ts : Arr1 ℝ) (hg : GridOk sde ts.1 ts.2)
    (hQ : ∀ t ∈ ts.2, 0 < (discretise sde t ts.1).2) {s : ℝ → (ι → ℝ) → ι → ℝ} (hs : ∀ t ∈ ts.2, Continuous (s t))
    (hmin : ∀ r : ℝ → (ι → ℝ) → ι → ℝ, (∀ t ∈ ts.2, Continuous (r t)) →
      ∫⁻ x0s, (fwdPaths sde key x0s ts).E
        (fun paths => ENNReal.ofReal (scoreValue (n := n) sde (rowwise s) ts paths)) ∂(Measure.pi fun _ => π) ≤
      ∫⁻ x0s, (fwdPaths sde key x0s ts).E
        (fun paths => ENNReal.ofReal (scoreValue (n := n) sde (rowwise r) ts paths)) ∂(Measure.pi fun _ => π))
    {T t : ℝ} (ht : T - t ∈ ts.2) (hr : RealDisp sde (T - t)) :
    FokkerPlanck (ImgSamplers.reverseDrift sde T fun x t => s t x) (fun t => dispersion sde (T - t))
      (fun t => noisedDens sde (T - t) ts.1 π) t := by
  have h := C38_unique hd key π ts hg hQ hs hmin _ ht
  have h2 := (C81_reverse hd hr (hQ _ ht) π).2.1
  intro x
  have h3 := h2 x
  simp only [ImgSamplers.reverseDrift, h] at h3 ⊢
  exact h3

end Unique

/-! ### The hypotheses can be met -/

/-- The score itself is such a network: three images of two pixels, two times. -/
example : FokkerPlanck (ImgSamplers.reverseDrift (.const (-0.5) 1) 2 fun x t =>
      noisedScore (.const (-0.5) 1) t 0 (empirical ![![0, 1], ![1, 1], ![0, 0]]) x)
    (fun t => dispersion (.const (-0.5) 1) (2 - t))
    (fun t => noisedDens (.const (-0.5) 1) (2 - t) 0 (empirical ![![0, 1], ![1, 1], ![(0 : ℝ), 0]])) 1 := by
  have hA : ∀ t, Admissible (.const (-0.5) 1) t := fun t => ⟨by norm_num, by norm_num⟩
  have hd : Defined (.const (-0.5) 1) := by norm_num [Defined]
  have hQ : ∀ t ∈ [(1 : ℝ), 2], 0 < (discretise (.const (-0.5) 1) t 0).2 := fun t ht =>
    (C29_bounds (hA t) (hA 0) (by
      simp only [List.mem_cons, List.not_mem_nil, or_false] at ht
      rcases ht with rfl | rfl <;> norm_num)).2.1
  have hg : GridOk (.const (-0.5) 1) 0 [1, 2] :=
    ⟨(hQ 1 (by simp)).le, (C29_bounds (hA 2) (hA 1) (by norm_num)).2.1.le, trivial⟩
  have hc : ∀ t ∈ [(1 : ℝ), 2], Continuous
      (noisedScore (.const (-0.5) 1) t 0 (empirical ![![0, 1], ![1, 1], ![(0 : ℝ), 0]])) := fun t ht => by
    rw [noisedScore_eq]
    exact Score.continuous_score (Real.toNNReal_pos.2 (hQ t ht)).ne' (measurable_scale _)
  refine C81_trained (n := 4) hd [] _ (0, [1, 2]) hg hQ
    (s := fun t => noisedScore (.const (-0.5) 1) t 0 (empirical ![![0, 1], ![1, 1], ![(0 : ℝ), 0]])) hc
    (fun r hr => C38_population_minimiser hd [] _ (0, [1, 2]) hg hQ fun t ht => (hr t ht).measurable) ?_ trivial
  norm_num

end Props
end Fbs
