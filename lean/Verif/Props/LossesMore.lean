import Verif.Props.Losses

/-!
# C52, C53, C54: the losses `'ipf-score'`, `'ipf'` and the memory-saving score loss
-/

open MeasureTheory ProbabilityTheory
open scoped ENNReal NNReal

namespace Fbs

namespace Spec

open Linear

variable {ι : Type} [Fintype ι]

/-- The law of `F X₀ + √Q Z`, where `X₀ ~ π` and `Z` is standard normal and independent: the data law noised by the
transition from `t0` to `t`. -/
noncomputable def noisedLaw (sde : SDE) (t t0 : ℝ) (π : Measure (ι → ℝ)) : Measure (ι → ℝ) :=
  (π.prod (Measure.pi fun _ : ι => gaussianReal 0 1)).map fun p i =>
    (discretise sde t t0).1 * p.1 i + Real.sqrt (discretise sde t t0).2 * p.2 i

/-- The mean of the state at `s` given that the state at `t` is `x`, when the state at `s` has law `ν`. -/
noncomputable def prevMean (sde : SDE) (t s : ℝ) (ν : Measure (ι → ℝ)) (x : ι → ℝ) (i : ι) : ℝ :=
  (∫ y, y i * ∏ j, gaussianPDFReal ((discretise sde t s).1 * y j) (discretise sde t s).2.toNNReal (x j) ∂ν) /
    ∫ y, ∏ j, gaussianPDFReal ((discretise sde t s).1 * y j) (discretise sde t s).2.toNNReal (x j) ∂ν

/-- A network with one time per sample that treats the samples separately. -/
def rowwiseTimes {n : ℕ} (s : ℝ → (ι → ℝ) → ι → ℝ) (xs : Fin n → ι → ℝ) (ts : Fin n → ℝ) : Fin n → ι → ℝ :=
  fun j => s (ts j) (xs j)

end Spec

namespace Props

open Linear Spec Jax Losses

section Pairs
variable {ι : Type} [Fintype ι]

theorem lintegral_transLaw {sde : SDE} {t s : ℝ} (hQ : 0 ≤ (discretise sde t s).2) (x : ι → ℝ)
    {f : (ι → ℝ) → ℝ≥0∞} (hf : Measurable f) : ∫⁻ y, f y ∂(transLaw sde t s x) =
      ∫⁻ z, f (fun i => (discretise sde t s).1 * x i + Real.sqrt (discretise sde t s).2 * z i) ∂(stdNormal ι) :=
  (lintegral_stdNormal hQ (fun i => (discretise sde t s).1 * x i) hf).symm

theorem measurable_lintegral_transLaw {sde : SDE} {t s : ℝ} (hQ : 0 ≤ (discretise sde t s).2)
    {f : (ι → ℝ) → (ι → ℝ) → ℝ≥0∞} (hf : Measurable fun p : (ι → ℝ) × (ι → ℝ) => f p.1 p.2) :
    Measurable fun x => ∫⁻ y, f x y ∂(transLaw sde t s x) := by
  have h1 : ∀ x : ι → ℝ, ∫⁻ y, f x y ∂(transLaw sde t s x) = ∫⁻ z, f x
      (fun i => (discretise sde t s).1 * x i + Real.sqrt (discretise sde t s).2 * z i) ∂(stdNormal ι) := fun x =>
    lintegral_transLaw hQ x (hf.comp (measurable_const.prodMk measurable_id))
  rw [funext h1]
  have hm : Measurable fun p : (ι → ℝ) × (ι → ℝ) => ((p.1,
      fun i => (discretise sde t s).1 * p.1 i + Real.sqrt (discretise sde t s).2 * p.2 i) : (ι → ℝ) × (ι → ℝ)) :=
    measurable_fst.prodMk (measurable_pi_iff.2 fun i => by fun_prop)
  have : SFinite (stdNormal ι) := by unfold stdNormal; infer_instance
  exact (hf.comp hm).lintegral_prod_right'

theorem lintegral_noisedLaw {sde : SDE} {t s : ℝ} (hQ : 0 ≤ (discretise sde t s).2) (π : Measure (ι → ℝ))
    [IsProbabilityMeasure π] {f : (ι → ℝ) → ℝ≥0∞} (hf : Measurable f) :
    ∫⁻ y, f y ∂(noisedLaw sde t s π) = ∫⁻ x, ∫⁻ y, f y ∂(transLaw sde t s x) ∂π := by
  have hm : Measurable fun p : (ι → ℝ) × (ι → ℝ) =>
      (fun i => (discretise sde t s).1 * p.1 i + Real.sqrt (discretise sde t s).2 * p.2 i : ι → ℝ) :=
    measurable_pi_iff.2 fun i => by fun_prop
  have hfm : Measurable fun p : (ι → ℝ) × (ι → ℝ) =>
      f fun i => (discretise sde t s).1 * p.1 i + Real.sqrt (discretise sde t s).2 * p.2 i := hf.comp hm
  rw [noisedLaw, lintegral_map hf hm, lintegral_prod _ hfm.aemeasurable]
  exact lintegral_congr fun x => (lintegral_transLaw hQ x hf).symm

instance (sde : SDE) (t s : ℝ) (π : Measure (ι → ℝ)) [IsProbabilityMeasure π] :
    IsProbabilityMeasure (noisedLaw sde t s π) :=
  Measure.isProbabilityMeasure_map (measurable_pi_iff.2 fun i => by fun_prop : Measurable _).aemeasurable

theorem chainInt_congr {sde : SDE} : ∀ (ts : List ℝ) (s : ℝ) (x : ι → ℝ) (φ ψ : List (ι → ℝ) → ℝ≥0∞),
    (∀ l, l.length = ts.length → φ l = ψ l) → chainInt sde s ts x φ = chainInt sde s ts x ψ
  | [], _, _, _, _, hh => hh [] rfl
  | t :: ts, s, x, φ, ψ, hh =>
    lintegral_congr fun y => chainInt_congr ts t y _ _ fun l hl => hh (y :: l) (by simp [hl])

theorem transLaw_self {sde : SDE} (h : Defined sde) (s : ℝ) (x : ι → ℝ) {f : (ι → ℝ) → ℝ≥0∞} (hf : Measurable f) :
    ∫⁻ y, f y ∂(transLaw sde s s x) = f x := by
  have h0 := (C26_flow h s s s).1
  rw [lintegral_transLaw (by rw [h0]) x hf, h0]
  simp

/-- The law of two consecutive states of the chain. -/
theorem chainInt_pair {sde : SDE} (h : Defined sde) : ∀ (ts : List ℝ) (s : ℝ), GridOk sde s ts →
    ∀ (k : ℕ), k < ts.length → ∀ (x : ι → ℝ) (f : (ι → ℝ) → (ι → ℝ) → ℝ≥0∞),
    (Measurable fun p : (ι → ℝ) × (ι → ℝ) => f p.1 p.2) →
    0 ≤ (discretise sde ((s :: ts).getD k 0) s).2 ∧
    0 ≤ (discretise sde ((s :: ts).getD (k + 1) 0) ((s :: ts).getD k 0)).2 ∧
    chainInt sde s ts x (fun l => f ((x :: l).getD k 0) ((x :: l).getD (k + 1) 0)) =
      ∫⁻ y, ∫⁻ z, f y z ∂(transLaw sde ((s :: ts).getD (k + 1) 0) ((s :: ts).getD k 0) y)
        ∂(transLaw sde ((s :: ts).getD k 0) s x)
  | [], _, _, k, hk, _, _, _ => by simp at hk
  | t :: ts, s, hg, 0, _, x, f, hf => by
    have h0 := (C26_flow h s s s).1
    simp only [List.getD_cons_zero, List.getD_cons_succ, chainInt, chainInt_const]
    refine ⟨by rw [h0], hg.1, ?_⟩
    rw [transLaw_self h s x (measurable_lintegral_transLaw hg.1 hf)]
  | t :: ts, s, hg, k + 1, hk, x, f, hf => by
    have ih := fun y : ι → ℝ => chainInt_pair h ts t hg.2 k (by simpa using hk) y f hf
    obtain ⟨hQ, hQ', -⟩ := ih x
    simp only [List.getD_cons_succ (x := s)]
    refine ⟨?_, hQ', ?_⟩
    · rw [(C26_flow h _ t s).2.2]
      exact add_nonneg (mul_nonneg (sq_nonneg _) hg.1) hQ
    · show ∫⁻ y, chainInt sde t ts y (fun l => f ((x :: y :: l).getD (k + 1) 0) ((x :: y :: l).getD (k + 2) 0))
        ∂(transLaw sde t s x) = _
      rw [← transLaw_comp h hQ hg.1 x (measurable_lintegral_transLaw hQ' hf)]
      exact lintegral_congr fun y => by rw [← (ih y).2.2]; rfl

theorem E_path_pairs {sde : SDE} (hd : Defined sde) (key : Key) (x0 : ι → ℝ) (ts : Arr1 ℝ) (hg : GridOk sde ts.1 ts.2)
    (f : ℕ → (ι → ℝ) → (ι → ℝ) → ℝ≥0∞)
    (hf : ∀ k < ts.2.length, Measurable fun p : (ι → ℝ) × (ι → ℝ) => f k p.1 p.2) :
    (simulatePath sde key x0 ts).E (fun p => ∑ k ∈ Finset.range ts.2.length, f k (p.getD k 0) (p.getD (k + 1) 0)) =
      ∑ k ∈ Finset.range ts.2.length, ∫⁻ y, ∫⁻ z, f k y z ∂(transLaw sde (timeAt ts (k + 1)) (timeAt ts k) y)
        ∂(transLaw sde (timeAt ts k) ts.1 x0) := by
  have hE : ∀ φ : List (ι → ℝ) → ℝ≥0∞, (simulatePath sde key x0 ts).E φ =
      ∫⁻ w, φ (x0 :: fwdScan sde x0 ts.1 ts.2 (List.ofFn w)) ∂(Measure.pi fun _ : Fin ts.2.length => stdNormal ι) := by
    intro φ
    simp only [simulatePath, normalRows, Rand.E_bind, Rand.E_map, Rand.E_sample, Rand.pure_eq, Rand.E_ret]
    rfl
  have hml : ∀ k < ts.2.length, MeasList ts.2.length fun l : List (ι → ℝ) =>
      f k ((x0 :: l).getD k 0) ((x0 :: l).getD (k + 1) 0) := by
    intro k hk
    have hc : ∀ j ≤ ts.2.length, Measurable fun p : Fin ts.2.length → ι → ℝ => (x0 :: List.ofFn p).getD j 0 := by
      intro j hj
      cases j with
      | zero => simp only [List.getD_cons_zero]; exact measurable_const
      | succ j =>
        have : (fun p : Fin ts.2.length → ι → ℝ => (x0 :: List.ofFn p).getD (j + 1) 0) = fun p => p ⟨j, hj⟩ := by
          funext p
          rw [List.getD_cons_succ, getD_of_lt _ _ (by simpa using hj)]; simp
        rw [this]; exact measurable_pi_apply _
    exact (hf k hk).comp ((hc k hk.le).prodMk (hc (k + 1) hk))
  have hmeas : ∀ k < ts.2.length, Measurable fun w : Fin ts.2.length → ι → ℝ =>
      f k ((x0 :: fwdScan sde x0 ts.1 ts.2 (List.ofFn w)).getD k 0)
        ((x0 :: fwdScan sde x0 ts.1 ts.2 (List.ofFn w)).getD (k + 1) 0) := by
    intro k hk
    have h1 := measurable_fwdScan sde ts.2 ts.1 Unit (fun _ l => f k ((x0 :: l).getD k 0) ((x0 :: l).getD (k + 1) 0))
      ((hml k hk).comp measurable_snd)
    have h2 : Measurable fun w : Fin ts.2.length → ι → ℝ => (((((), x0) : Unit × (ι → ℝ)), w) :
        (Unit × (ι → ℝ)) × (Fin ts.2.length → ι → ℝ)) := measurable_const.prodMk measurable_id
    exact h1.comp h2
  rw [hE, lintegral_finsetSum _ fun k hk => hmeas k (Finset.mem_range.1 hk)]
  refine Finset.sum_congr rfl fun k hk => ?_
  have hk' := Finset.mem_range.1 hk
  rw [lintegral_fwdScan sde ts.2 ts.1 hg x0
    (fun l => f k ((x0 :: l).getD k 0) ((x0 :: l).getD (k + 1) 0)) (hml k hk')]
  exact (chainInt_pair hd ts.2 ts.1 hg k hk' x0 (f k) (hf k hk')).2.2

/-- **C31, consecutive states.**  The states at `ts[k]`, `ts[k+1]` are the transition from `ts[0]` followed by the
transition between the two times. -/
theorem C31_pair {sde : SDE} (hd : Defined sde) (key : Key) (x0 : ι → ℝ) (ts : Arr1 ℝ) (hg : GridOk sde ts.1 ts.2)
    (k : ℕ) (hk : k < ts.2.length) {f : (ι → ℝ) → (ι → ℝ) → ℝ≥0∞}
    (hf : Measurable fun p : (ι → ℝ) × (ι → ℝ) => f p.1 p.2) :
    (simulatePath sde key x0 ts).E (fun p => f (p.getD k 0) (p.getD (k + 1) 0)) =
      ∫⁻ y, ∫⁻ z, f y z ∂(transLaw sde (ts.toList.getD (k + 1) 0) (ts.toList.getD k 0) y)
        ∂(transLaw sde (ts.toList.getD k 0) ts.1 x0) := by
  have h := E_path_pairs hd key x0 ts hg (fun j => if j = k then f else fun _ _ => 0) (by
    intro j _
    split
    · exact hf
    · exact measurable_const)
  have e : ∀ (g : ℕ → ((ι → ℝ) → (ι → ℝ) → ℝ≥0∞) → ℝ≥0∞), (∀ j, g j (fun _ _ => 0) = 0) →
      ∑ j ∈ Finset.range ts.2.length, g j (if j = k then f else fun _ _ => 0) = g k f := by
    intro g hg0
    rw [Finset.sum_eq_single_of_mem k (Finset.mem_range.2 hk) fun j _ hj => by rw [if_neg hj, hg0], if_pos rfl]
  have e1 : ∀ p : List (ι → ℝ), ∑ j ∈ Finset.range ts.2.length,
      (if j = k then f else fun _ _ => 0) (p.getD j 0) (p.getD (j + 1) 0) = f (p.getD k 0) (p.getD (k + 1) 0) :=
    fun p => e (fun j f => f (p.getD j 0) (p.getD (j + 1) 0)) fun j => rfl
  rw [Rand.E_congr _ e1] at h
  rw [h]
  exact e (fun j f => ∫⁻ y, ∫⁻ z, f y z ∂(transLaw sde (timeAt ts (j + 1)) (timeAt ts j) y)
        ∂(transLaw sde (timeAt ts j) ts.1 x0)) fun j => by simp

end Pairs

section Step
variable {ι : Type} [Fintype ι]

theorem continuous_noisedDens (sde : SDE) {t t0 : ℝ} (hQ : 0 < (discretise sde t t0).2) (π : Measure (ι → ℝ))
    [IsProbabilityMeasure π] : Continuous (noisedDens sde t t0 π) := by
  have hq : (discretise sde t t0).2.toNNReal ≠ 0 := (Real.toNNReal_pos.2 hQ).ne'
  obtain ⟨C, -, hC⟩ := Score.exists_bound (ι := ι) hq
  rw [noisedDens_eq]
  unfold Score.mix
  refine continuous_of_dominated (bound := fun _ => C)
    (fun x => (Score.integrable_dens hq (measurable_scale _) x).aestronglyMeasurable)
    (fun x => Filter.Eventually.of_forall fun a => ?_) (integrable_const C) (Filter.Eventually.of_forall fun a => ?_)
  · rw [Real.norm_of_nonneg (Score.dens_pos hq _ _).le]; exact (hC _ _).1
  · simp only [Score.dens_eq]; fun_prop

/-- Noising up to `s` and then from `s` to `t` is noising up to `t`. -/
theorem noisedDens_noisedLaw {sde : SDE} (h : Defined sde) {t s t0 : ℝ} (h1 : 0 < (discretise sde t s).2)
    (h2 : 0 ≤ (discretise sde s t0).2) (π : Measure (ι → ℝ)) [IsProbabilityMeasure π] :
    noisedDens sde t s (noisedLaw sde s t0 π) = noisedDens sde t t0 π := by
  have h3 : 0 < (discretise sde t t0).2 := by
    rw [(C26_flow h t s t0).2.2]
    exact add_pos_of_nonneg_of_pos (mul_nonneg (sq_nonneg _) h2) h1
  have hnn : ∀ {t t0 : ℝ} (π : Measure (ι → ℝ)) (x : ι → ℝ), 0 ≤ noisedDens sde t t0 π x := fun π x =>
    integral_nonneg fun _ => Finset.prod_nonneg fun _ _ => gaussianPDFReal_nonneg _ _ _
  have c1 := continuous_noisedDens sde h1 (noisedLaw sde s t0 π)
  have c2 := continuous_noisedDens sde h3 π
  have key : ∀ f : (ι → ℝ) → ℝ≥0∞, Measurable f →
      ∫⁻ x, f x * ENNReal.ofReal (noisedDens sde t s (noisedLaw sde s t0 π) x) =
      ∫⁻ x, f x * ENNReal.ofReal (noisedDens sde t t0 π x) := by
    intro f hf
    rw [← C38_noised_density sde h1 _ hf, ← C38_noised_density sde h3 π hf, lintegral_noisedLaw h2 π
      (measurable_lintegral_transLaw h1.le (f := fun _ => f) (hf.comp measurable_snd))]
    exact lintegral_congr fun x => transLaw_comp h h1.le h2 x hf
  have hae : (fun x => ENNReal.ofReal (noisedDens sde t s (noisedLaw sde s t0 π) x)) =ᵐ[volume]
      fun x => ENNReal.ofReal (noisedDens sde t t0 π x) := by
    refine ae_eq_of_forall_setLIntegral_eq_of_sigmaFinite c1.measurable.ennreal_ofReal c2.measurable.ennreal_ofReal
      fun A hA _ => ?_
    have := key (A.indicator 1) (measurable_one.indicator hA)
    rw [← lintegral_indicator hA, ← lintegral_indicator hA]
    convert this using 1 <;>
    · refine lintegral_congr fun x => ?_
      by_cases hx : x ∈ A <;> simp [hx]
  refine (Continuous.ae_eq_iff_eq volume c1 c2).1 (hae.mono fun x hx => ?_)
  exact (ENNReal.ofReal_eq_ofReal_iff (hnn _ _) (hnn _ _)).1 hx

/-- The score after two steps. -/
theorem noisedScore_noisedLaw [DecidableEq ι] {sde : SDE} (h : Defined sde) {t s t0 : ℝ}
    (h1 : 0 < (discretise sde t s).2) (h2 : 0 ≤ (discretise sde s t0).2) (π : Measure (ι → ℝ))
    [IsProbabilityMeasure π] :
    noisedScore sde t s (noisedLaw sde s t0 π) = noisedScore sde t t0 π := by
  funext x i
  rw [noisedScore, noisedScore, noisedDens_noisedLaw h h1 h2]

/-- **C53, Tweedie.**  The mean of the earlier state given the later one, in terms of the score. -/
theorem C53_tweedie [DecidableEq ι] (sde : SDE) {t s : ℝ} (hQ : 0 < (discretise sde t s).2)
    (hF : (discretise sde t s).1 ≠ 0) (ν : Measure (ι → ℝ)) [IsProbabilityMeasure ν] (x : ι → ℝ) (i : ι) :
    (discretise sde t s).1 * prevMean sde t s ν x i = x i + (discretise sde t s).2 * noisedScore sde t s ν x i := by
  have hq : (discretise sde t s).2.toNNReal ≠ 0 := (Real.toNNReal_pos.2 hQ).ne'
  have hqc : ((discretise sde t s).2.toNNReal : ℝ) = (discretise sde t s).2 := Real.coe_toNNReal _ hQ.le
  have hm : Measurable fun (x0 : ι → ℝ) i => (discretise sde t s).1 * x0 i := measurable_scale _
  have hp := Score.mix_pos (π := ν) hq hm x
  rw [noisedScore_eq, Score.score_eq hq hm]
  have e : prevMean sde t s ν x i = (∫ y, y i * Score.dens (discretise sde t s).2.toNNReal
      (fun j => (discretise sde t s).1 * y j) x ∂ν) / Score.mix ν (discretise sde t s).2.toNNReal
        (fun x0 i => (discretise sde t s).1 * x0 i) x := rfl
  have e2 : ∀ y : ι → ℝ, y i * Score.dens (discretise sde t s).2.toNNReal (fun j => (discretise sde t s).1 * y j) x =
      (discretise sde t s).1⁻¹ * (x i * Score.dens (discretise sde t s).2.toNNReal
        (fun j => (discretise sde t s).1 * y j) x + (discretise sde t s).2 *
          (Score.cs (discretise sde t s).2.toNNReal (fun j => (discretise sde t s).1 * y j) x i *
          Score.dens (discretise sde t s).2.toNNReal (fun j => (discretise sde t s).1 * y j) x)) := by
    intro y
    have : Score.cs (discretise sde t s).2.toNNReal (fun j => (discretise sde t s).1 * y j) x i =
        -(x i - (discretise sde t s).1 * y i) / (discretise sde t s).2 := by rw [Score.cs, hqc]
    rw [this]
    have := hQ.ne'
    field_simp
    ring
  rw [e, integral_congr_ae (Filter.Eventually.of_forall e2), integral_const_mul, integral_add
    ((Score.integrable_dens hq hm x).const_mul _) ((Score.integrable_cs hq hm x i).const_mul _), integral_const_mul,
    integral_const_mul]
  have hmix : (∫ y, Score.dens (discretise sde t s).2.toNNReal (fun j => (discretise sde t s).1 * y j) x ∂ν) =
    Score.mix ν (discretise sde t s).2.toNNReal (fun x0 i => (discretise sde t s).1 * x0 i) x := rfl
  rw [hmix]
  have := hp.ne'
  field_simp

end Step

section PairLoss
variable {ι : Type} [Fintype ι] {n : ℕ}

theorem pair_vars {sde : SDE} (hd : Defined sde) (ts : Arr1 ℝ) (hg : GridOk sde ts.1 ts.2) {k : ℕ}
    (hk : k < ts.2.length) : 0 ≤ (discretise sde (timeAt ts k) ts.1).2 ∧
      0 ≤ (discretise sde (timeAt ts (k + 1)) (timeAt ts k)).2 := by
  obtain ⟨h1, h2, -⟩ := chainInt_pair hd ts.2 ts.1 hg k hk (0 : Fin 0 → ℝ) (fun _ _ => 0) measurable_const
  exact ⟨h1, h2⟩

theorem E_fwdPaths_pairs {sde : SDE} (hd : Defined sde) (key : Key) (x0s : Fin n → ι → ℝ) (ts : Arr1 ℝ)
    (hg : GridOk sde ts.1 ts.2) (f : ℕ → (ι → ℝ) → (ι → ℝ) → ℝ≥0∞)
    (hf : ∀ k < ts.2.length, Measurable fun p : (ι → ℝ) × (ι → ℝ) => f k p.1 p.2) :
    (fwdPaths sde key x0s ts).E (fun paths =>
      ∑ j, ∑ k ∈ Finset.range ts.2.length, f k ((paths j).getD k 0) ((paths j).getD (k + 1) 0)) =
      ∑ k ∈ Finset.range ts.2.length, ∑ j, ∫⁻ y, ∫⁻ z, f k y z ∂(transLaw sde (timeAt ts (k + 1)) (timeAt ts k) y)
          ∂(transLaw sde (timeAt ts k) ts.1 (x0s j)) := by
  rw [fwdPaths, E_vmapR_sum (fun j => isProb_simulatePath sde _ _ ts)
    (fun _ p => ∑ k ∈ Finset.range ts.2.length, f k (p.getD k 0) (p.getD (k + 1) 0))]
  rw [Finset.sum_congr rfl fun (j : Fin n) _ => E_path_pairs hd (split key n j) (x0s j) ts hg f hf, Finset.sum_comm]

theorem meanCols_expected {sde : SDE} (hd : Defined sde) (key : Key) (x0s : Fin n → ι → ℝ) (ts : Arr1 ℝ)
    (hg : GridOk sde ts.1 ts.2) (h : ℕ → (ι → ℝ) → (ι → ℝ) → ι → ℝ)
    (hh : ∀ k < ts.2.length, Measurable fun p : (ι → ℝ) × (ι → ℝ) => h k p.1 p.2) :
    (fwdPaths sde key x0s ts).E (fun paths => ENNReal.ofReal (meanCols ts.2.length fun k j =>
      Dsb.mean fun i => h k (slice paths k j) (slice paths (k + 1) j) i ^ 2)) =
      ∑ k ∈ Finset.range ts.2.length, ENNReal.ofReal (1 / (Fintype.card ι * (ts.2.length * n))) *
        ∑ j, ∫⁻ y, ∫⁻ z, ENNReal.ofReal (∑ i, h k y z i ^ 2) ∂(transLaw sde (timeAt ts (k + 1)) (timeAt ts k) y)
          ∂(transLaw sde (timeAt ts k) ts.1 (x0s j)) := by
  set c : ℝ := 1 / (Fintype.card ι * (ts.2.length * n)) with hc
  have hcn : 0 ≤ c := by positivity
  have hsum : ∀ (k : ℕ) (y z : ι → ℝ), 0 ≤ ∑ i, h k y z i ^ 2 := fun k y z => Finset.sum_nonneg fun i _ => sq_nonneg _
  have hm0 : ∀ k < ts.2.length, Measurable fun p : (ι → ℝ) × (ι → ℝ) => ENNReal.ofReal (∑ i, h k p.1 p.2 i ^ 2) :=
    fun k hk => (Finset.measurable_sum _ fun i _ =>
      ((measurable_pi_apply i).comp (hh k hk)).pow_const 2).ennreal_ofReal
  have hval : ∀ paths : Fin n → List (ι → ℝ), ENNReal.ofReal (meanCols ts.2.length fun k j =>
      Dsb.mean fun i => h k (slice paths k j) (slice paths (k + 1) j) i ^ 2) =
      ∑ j, ∑ k ∈ Finset.range ts.2.length, ENNReal.ofReal c *
        ENNReal.ofReal (∑ i, h k ((paths j).getD k 0) ((paths j).getD (k + 1) 0) i ^ 2) := by
    intro paths
    have e : (meanCols ts.2.length fun k j => Dsb.mean fun i => h k (slice paths k j) (slice paths (k + 1) j) i ^ 2) =
        ∑ j, ∑ k ∈ Finset.range ts.2.length, c * ∑ i, h k ((paths j).getD k 0) ((paths j).getD (k + 1) 0) i ^ 2 := by
      rw [meanCols, Finset.sum_comm, Finset.sum_div]
      refine Finset.sum_congr rfl fun j _ => ?_
      rw [Finset.sum_div]
      refine Finset.sum_congr rfl fun k _ => ?_
      simp only [Dsb.mean, slice, hc]
      rw [div_div, one_div, div_eq_mul_inv, mul_comm, mul_comm (Fintype.card ι : ℝ)]
    rw [e, ENNReal.ofReal_sum_of_nonneg fun j _ => Finset.sum_nonneg fun k _ => mul_nonneg hcn (hsum ..)]
    refine Finset.sum_congr rfl fun j _ => ?_
    rw [ENNReal.ofReal_sum_of_nonneg fun k _ => mul_nonneg hcn (hsum ..)]
    exact Finset.sum_congr rfl fun k _ => ENNReal.ofReal_mul hcn
  rw [Rand.E_congr _ hval, E_fwdPaths_pairs hd key x0s ts hg
    (fun k y z => ENNReal.ofReal c * ENNReal.ofReal (∑ i, h k y z i ^ 2)) fun k hk => (hm0 k hk).const_mul _]
  refine Finset.sum_congr rfl fun k hk => ?_
  have hk' := Finset.mem_range.1 hk
  rw [Finset.mul_sum]
  refine Finset.sum_congr rfl fun j _ => ?_
  have hQ' := (pair_vars hd ts hg hk').2
  have hm1 : Measurable fun y : ι → ℝ => ∫⁻ z, ENNReal.ofReal (∑ i, h k y z i ^ 2)
      ∂(transLaw sde (timeAt ts (k + 1)) (timeAt ts k) y) :=
    measurable_lintegral_transLaw (f := fun y z => ENNReal.ofReal (∑ i, h k y z i ^ 2)) hQ' (hm0 k hk')
  rw [← lintegral_const_mul _ hm1]
  exact lintegral_congr fun y => lintegral_const_mul' _ _ ENNReal.ofReal_ne_top

theorem meanCols_population {sde : SDE} (hd : Defined sde) (key : Key) (π : Measure (ι → ℝ))
    [IsProbabilityMeasure π] (ts : Arr1 ℝ) (hg : GridOk sde ts.1 ts.2) (h : ℕ → (ι → ℝ) → (ι → ℝ) → ι → ℝ)
    (hh : ∀ k < ts.2.length, Measurable fun p : (ι → ℝ) × (ι → ℝ) => h k p.1 p.2) :
    ∫⁻ x0s, (fwdPaths sde key x0s ts).E (fun paths => ENNReal.ofReal (meanCols (n := n) ts.2.length fun k j =>
      Dsb.mean fun i => h k (slice paths k j) (slice paths (k + 1) j) i ^ 2)) ∂(Measure.pi fun _ => π) =
      ∑ k ∈ Finset.range ts.2.length, ENNReal.ofReal (1 / (Fintype.card ι * (ts.2.length * n))) *
        ∑ _j : Fin n, ∫⁻ y, ∫⁻ z, ENNReal.ofReal (∑ i, h k y z i ^ 2)
          ∂(transLaw sde (timeAt ts (k + 1)) (timeAt ts k) y) ∂(noisedLaw sde (timeAt ts k) ts.1 π) := by
  rw [lintegral_congr fun x0s => meanCols_expected hd key x0s ts hg h hh]
  have hm0 : ∀ k < ts.2.length, Measurable fun p : (ι → ℝ) × (ι → ℝ) => ENNReal.ofReal (∑ i, h k p.1 p.2 i ^ 2) :=
    fun k hk => (Finset.measurable_sum _ fun i _ =>
      ((measurable_pi_apply i).comp (hh k hk)).pow_const 2).ennreal_ofReal
  have hQs := fun k (hk : k < ts.2.length) => pair_vars hd ts hg hk
  have hm1 : ∀ k < ts.2.length, Measurable fun y : ι → ℝ => ∫⁻ z, ENNReal.ofReal (∑ i, h k y z i ^ 2)
      ∂(transLaw sde (timeAt ts (k + 1)) (timeAt ts k) y) := fun k hk =>
    measurable_lintegral_transLaw (f := fun y z => ENNReal.ofReal (∑ i, h k y z i ^ 2)) (hQs k hk).2 (hm0 k hk)
  have hmi : ∀ k < ts.2.length, Measurable fun x0 : ι → ℝ => ∫⁻ y, ∫⁻ z, ENNReal.ofReal (∑ i, h k y z i ^ 2)
      ∂(transLaw sde (timeAt ts (k + 1)) (timeAt ts k) y) ∂(transLaw sde (timeAt ts k) ts.1 x0) := fun k hk =>
    measurable_lintegral_transLaw (f := fun _ y => ∫⁻ z, ENNReal.ofReal (∑ i, h k y z i ^ 2)
      ∂(transLaw sde (timeAt ts (k + 1)) (timeAt ts k) y)) (hQs k hk).1 ((hm1 k hk).comp measurable_snd)
  have hmj : ∀ k < ts.2.length, ∀ j : Fin n, Measurable fun x0s : Fin n → ι → ℝ =>
      ∫⁻ y, ∫⁻ z, ENNReal.ofReal (∑ i, h k y z i ^ 2)
      ∂(transLaw sde (timeAt ts (k + 1)) (timeAt ts k) y) ∂(transLaw sde (timeAt ts k) ts.1 (x0s j)) := fun k hk j =>
    (hmi k hk).comp (measurable_pi_apply j)
  rw [lintegral_finsetSum _ fun k hk => (Finset.measurable_sum _ fun j _ =>
    hmj k (Finset.mem_range.1 hk) j).const_mul _]
  refine Finset.sum_congr rfl fun k hk => ?_
  have hk' := Finset.mem_range.1 hk
  rw [lintegral_const_mul _ (Finset.measurable_sum _ fun j _ => hmj k hk' j),
    lintegral_finsetSum _ fun j _ => hmj k hk' j]
  congr 1
  refine Finset.sum_congr rfl fun j _ => ?_
  rw [lintegral_noisedLaw (hQs k hk').1 π (hm1 k hk')]
  exact (measurePreserving_eval (fun _ : Fin n => π) j).lintegral_comp (hmi k hk')

variable [DecidableEq ι]

/-- **C52.**  With the data drawn independently from `π`, no measurable network has a smaller expected `'ipf-score'`
loss at given increasing times than the score of the noised data law, although the loss only looks one step back. -/
theorem C52_population_minimiser {sde : SDE} (hd : Defined sde) (key : Key) (π : Measure (ι → ℝ))
    [IsProbabilityMeasure π] (ts : Arr1 ℝ) (hg : GridOk sde ts.1 ts.2)
    (hQ : ∀ k < ts.2.length, 0 < (discretise sde (ts.toList.getD (k + 1) 0) (ts.toList.getD k 0)).2)
    {s : ℝ → (ι → ℝ) → ι → ℝ} (hs : ∀ t ∈ ts.2, Measurable (s t)) :
    ∫⁻ x0s, (fwdPaths sde key x0s ts).E (fun paths => ENNReal.ofReal
      (ipfScoreValue (n := n) sde (rowwise fun t => noisedScore sde t ts.1 π) ts paths)) ∂(Measure.pi fun _ => π) ≤
    ∫⁻ x0s, (fwdPaths sde key x0s ts).E
      (fun paths => ENNReal.ofReal (ipfScoreValue (n := n) sde (rowwise s) ts paths)) ∂(Measure.pi fun _ => π) := by
  have hQs := fun k (hk : k < ts.2.length) => pair_vars hd ts hg hk
  have hpos : ∀ t ∈ ts.2, 0 < (discretise sde t ts.1).2 := by
    intro t ht
    obtain ⟨k, hk, rfl⟩ := List.getElem_of_mem ht
    have h1 := hQ k hk
    have h2 : ts.toList.getD (k + 1) 0 = ts.2[k] := by
      simp [Arr1.toList, hk]
    rw [← h2, (C26_flow hd _ (ts.toList.getD k 0) ts.1).2.2]
    exact add_pos_of_nonneg_of_pos (mul_nonneg (sq_nonneg _) (hQs k hk).1) h1
  have hform : ∀ {s : ℝ → (ι → ℝ) → ι → ℝ}, (∀ t ∈ ts.2, Measurable (s t)) →
      ∀ k < ts.2.length, Measurable fun p : (ι → ℝ) × (ι → ℝ) => (fun i => s (timeAt ts (k + 1)) p.2 i -
        condScore sde (p.2 i) (timeAt ts (k + 1)) (p.1 i) (timeAt ts k) : ι → ℝ) := by
    intro s hs k hk
    refine measurable_pi_iff.2 fun i => ?_
    refine ((measurable_pi_apply i).comp ((hs _ (timeAt_mem hk)).comp measurable_snd)).sub ?_
    unfold condScore; fun_prop
  have hs' : ∀ t ∈ ts.2, Measurable (noisedScore sde t ts.1 π) := fun t ht => measurable_noisedScore sde (hpos t ht) π
  have e1 := meanCols_population (n := n) hd key π ts hg (fun k y z i => s (timeAt ts (k + 1)) z i -
        condScore sde (z i) (timeAt ts (k + 1)) (y i) (timeAt ts k)) (hform hs)
  have e2 := meanCols_population (n := n) hd key π ts hg (fun k y z i => noisedScore sde (timeAt ts (k + 1)) ts.1 π z i -
        condScore sde (z i) (timeAt ts (k + 1)) (y i) (timeAt ts k)) (hform hs')
  refine (e2.le.trans (Finset.sum_le_sum fun k hk => mul_le_mul_right (Finset.sum_le_sum fun j _ => ?_) _)).trans e1.ge
  have hk' := Finset.mem_range.1 hk
  rw [← noisedScore_noisedLaw (t := timeAt ts (k + 1)) (s := timeAt ts k) hd (hQ k hk') (hQs k hk').1 π]
  exact denoise_min sde (hQ k hk') _ (hs _ (timeAt_mem hk'))

/-- **C53.**  The expected `'ipf'` loss at given increasing times is minimised, among all measurable networks, by
`x ↦ x + F E[X_k | X_{k+1} = x] - F x`, where `F` is the transition coefficient between the two times. -/
theorem C53_population_minimiser {sde : SDE} (hd : Defined sde) (key : Key) (π : Measure (ι → ℝ))
    [IsProbabilityMeasure π] (ts : Arr1 ℝ) (hg : GridOk sde ts.1 ts.2)
    (hQ : ∀ k < ts.2.length, 0 < (discretise sde (ts.toList.getD (k + 1) 0) (ts.toList.getD k 0)).2)
    {m : ℝ → (ι → ℝ) → ι → ℝ} (hm : ∀ k < ts.2.length, ∀ x i, m (ts.toList.getD (k + 1) 0) x i =
      let F := (discretise sde (ts.toList.getD (k + 1) 0) (ts.toList.getD k 0)).1
      x i + F * prevMean sde (ts.toList.getD (k + 1) 0) (ts.toList.getD k 0)
        (noisedLaw sde (ts.toList.getD k 0) ts.1 π) x i - F * x i)
    {s : ℝ → (ι → ℝ) → ι → ℝ} (hs : ∀ t ∈ ts.2, Measurable (s t)) :
    ∫⁻ x0s, (fwdPaths sde key x0s ts).E (fun paths => ENNReal.ofReal
      (ipfValue (n := n) sde (rowwise m) ts paths)) ∂(Measure.pi fun _ => π) ≤
    ∫⁻ x0s, (fwdPaths sde key x0s ts).E
      (fun paths => ENNReal.ofReal (ipfValue (n := n) sde (rowwise s) ts paths)) ∂(Measure.pi fun _ => π) := by
  have hQs := fun k (hk : k < ts.2.length) => pair_vars hd ts hg hk
  set F : ℕ → ℝ := fun k => (discretise sde (timeAt ts (k + 1)) (timeAt ts k)).1 with hFd
  set Q : ℕ → ℝ := fun k => (discretise sde (timeAt ts (k + 1)) (timeAt ts k)).2 with hQd
  have hF : ∀ k, F k ≠ 0 := fun k => by rw [hFd]; simp only [F_eq]; exact (Real.exp_pos _).ne'
  set ν : ℕ → Measure (ι → ℝ) := fun k => noisedLaw sde (timeAt ts k) ts.1 π with hν
  have hm' : ∀ k < ts.2.length, ∀ x i, m (timeAt ts (k + 1)) x i =
      2 * x i - F k * x i + Q k * noisedScore sde (timeAt ts (k + 1)) (timeAt ts k) (ν k) x i := by
    intro k hk x i
    have h1 := C53_tweedie sde (hQ k hk) (hF k) (ν k) x i
    have h2 := hm k hk x i
    have h3 : m (timeAt ts (k + 1)) x i = x i + F k * prevMean sde (timeAt ts (k + 1)) (timeAt ts k) (ν k) x i
        - F k * x i := h2
    have h4 : F k * prevMean sde (timeAt ts (k + 1)) (timeAt ts k) (ν k) x i =
        x i + Q k * noisedScore sde (timeAt ts (k + 1)) (timeAt ts k) (ν k) x i := h1
    rw [h3, h4]
    ring
  have hQk : ∀ k < ts.2.length, 0 < Q k := hQ
  have hmm : ∀ k < ts.2.length, Measurable (m (timeAt ts (k + 1))) := by
    intro k hk
    refine measurable_pi_iff.2 fun i => ?_
    rw [funext fun x => hm' k hk x i]
    have h1 := (measurable_pi_apply i).comp (measurable_noisedScore sde (hQ k hk) (ν k))
    exact (((measurable_pi_apply i).const_mul 2).sub ((measurable_pi_apply i).const_mul _)).add (h1.const_mul _)
  have hform : ∀ {s : ℝ → (ι → ℝ) → ι → ℝ}, (∀ k < ts.2.length, Measurable (s (timeAt ts (k + 1)))) →
      ∀ k < ts.2.length, Measurable fun p : (ι → ℝ) × (ι → ℝ) => (fun i => s (timeAt ts (k + 1)) p.2 i -
        (p.2 i + F k * p.1 i - F k * p.2 i) : ι → ℝ) := by
    intro s hs k hk
    refine measurable_pi_iff.2 fun i => ?_
    exact ((measurable_pi_apply i).comp ((hs _ hk).comp measurable_snd)).sub (by fun_prop)
  have e1 := meanCols_population (n := n) hd key π ts hg (fun k y z i => s (timeAt ts (k + 1)) z i -
        (z i + F k * y i - F k * z i)) (hform fun k hk => hs _ (timeAt_mem hk))
  have e2 := meanCols_population (n := n) hd key π ts hg (fun k y z i => m (timeAt ts (k + 1)) z i -
        (z i + F k * y i - F k * z i)) (hform hmm)
  refine (e2.le.trans (Finset.sum_le_sum fun k hk => mul_le_mul_right (Finset.sum_le_sum fun j _ => ?_) _)).trans e1.ge
  have hk' := Finset.mem_range.1 hk
  have hk0 := (hQk k hk').ne'
  -- both losses are `Q ^ 2` times the denoising loss of an affine image of the network
  have hsq : ∀ (s : (ι → ℝ) → ι → ℝ) (y z : ι → ℝ), ENNReal.ofReal (∑ i, (s z i - (z i + F k * y i - F k * z i)) ^ 2) =
      ENNReal.ofReal (Q k ^ 2) * ENNReal.ofReal (∑ i, ((s z i - 2 * z i + F k * z i) / Q k -
        condScore sde (z i) (timeAt ts (k + 1)) (y i) (timeAt ts k)) ^ 2) := by
    intro s y z
    rw [← ENNReal.ofReal_mul (sq_nonneg _), Finset.mul_sum]
    congr 1
    refine Finset.sum_congr rfl fun i _ => ?_
    have : condScore sde (z i) (timeAt ts (k + 1)) (y i) (timeAt ts k) = -(z i - F k * y i) / Q k := rfl
    rw [this]
    field_simp
    ring
  have hmeas : ∀ {s : (ι → ℝ) → ι → ℝ}, Measurable s → Measurable fun z i => (s z i - 2 * z i + F k * z i) / Q k := by
    intro s hs
    refine measurable_pi_iff.2 fun i => ?_
    have h1 : Measurable fun z => s z i := (measurable_pi_apply i).comp hs
    exact (((h1.sub ((measurable_pi_apply i).const_mul 2)).add ((measurable_pi_apply i).const_mul _)).div_const _)
  have hscale : ∀ {s : (ι → ℝ) → ι → ℝ}, Measurable s →
      ∫⁻ y, ∫⁻ z, ENNReal.ofReal (∑ i, (s z i - (z i + F k * y i - F k * z i)) ^ 2)
        ∂(transLaw sde (timeAt ts (k + 1)) (timeAt ts k) y) ∂(ν k) =
      ENNReal.ofReal (Q k ^ 2) * ∫⁻ y, ∫⁻ z, ENNReal.ofReal (∑ i, ((s z i - 2 * z i + F k * z i) / Q k -
        condScore sde (z i) (timeAt ts (k + 1)) (y i) (timeAt ts k)) ^ 2)
        ∂(transLaw sde (timeAt ts (k + 1)) (timeAt ts k) y) ∂(ν k) := by
    intro s hs
    rw [← lintegral_const_mul _ (measurable_inner sde (hQk k hk').le (hmeas hs))]
    refine lintegral_congr fun y => ?_
    rw [lintegral_congr fun z => hsq s y z, lintegral_const_mul']
    exact ENNReal.ofReal_ne_top
  rw [hscale (hmm k hk'), hscale (hs _ (timeAt_mem hk'))]
  refine mul_le_mul_right ?_ _
  have hsc : ∀ z i, (m (timeAt ts (k + 1)) z i - 2 * z i + F k * z i) / Q k =
      noisedScore sde (timeAt ts (k + 1)) (timeAt ts k) (ν k) z i := by
    intro z i
    rw [hm' k hk' z i]
    field_simp
    ring
  simp only [hsc]
  exact denoise_min sde (hQ k hk') _ (hmeas (hs _ (timeAt_mem hk')))

end PairLoss

section SaveMem
variable {ι : Type} [Fintype ι] {n : ℕ}

/-- **C54, times.**  The memory-saving loss uses one time per sample; they increase, lie in `(t0, T]` and end with
`T`. -/
theorem C54_times {key : Key} {t0 T : ℝ} (hn : n ≠ 0) (hT : t0 + eps ≤ T) (random : Bool) {tl : List ℝ}
    (h : (saveMemTimes key t0 T n random).Returns tl) :
    tl.length = n ∧ tl.Pairwise (· ≤ ·) ∧ tl.getLast? = some T ∧ ∀ t ∈ tl, t0 < t ∧ t ≤ T := by
  have he : 0 < eps := by norm_num [eps]
  cases random with
  | true =>
    have h' : (times key (t0 + eps) t0 T n true).Returns (t0, tl) := by
      simp only [saveMemTimes, times, if_true, Rand.returns_map] at h ⊢
      obtain ⟨u, hu, rfl⟩ := h
      exact ⟨u, hu, rfl⟩
    obtain ⟨-, b, b2, c, d⟩ := C38_random_times hn hT h'
    exact ⟨b, c, b2, fun t ht => ⟨by linarith [(d t ht).1], (d t ht).2⟩⟩
  | false =>
    simp only [saveMemTimes, Bool.false_eq_true, if_false, Rand.pure_eq, Rand.returns_ret] at h
    subst h
    have hTt : 0 < T - t0 := by linarith
    have hn' : (0 : ℝ) < n := by positivity
    have hd := div_pos hTt hn'
    have hstep : ∀ i < n, t0 + (T - t0) / n + (i : ℝ) * ((T - (t0 + (T - t0) / n)) / ((n - 1 : ℕ) : ℝ)) =
        t0 + ((i : ℝ) + 1) * ((T - t0) / n) := by
      intro i hi
      rcases Nat.lt_or_ge 1 n with h1 | h1
      · have : ((n - 1 : ℕ) : ℝ) = n - 1 := by push_cast [Nat.cast_sub h1.le]; ring
        have h2 : (n : ℝ) - 1 ≠ 0 := by
          have : (1 : ℝ) < n := by exact_mod_cast h1
          linarith
        rw [this]
        field_simp
        ring
      · have : i = 0 := by omega
        subst this; simp
    have hl : Simulators.linspace (t0 + (T - t0) / n) T n =
        (List.range n).map fun i : ℕ => t0 + ((i : ℝ) + 1) * ((T - t0) / n) := by
      rw [Simulators.linspace]
      exact List.map_congr_left fun i hi => hstep i (List.mem_range.1 hi)
    rw [hl]
    refine ⟨by simp, ?_, ?_, ?_⟩
    · rw [List.pairwise_map]
      refine List.Pairwise.imp ?_ (List.pairwise_lt_range (n := n))
      intro a b hab
      have : (a : ℝ) ≤ b := by exact_mod_cast hab.le
      have := mul_le_mul_of_nonneg_right this hd.le
      linarith
    · obtain ⟨m, rfl⟩ := Nat.exists_eq_succ_of_ne_zero hn
      simp only [List.range_succ, List.map_append, List.map_cons, List.map_nil, List.getLast?_concat, Option.some.injEq]
      push_cast
      field_simp
      ring
    · intro t ht
      simp only [List.mem_map, List.mem_range] at ht
      obtain ⟨i, hi, rfl⟩ := ht
      refine ⟨by have : 0 < ((i : ℝ) + 1) * ((T - t0) / n) := by positivity
                 linarith, ?_⟩
      have : (i : ℝ) + 1 ≤ n := by exact_mod_cast hi
      have h2 := mul_le_mul_of_nonneg_right this hd.le
      rw [mul_div_cancel₀ _ hn'.ne'] at h2
      linarith

theorem isProb_simulateMarginal (sde : SDE) (key : Key) (x0 : ι → ℝ) (t t0 : ℝ) :
    (simulateMarginal sde key x0 t (some t0)).IsProb := by
  unfold simulateMarginal
  show (Rand.sample key Set.univ (stdNormal ι) >>= _).IsProb
  exact Rand.IsProb.bind ⟨by unfold stdNormal; infer_instance, fun _ => trivial⟩ fun _ => trivial

/-- **C54, expected loss.**  Given the times, the expectation of the memory-saving loss over the draws: sample `j` is
noised from `t0` to its own time `ts[j]`. -/
theorem C54_expected_loss {sde : SDE} (key : Key) (x0s : Fin n → ι → ℝ) (t0 : ℝ) (ts : Fin n → ℝ)
    (hQ : ∀ j, 0 ≤ (discretise sde (ts j) t0).2) {s : ℝ → (ι → ℝ) → ι → ℝ} (hs : ∀ j, Measurable (s (ts j))) :
    (saveMemStates sde key x0s t0 ts).E (fun xs => ENNReal.ofReal
      (saveMemValue sde (rowwiseTimes s) t0 x0s ts fun j => (xs j).toOption.getD 0)) =
      ∑ j, ENNReal.ofReal ((discretise sde (ts j) t0).2 / (Fintype.card ι * n)) *
        ∫⁻ x, ENNReal.ofReal (∑ i, (s (ts j) x i - condScore sde (x i) (ts j) (x0s j i) t0) ^ 2)
          ∂(transLaw sde (ts j) t0 (x0s j)) := by
  set c : Fin n → ℝ := fun j => (discretise sde (ts j) t0).2 / (Fintype.card ι * n) with hc
  have hcn : ∀ j, 0 ≤ c j := fun j => div_nonneg (hQ j) (by positivity)
  set g : Fin n → (ι → ℝ) → ℝ≥0∞ := fun j x => ENNReal.ofReal (c j) *
    ENNReal.ofReal (∑ i, (s (ts j) x i - condScore sde (x i) (ts j) (x0s j i) t0) ^ 2) with hg
  have hgm0 : ∀ j, Measurable fun x : ι → ℝ =>
      ENNReal.ofReal (∑ i, (s (ts j) x i - condScore sde (x i) (ts j) (x0s j i) t0) ^ 2) := by
    intro j
    refine (Finset.measurable_sum _ fun i _ => Measurable.pow_const ?_ 2).ennreal_ofReal
    refine ((measurable_pi_apply i).comp (hs j)).sub ?_
    unfold condScore; fun_prop
  have hgm : ∀ j, Measurable (g j) := fun j => (hgm0 j).const_mul _
  have hval : ∀ xs : Fin n → Except String (ι → ℝ), ENNReal.ofReal
      (saveMemValue sde (rowwiseTimes s) t0 x0s ts fun j => (xs j).toOption.getD 0) =
      ∑ j, g j ((xs j).toOption.getD 0) := by
    intro xs
    have e : saveMemValue sde (rowwiseTimes s) t0 x0s ts (fun j => (xs j).toOption.getD 0) =
        ∑ j, c j * ∑ i, (s (ts j) ((xs j).toOption.getD 0) i -
          condScore sde ((xs j).toOption.getD 0 i) (ts j) (x0s j i) t0) ^ 2 := by
      rw [saveMemValue, Finset.sum_div]
      refine Finset.sum_congr rfl fun j _ => ?_
      simp only [Dsb.mean, rowwiseTimes, hc]
      rw [div_mul_eq_mul_div, div_div, mul_comm (Finset.sum _ _), mul_div_right_comm]
    rw [e, ENNReal.ofReal_sum_of_nonneg fun j _ => mul_nonneg (hcn j) (Finset.sum_nonneg fun i _ => sq_nonneg _)]
    exact Finset.sum_congr rfl fun j _ => ENNReal.ofReal_mul (hcn j)
  rw [Rand.E_congr _ hval, saveMemStates, E_vmapR_sum (fun j => isProb_simulateMarginal sde _ _ _ t0)
    (fun j x => g j (x.toOption.getD 0))]
  refine Finset.sum_congr rfl fun j _ => ?_
  rw [← lintegral_const_mul _ (hgm0 j)]
  rw [← C31_single sde (split key n j) (x0s j) (ts j) t0 (hQ j) (hgm j)]
  simp only [simulateMarginal, Jax.normal, Rand.E_bind, Rand.E_sample, Rand.pure_eq, Rand.E_ret, Except.toOption,
    Option.elim, Option.getD_some]

variable [DecidableEq ι]

/-- **C54.**  With the data drawn independently from `π`, no measurable network has a smaller expected loss at given
times than the score of the noised data law. -/
theorem C54_population_minimiser {sde : SDE} (key : Key) (π : Measure (ι → ℝ)) [IsProbabilityMeasure π] (t0 : ℝ)
    (ts : Fin n → ℝ) (hQ : ∀ j, 0 < (discretise sde (ts j) t0).2) {s : ℝ → (ι → ℝ) → ι → ℝ}
    (hs : ∀ j, Measurable (s (ts j))) :
    ∫⁻ x0s, (saveMemStates sde key x0s t0 ts).E (fun xs => ENNReal.ofReal (saveMemValue sde
      (rowwiseTimes fun t => noisedScore sde t t0 π) t0 x0s ts fun j => (xs j).toOption.getD 0))
        ∂(Measure.pi fun _ => π) ≤
    ∫⁻ x0s, (saveMemStates sde key x0s t0 ts).E (fun xs => ENNReal.ofReal (saveMemValue sde
      (rowwiseTimes s) t0 x0s ts fun j => (xs j).toOption.getD 0)) ∂(Measure.pi fun _ => π) := by
  have hform : ∀ {s : ℝ → (ι → ℝ) → ι → ℝ}, (∀ j, Measurable (s (ts j))) →
      ∫⁻ x0s, (saveMemStates sde key x0s t0 ts).E (fun xs => ENNReal.ofReal (saveMemValue sde
        (rowwiseTimes s) t0 x0s ts fun j => (xs j).toOption.getD 0)) ∂(Measure.pi fun _ => π) =
      ∑ j, ENNReal.ofReal ((discretise sde (ts j) t0).2 / (Fintype.card ι * n)) *
        ∫⁻ x0, ∫⁻ x, ENNReal.ofReal (∑ i, (s (ts j) x i - condScore sde (x i) (ts j) (x0 i) t0) ^ 2)
          ∂(transLaw sde (ts j) t0 x0) ∂π := by
    intro s hs
    rw [lintegral_congr fun x0s => C54_expected_loss key x0s t0 ts (fun j => (hQ j).le) hs]
    have hmi := fun j => measurable_inner sde (hQ j).le (hs j)
    have hmj : ∀ j : Fin n, Measurable fun x0s : Fin n → ι → ℝ =>
        ∫⁻ x, ENNReal.ofReal (∑ i, (s (ts j) x i - condScore sde (x i) (ts j) (x0s j i) t0) ^ 2)
          ∂(transLaw sde (ts j) t0 (x0s j)) := fun j => (hmi j).comp (measurable_pi_apply j)
    rw [lintegral_finsetSum _ fun j _ => (hmj j).const_mul _]
    refine Finset.sum_congr rfl fun j _ => ?_
    rw [lintegral_const_mul _ (hmj j)]
    congr 1
    exact (measurePreserving_eval (fun _ : Fin n => π) j).lintegral_comp (hmi j)
  rw [hform hs, hform fun j => measurable_noisedScore sde (hQ j) π]
  exact Finset.sum_le_sum fun j _ => mul_le_mul_right (denoise_min sde (hQ j) π (hs j)) _

/-- The times of the program meet the hypothesis of the previous theorem. -/
theorem C54_times_ok {sde : SDE} {key : Key} {t0 T : ℝ} (hn : n ≠ 0) (hT : t0 + eps ≤ T)
    (hadm : ∀ t, t0 ≤ t → t ≤ T → Admissible sde t) (random : Bool) {tl : List ℝ}
    (h : (saveMemTimes key t0 T n random).Returns tl) (j : Fin n) : 0 < (discretise sde (tl.getD j 0) t0).2 := by
  have he : 0 < eps := by norm_num [eps]
  obtain ⟨h1, -, -, h4⟩ := C54_times hn hT random h
  rw [getD_of_lt _ _ (by rw [h1]; exact j.2)]
  have hm := h4 _ (List.getElem_mem (by rw [h1]; exact j.2))
  exact (C29_bounds (hadm _ hm.1.le hm.2) (hadm t0 le_rfl (by linarith)) hm.1).2.1

omit [DecidableEq ι] in
/-- **C54.**  Every value of the memory-saving score loss is non-negative. -/
theorem C54_nonneg {sde : SDE} {t0 T : ℝ} (hn : n ≠ 0) (hT : t0 + eps ≤ T)
    (hadm : ∀ t, t0 ≤ t → t ≤ T → Admissible sde t) (random : Bool)
    (nn : (Fin n → ι → ℝ) → (Fin n → ℝ) → Fin n → ι → ℝ) (key : Key) (x0s : Fin n → ι → ℝ) {r : Except String ℝ}
    (h : (lossFnSaveMem sde nn t0 T random key x0s).Returns r) : ∃ v, r = .ok v ∧ 0 ≤ v := by
  simp only [lossFnSaveMem, Rand.returns_bind, Rand.pure_eq, Rand.returns_ret] at h
  obtain ⟨tl, htl, xs, -, rfl⟩ := h
  refine ⟨_, rfl, ?_⟩
  unfold saveMemValue
  refine div_nonneg (Finset.sum_nonneg fun j _ => mul_nonneg ?_ (C54_times_ok hn hT hadm random htl j).le)
    (by positivity)
  unfold Dsb.mean; positivity

omit [DecidableEq ι] in
/-- **C54, program.**  The expected loss over all the draws of the program. -/
theorem C54_program {sde : SDE} {t0 T : ℝ} (hn : n ≠ 0) (hT : t0 + eps ≤ T)
    (hadm : ∀ t, t0 ≤ t → t ≤ T → Admissible sde t) (random : Bool) (key : Key) (x0s : Fin n → ι → ℝ)
    {s : ℝ → (ι → ℝ) → ι → ℝ} (hs : ∀ t, Measurable (s t)) :
    (lossFnSaveMem sde (rowwiseTimes s) t0 T random key x0s).E okValue =
      (saveMemTimes (split key 2 0) t0 T n random).E fun tl => ∑ j : Fin n,
        ENNReal.ofReal ((discretise sde (tl.getD j 0) t0).2 / (Fintype.card ι * n)) *
        ∫⁻ x, ENNReal.ofReal (∑ i, (s (tl.getD j 0) x i - condScore sde (x i) (tl.getD j 0) (x0s j i) t0) ^ 2)
          ∂(transLaw sde (tl.getD j 0) t0 (x0s j)) := by
  simp only [lossFnSaveMem, Rand.E_bind, Rand.pure_eq, Rand.E_ret]
  have key2 : ∀ tl, (saveMemTimes (split key 2 0) t0 T n random).Returns tl →
      (saveMemStates sde (split key 2 1) x0s t0 fun j : Fin n => tl.getD j 0).E (fun xs => okValue (Except.ok
        (saveMemValue sde (rowwiseTimes s) t0 x0s (fun j => tl.getD j 0) fun j => (xs j).toOption.getD 0))) =
      ∑ j : Fin n, ENNReal.ofReal ((discretise sde (tl.getD j 0) t0).2 / (Fintype.card ι * n)) *
        ∫⁻ x, ENNReal.ofReal (∑ i, (s (tl.getD j 0) x i - condScore sde (x i) (tl.getD j 0) (x0s j i) t0) ^ 2)
          ∂(transLaw sde (tl.getD j 0) t0 (x0s j)) := fun tl htl =>
    C54_expected_loss (split key 2 1) x0s t0 (fun j => tl.getD j 0)
      (fun j => (C54_times_ok hn hT hadm random htl j).le) fun j => hs _
  have hsup : (saveMemTimes (split key 2 0) t0 T n random).Supported := by
    have := supported_times (split key 2 0) (t0 + eps) t0 T n random
    unfold saveMemTimes
    split
    · unfold uniformIn uniforms
      refine Rand.Supported.map _ (Rand.Supported.map _ ⟨?_, fun _ => trivial⟩)
      have h1 : ∀ᵐ x ∂unifMeasure, x ∈ Set.Ico (0 : ℝ) 1 := by
        unfold unifMeasure
        exact ae_restrict_mem measurableSet_Ico
      exact (Measure.ae_pi_le_pi (Filter.eventually_pi fun _ => h1))
    · trivial
  exact le_antisymm (Rand.E_mono_supported hsup fun tl htl => (key2 tl htl).le)
    (Rand.E_mono_supported hsup fun tl htl => (key2 tl htl).ge)

end SaveMem

section FixedTimes
variable {ι : Type} [Fintype ι] [DecidableEq ι] {n : ℕ}

/-- The fixed training times. -/
noncomputable def fixedTimes (t0 T : ℝ) (nsteps : ℕ) : Arr1 ℝ := (t0, (Simulators.linspace t0 T (nsteps + 1)).tail)

theorem fixedTimes_get {t0 T : ℝ} {nsteps : ℕ} {k : ℕ} (hk : k ≤ nsteps) :
    (fixedTimes t0 T nsteps).toList.getD k 0 = t0 + k * ((T - t0) / nsteps) := by
  simp only [fixedTimes, Arr1.toList, linspace_tail]
  cases k with
  | zero => simp
  | succ k => rw [List.getD_cons_succ, getD_of_lt _ _ (by simpa using hk)]; simp

theorem fixedTimes_facts {sde : SDE} {t0 T : ℝ} {nsteps : ℕ} (hn : nsteps ≠ 0) (hT : t0 < T)
    (hadm : ∀ t, t0 ≤ t → t ≤ T → Admissible sde t) :
    (fixedTimes t0 T nsteps).2.length = nsteps ∧ GridOk sde t0 (fixedTimes t0 T nsteps).2 ∧
      ∀ k < nsteps, 0 < (discretise sde ((fixedTimes t0 T nsteps).toList.getD (k + 1) 0)
        ((fixedTimes t0 T nsteps).toList.getD k 0)).2 := by
  have hn' : (0 : ℝ) < nsteps := by positivity
  have hd : 0 < (T - t0) / nsteps := div_pos (by linarith) hn'
  have hle : ∀ k : ℕ, k ≤ nsteps → t0 ≤ t0 + k * ((T - t0) / nsteps) ∧ t0 + k * ((T - t0) / nsteps) ≤ T := by
    intro k hk
    have : (k : ℝ) ≤ nsteps := by exact_mod_cast hk
    have h2 := mul_le_mul_of_nonneg_right this hd.le
    rw [mul_div_cancel₀ _ hn'.ne'] at h2
    exact ⟨by have : 0 ≤ (k : ℝ) * ((T - t0) / nsteps) := by positivity
              linarith, by linarith⟩
  have hlen : (fixedTimes t0 T nsteps).2.length = nsteps := by simp [fixedTimes, linspace_tail]
  refine ⟨hlen, ?_, ?_⟩
  · simp only [fixedTimes, linspace_tail]
    refine gridOk_of_monotone _ _ (hadm t0 le_rfl hT.le) ?_ (List.pairwise_cons.2 ⟨?_, ?_⟩)
    · intro t ht
      simp only [List.mem_map, List.mem_range] at ht
      obtain ⟨i, hi, rfl⟩ := ht
      have := hle (i + 1) hi
      push_cast at this
      exact hadm _ this.1 this.2
    · intro t ht
      simp only [List.mem_map, List.mem_range] at ht
      obtain ⟨i, hi, rfl⟩ := ht
      have := hle (i + 1) hi
      push_cast at this
      exact this.1
    · rw [List.pairwise_map]
      refine List.Pairwise.imp ?_ (List.pairwise_lt_range (n := nsteps))
      intro a b hab
      have : (a : ℝ) ≤ b := by exact_mod_cast hab.le
      have := mul_le_mul_of_nonneg_right this hd.le
      linarith
  · intro k hk
    rw [fixedTimes_get hk, fixedTimes_get hk.le]
    have h1 := hle (k + 1) hk
    have h0 := hle k hk.le
    refine (C29_bounds (hadm _ h1.1 h1.2) (hadm _ h0.1 h0.2) ?_).2.1
    push_cast
    linarith

omit [DecidableEq ι] in
theorem lossFn_fixed (sde : SDE) (nn : (Fin n → ι → ℝ) → ℝ → Fin n → ι → ℝ) (t0 T : ℝ) (nsteps : ℕ) (key : Key)
    (x0s : Fin n → ι → ℝ) :
    (lossFn sde nn t0 T nsteps false "ipf-score" key x0s).E okValue = (fwdPaths sde (split key 2 1) x0s
      (fixedTimes t0 T nsteps)).E (fun paths => ENNReal.ofReal (ipfScoreValue sde nn (fixedTimes t0 T nsteps) paths)) ∧
    (lossFn sde nn t0 T nsteps false "ipf" key x0s).E okValue = (fwdPaths sde (split key 2 1) x0s
      (fixedTimes t0 T nsteps)).E (fun paths => ENNReal.ofReal (ipfValue sde nn (fixedTimes t0 T nsteps) paths)) := by
  constructor <;>
  simp [lossFn, times, fixedTimes, Rand.E_bind, Rand.pure_eq, Rand.E_ret, lossValue, okValue, Except.toOption]

/-- **C52, program.**  `make_linear_sde_law_loss(..., loss_type='ipf-score', random_times=False)`: with the data drawn
independently from `π` the expected value over all the draws is smallest at the score of the noised data law. -/
theorem C52_program_minimiser {sde : SDE} {t0 T : ℝ} {nsteps : ℕ} (hn : nsteps ≠ 0) (hT : t0 < T)
    (hadm : ∀ t, t0 ≤ t → t ≤ T → Admissible sde t) (key : Key) (π : Measure (ι → ℝ)) [IsProbabilityMeasure π]
    {s : ℝ → (ι → ℝ) → ι → ℝ} (hs : ∀ t, Measurable (s t)) :
    ∫⁻ x0s, (lossFn (n := n) sde (rowwise fun t => noisedScore sde t t0 π) t0 T nsteps false "ipf-score" key x0s).E
      okValue ∂(Measure.pi fun _ => π) ≤
    ∫⁻ x0s, (lossFn (n := n) sde (rowwise s) t0 T nsteps false "ipf-score" key x0s).E okValue
      ∂(Measure.pi fun _ => π) := by
  have hd : Defined sde := Admissible.defined (hadm t0 le_rfl hT.le)
  obtain ⟨h1, h2, h3⟩ := fixedTimes_facts hn hT hadm
  simp only [(lossFn_fixed ..).1]
  exact C52_population_minimiser (n := n) hd (split key 2 1) π (fixedTimes t0 T nsteps) h2
    (fun k hk => h3 k (h1 ▸ hk)) fun t _ => hs t

/-- **C53, program.**  `make_linear_sde_law_loss(..., loss_type='ipf', random_times=False)`: with the data drawn
independently from `π` the expected value over all the draws is smallest at
`x + F E[X_{t - dt} | X_t = x] - F x`, `dt` being the step of the grid. -/
theorem C53_program_minimiser {sde : SDE} {t0 T : ℝ} {nsteps : ℕ} (hn : nsteps ≠ 0) (hT : t0 < T)
    (hadm : ∀ t, t0 ≤ t → t ≤ T → Admissible sde t) (key : Key) (π : Measure (ι → ℝ)) [IsProbabilityMeasure π]
    {s : ℝ → (ι → ℝ) → ι → ℝ} (hs : ∀ t, Measurable (s t)) :
    let dt := (T - t0) / nsteps
    let m : ℝ → (ι → ℝ) → ι → ℝ := fun t x i => x i
      + (discretise sde t (t - dt)).1 * prevMean sde t (t - dt) (noisedLaw sde (t - dt) t0 π) x i
      - (discretise sde t (t - dt)).1 * x i
    ∫⁻ x0s, (lossFn (n := n) sde (rowwise m) t0 T nsteps false "ipf" key x0s).E okValue ∂(Measure.pi fun _ => π) ≤
    ∫⁻ x0s, (lossFn (n := n) sde (rowwise s) t0 T nsteps false "ipf" key x0s).E okValue ∂(Measure.pi fun _ => π) := by
  have hd : Defined sde := Admissible.defined (hadm t0 le_rfl hT.le)
  obtain ⟨h1, h2, h3⟩ := fixedTimes_facts hn hT hadm
  intro dt m
  simp only [(lossFn_fixed ..).2]
  refine C53_population_minimiser (n := n) hd (split key 2 1) π (fixedTimes t0 T nsteps) h2
    (fun k hk => h3 k (h1 ▸ hk)) (m := m) (fun k hk x i => ?_) fun t _ => hs t
  have hk' : k < nsteps := h1 ▸ hk
  have e : (fixedTimes t0 T nsteps).toList.getD k 0 = (fixedTimes t0 T nsteps).toList.getD (k + 1) 0 - dt := by
    rw [fixedTimes_get hk', fixedTimes_get hk'.le]
    push_cast; ring
  rw [e]
  rfl

/-- The hypotheses are met, for instance by the linear schedule on `[0, 2]`. -/
example : (0 : ℝ) < 2 ∧ ∀ t, (0 : ℝ) ≤ t → t ≤ 2 → Admissible (.lin 0.02 4 0 2) t :=
  ⟨by norm_num, fun _ h1 h2 => ⟨by norm_num, by norm_num, by norm_num, h1, h2⟩⟩

end FixedTimes


end Props
end Fbs
