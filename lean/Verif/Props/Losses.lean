import Verif.Lemmas.Search
import Verif.Model.Losses
import Verif.Props.LinearSim
import Verif.Lemmas.Score

/-!
# C38, C39: the training losses
-/

open MeasureTheory ProbabilityTheory
open scoped ENNReal NNReal

namespace Fbs

namespace Rand
variable {α β : Type}

/-- Every draw falls almost surely in its set of admissible values. -/
def Supported : Rand α → Prop
  | ret _ => True
  | draw _ _ S μ c => (∀ᵐ b ∂μ, b ∈ S) ∧ ∀ b, Supported (c b)

theorem E_mono_supported {p : Rand α} (hp : p.Supported) {f g : α → ℝ≥0∞} (h : ∀ a, p.Returns a → f a ≤ g a) :
    E p f ≤ E p g := by
  induction p with
  | ret a => exact h a ⟨[], rfl, rfl⟩
  | draw k β' S μ c ih =>
    refine lintegral_mono_ae (hp.1.mono fun b hb => ih b (hp.2 b) fun a ha => ?_)
    obtain ⟨ks, hks⟩ := ha
    exact h a ⟨k :: ks, b, hb, ks, rfl, hks⟩

theorem Supported.bind {p : Rand α} {g : α → Rand β} (hp : p.Supported) (hg : ∀ a, (g a).Supported) :
    (p >>= g).Supported := by
  induction p with
  | ret a => exact hg a
  | draw k β' S μ c ih => exact ⟨hp.1, fun b => ih b (hp.2 b)⟩

theorem Supported.map {p : Rand α} (g : α → β) (hp : p.Supported) : (g <$> p).Supported := by
  show (p >>= fun a => ret (g a)).Supported
  exact hp.bind fun _ => trivial

theorem E_const_add {p : Rand α} (hp : p.IsProb) (c : ℝ≥0∞) (f : α → ℝ≥0∞) : E p (fun a => c + f a) = c + E p f := by
  induction p with
  | ret a => rfl
  | draw k β' S μ cont ih =>
    obtain ⟨hμ, hc⟩ := hp
    show (∫⁻ b, E (cont b) _ ∂μ) = c + ∫⁻ b, E (cont b) f ∂μ
    simp only [fun b => ih b (hc b)]
    rw [lintegral_add_left measurable_const]
    simp

end Rand

namespace Spec

open Linear

variable {ι : Type} [Fintype ι] [DecidableEq ι]

/-- Density at `x` of the data law `π` noised by the transition from `t0` to `t`. -/
noncomputable def noisedDens (sde : SDE) (t t0 : ℝ) (π : Measure (ι → ℝ)) (x : ι → ℝ) : ℝ :=
  ∫ x0, ∏ i, gaussianPDFReal ((discretise sde t t0).1 * x0 i) (discretise sde t t0).2.toNNReal (x i) ∂π

/-- The score of the noised data law: the gradient of the log-density. -/
noncomputable def noisedScore (sde : SDE) (t t0 : ℝ) (π : Measure (ι → ℝ)) (x : ι → ℝ) (i : ι) : ℝ :=
  deriv (fun y => Real.log (noisedDens sde t t0 π (Function.update x i y))) (x i)

/-- The empirical law of a data set. -/
noncomputable def empirical {n : ℕ} (x0s : Fin n → ι → ℝ) : Measure (ι → ℝ) :=
  (n : ℝ≥0∞)⁻¹ • ∑ j, Measure.dirac (x0s j)

/-- A network that treats the entries of the batch separately. -/
def rowwise {n : ℕ} (s : ℝ → (ι → ℝ) → ι → ℝ) (xs : Fin n → ι → ℝ) (t : ℝ) : Fin n → ι → ℝ := fun j => s t (xs j)

/-- Loss values as non-negative numbers (`0` for exceptions). -/
noncomputable def okValue (r : Except String ℝ) : ℝ≥0∞ := r.toOption.elim 0 ENNReal.ofReal

end Spec

namespace Props

open Linear Spec Jax Losses

section Noised
variable {ι : Type} [Fintype ι] [DecidableEq ι]

theorem noisedScore_eq (sde : SDE) (t t0 : ℝ) (π : Measure (ι → ℝ)) :
    noisedScore sde t t0 π = Score.score π (discretise sde t t0).2.toNNReal fun x0 i => (discretise sde t t0).1 * x0 i :=
  rfl

omit [Fintype ι] [DecidableEq ι] in
theorem measurable_scale (F : ℝ) : Measurable fun (x0 : ι → ℝ) i => F * x0 i :=
  measurable_pi_iff.2 fun i => Measurable.const_mul (f := fun x0 : ι → ℝ => x0 i) (measurable_pi_apply i) F

omit [DecidableEq ι] in
theorem noisedDens_eq (sde : SDE) (t t0 : ℝ) (π : Measure (ι → ℝ)) :
    noisedDens sde t t0 π = Score.mix π (discretise sde t t0).2.toNNReal fun x0 i => (discretise sde t t0).1 * x0 i :=
  rfl

attribute [local irreducible] Score.dens Score.cs

omit [DecidableEq ι] in
/-- `noisedDens` is the density of the noised data law. -/
theorem C38_noised_density (sde : SDE) {t t0 : ℝ} (hQ : 0 < (discretise sde t t0).2) (π : Measure (ι → ℝ))
    [IsProbabilityMeasure π] {f : (ι → ℝ) → ℝ≥0∞} (hf : Measurable f) :
    ∫⁻ x0, ∫⁻ x, f x ∂(transLaw sde t t0 x0) ∂π = ∫⁻ x, f x * ENNReal.ofReal (noisedDens sde t t0 π x) := by
  set q := (discretise sde t t0).2.toNNReal with hqd
  have hq : q ≠ 0 := (Real.toNNReal_pos.2 hQ).ne'
  set m : (ι → ℝ) → ι → ℝ := fun x0 i => (discretise sde t t0).1 * x0 i with hmd
  have hm : Measurable m := measurable_scale _
  have hmd2 : Measurable fun p : (ι → ℝ) × (ι → ℝ) => Score.dens q (m p.1) p.2 :=
    (Score.measurable_dens q).comp ((hm.comp measurable_fst).prodMk measurable_snd)
  have h1 : ∀ x0, ∫⁻ x, f x ∂(transLaw sde t t0 x0) = ∫⁻ x, f x * ENNReal.ofReal (Score.dens q (m x0) x) := by
    intro x0
    have hma : Measurable fun x => ENNReal.ofReal (Score.dens q (m x0) x) :=
      (hmd2.comp (measurable_const.prodMk measurable_id)).ennreal_ofReal
    have : transLaw sde t t0 x0 = Measure.pi fun i => gaussianReal (m x0 i) q := rfl
    rw [this, Score.pi_gauss_eq_withDensity hq, lintegral_withDensity_eq_lintegral_mul _ hma hf]
    exact lintegral_congr fun x => by rw [Pi.mul_apply, mul_comm]
  simp only [h1]
  have hmm : Measurable fun p : (ι → ℝ) × (ι → ℝ) => f p.2 * ENNReal.ofReal (Score.dens q (m p.1) p.2) :=
    (hf.comp measurable_snd).mul hmd2.ennreal_ofReal
  rw [lintegral_lintegral_swap hmm.aemeasurable]
  refine lintegral_congr fun x => ?_
  have hmx : Measurable fun x0 => ENNReal.ofReal (Score.dens q (m x0) x) :=
    (hmd2.comp (measurable_id.prodMk measurable_const)).ennreal_ofReal
  rw [lintegral_const_mul _ hmx, ← ofReal_integral_eq_lintegral_ofReal (Score.integrable_dens hq hm x)
    (Filter.Eventually.of_forall fun a => (Score.dens_pos hq _ _).le), noisedDens_eq, Score.mix]

/-- **C38, pointwise optimality.**  At a fixed time and point the score of the noised data law is the only minimiser of
the expected squared distance to the conditional score. -/
theorem C38_pointwise (sde : SDE) {t t0 : ℝ} (hQ : 0 < (discretise sde t t0).2) (π : Measure (ι → ℝ))
    [IsProbabilityMeasure π] (x : ι → ℝ) (i : ι) (v : ℝ) :
    let w := fun x0 : ι → ℝ =>
      ∏ i, gaussianPDFReal ((discretise sde t t0).1 * x0 i) (discretise sde t t0).2.toNNReal (x i)
    let J := fun v : ℝ => ∫ x0, (v - condScore sde (x i) t (x0 i) t0) ^ 2 * w x0 ∂π
    J (noisedScore sde t t0 π x i) ≤ J v ∧ (J v = J (noisedScore sde t t0 π x i) → v = noisedScore sde t t0 π x i) := by
  set q := (discretise sde t t0).2.toNNReal with hqd
  have hq : q ≠ 0 := (Real.toNNReal_pos.2 hQ).ne'
  have hqc : (q : ℝ) = (discretise sde t t0).2 := Real.coe_toNNReal _ hQ.le
  set m : (ι → ℝ) → ι → ℝ := fun x0 i => (discretise sde t t0).1 * x0 i with hmd
  have hm : Measurable m := measurable_scale _
  have hcs : ∀ x0, Score.cs q (m x0) x i = condScore sde (x i) t (x0 i) t0 := by
    intro x0; rw [Score.cs, hqc]; rfl
  have h := Score.score_min (π := π) hq hm x i v
  simp only [hcs] at h
  have hp := Score.mix_pos (π := π) hq hm x
  intro w J
  have hw : ∀ x0, Score.dens q (m x0) x = w x0 := fun x0 => by rw [Score.dens]
  simp only [hw] at h
  have hJ : J v = J (noisedScore sde t t0 π x i) + Score.mix π q m x * (v - noisedScore sde t t0 π x i) ^ 2 := by
    rw [noisedScore_eq]; exact h
  refine ⟨?_, fun he => ?_⟩
  · rw [hJ]
    have := mul_nonneg hp.le (sq_nonneg (v - noisedScore sde t t0 π x i))
    linarith
  · rw [hJ, add_eq_left, mul_eq_zero, or_iff_right hp.ne', pow_eq_zero_iff two_ne_zero, sub_eq_zero] at he
    exact he

end Noised

section Times

/-- **C38, times.**  The random times are sorted, lie in `[t0 + eps, T]`, and end with `T`; the first entry is `t0`. -/
theorem C38_random_times {key : Key} {t0 T : ℝ} {nsteps : ℕ} (hn : nsteps ≠ 0) (hT : t0 + eps ≤ T) {ts : Arr1 ℝ}
    (h : (times key (t0 + eps) t0 T nsteps true).Returns ts) :
    ts.1 = t0 ∧ ts.2.length = nsteps ∧ ts.2.getLast? = some T ∧ ts.2.Pairwise (· ≤ ·) ∧
      ∀ t ∈ ts.2, t0 + eps ≤ t ∧ t ≤ T := by
  simp only [times, if_true, uniformIn, uniforms, Rand.returns_map, Rand.returns_sample] at h
  obtain ⟨_, ⟨u, hu, rfl⟩, rfl⟩ := h
  have hmem : ∀ t ∈ sort (fun i => max (t0 + eps) (u i * (T - (t0 + eps)) + (t0 + eps))), t0 + eps ≤ t ∧ t ≤ T := by
    intro t ht
    simp only [sort, List.mem_mergeSort, List.mem_ofFn'] at ht
    obtain ⟨i, rfl⟩ := ht
    have hui : u i ∈ Set.Ico (0 : ℝ) 1 := hu i
    refine ⟨le_max_left _ _, max_le hT ?_⟩
    have := mul_le_of_le_one_left (sub_nonneg.2 hT) hui.2.le
    linarith
  refine ⟨rfl, ?_, by simp, ?_, ?_⟩
  · simp [sort]; omega
  · refine List.pairwise_append.2 ⟨?_, by simp, ?_⟩
    · have := List.pairwise_mergeSort (le := fun a b : ℝ => decide (a ≤ b))
        (by simp only [decide_eq_true_eq]; exact fun a b c => le_trans)
        (by simp only [Bool.or_eq_true, decide_eq_true_eq]; exact fun a b => le_total a b)
        (List.ofFn fun i => max (t0 + eps) (u i * (T - (t0 + eps)) + (t0 + eps)))
      simpa only [decide_eq_true_eq, sort] using this
    · intro a ha b hb
      rw [List.mem_singleton.1 hb]; exact (hmem a ha).2
  · intro t ht
    rcases List.mem_append.1 ht with h | h
    · exact hmem t h
    · rw [List.mem_singleton.1 h]; exact ⟨hT, le_rfl⟩

theorem linspace_tail (t0 T : ℝ) (nsteps : ℕ) : (Simulators.linspace t0 T (nsteps + 1)).tail =
    (List.range nsteps).map fun i : ℕ => t0 + (i + 1) * ((T - t0) / nsteps) := by
  simp only [Simulators.linspace, List.range_succ_eq_map, List.map_cons, List.tail_cons, List.map_map]
  congr 1
  funext i
  simp

/-- Whatever the option, the times start at `t0`, increase, and stay in `(t0, T]`. -/
theorem times_ok {key : Key} {t0 T : ℝ} {nsteps : ℕ} (hn : nsteps ≠ 0) (hT : t0 + eps ≤ T) (random : Bool)
    {ts : Arr1 ℝ} (h : (times key (t0 + eps) t0 T nsteps random).Returns ts) :
    ts.1 = t0 ∧ ts.2.length = nsteps ∧ ts.2.Pairwise (· ≤ ·) ∧ ∀ t ∈ ts.2, t0 < t ∧ t ≤ T := by
  have he : 0 < eps := by norm_num [eps]
  cases random with
  | true =>
    obtain ⟨a, b, -, c, d⟩ := C38_random_times hn hT h
    exact ⟨a, b, c, fun t ht => ⟨by linarith [(d t ht).1], (d t ht).2⟩⟩
  | false =>
    simp only [times, Bool.false_eq_true, if_false, Rand.pure_eq, Rand.returns_ret] at h
    subst h
    have hTt : 0 < T - t0 := by linarith
    have hn' : (0 : ℝ) < nsteps := by positivity
    simp only [linspace_tail]
    refine ⟨trivial, by simp, ?_, ?_⟩
    · rw [List.pairwise_map]
      refine List.Pairwise.imp ?_ (List.pairwise_lt_range (n := nsteps))
      intro a b hab
      have : (a : ℝ) ≤ b := by exact_mod_cast hab.le
      have := mul_le_mul_of_nonneg_right this (div_pos hTt hn').le
      linarith
    · intro t ht
      simp only [List.mem_map, List.mem_range] at ht
      obtain ⟨i, hi, rfl⟩ := ht
      have hd := div_pos hTt hn'
      refine ⟨by have : 0 < ((i : ℝ) + 1) * ((T - t0) / nsteps) := by positivity
                 linarith, ?_⟩
      have : (i : ℝ) + 1 ≤ nsteps := by exact_mod_cast hi
      have h2 := mul_le_mul_of_nonneg_right this hd.le
      rw [mul_div_cancel₀ _ hn'.ne'] at h2
      linarith

theorem gridOk_of_monotone {sde : SDE} : ∀ (ts : List ℝ) (s : ℝ), Admissible sde s → (∀ t ∈ ts, Admissible sde t) →
    (s :: ts).Pairwise (· ≤ ·) → GridOk sde s ts
  | [], _, _, _, _ => trivial
  | t :: ts, s, hs, h, hp => by
    obtain ⟨h1, h2⟩ := List.pairwise_cons.1 hp
    refine ⟨?_, gridOk_of_monotone ts t (h t (by simp)) (fun t' ht' => h t' (by simp [ht'])) h2⟩
    rcases (h1 t (by simp)).lt_or_eq with hlt | rfl
    · exact (C29_bounds (h t (by simp)) hs hlt).2.1.le
    · rw [(C26_flow (Admissible.defined hs) s s s).1]

theorem timeAt_mem {ts : Arr1 ℝ} {k : ℕ} (hk : k < ts.2.length) : timeAt ts (k + 1) ∈ ts.2 := by
  simp only [timeAt, Arr1.toList, List.getD_cons_succ]
  rw [getD_of_lt _ _ hk]
  exact List.getElem_mem _

theorem grid_facts {sde : SDE} {key : Key} {t0 T : ℝ} {nsteps : ℕ} (hn : nsteps ≠ 0) (hT : t0 + eps ≤ T)
    (hadm : ∀ t, t0 ≤ t → t ≤ T → Admissible sde t) (random : Bool) {ts : Arr1 ℝ}
    (h : (times key (t0 + eps) t0 T nsteps random).Returns ts) :
    ts.1 = t0 ∧ ts.2.length = nsteps ∧ GridOk sde ts.1 ts.2 ∧
      ∀ k < ts.2.length, 0 < (discretise sde (timeAt ts (k + 1)) ts.1).2 := by
  have he : 0 < eps := by norm_num [eps]
  obtain ⟨h1, h2, h3, h4⟩ := times_ok hn hT random h
  have ht0 : Admissible sde t0 := hadm t0 le_rfl (by linarith)
  have hall : ∀ t ∈ ts.2, Admissible sde t := fun t ht => hadm t (h4 t ht).1.le (h4 t ht).2
  refine ⟨h1, h2, ?_, ?_⟩
  · rw [h1]
    exact gridOk_of_monotone _ _ ht0 hall (List.pairwise_cons.2 ⟨fun t ht => (h4 t ht).1.le, h3⟩)
  · intro k hk
    have hmem := timeAt_mem hk
    rw [h1]
    exact (C29_bounds (hall _ hmem) ht0 (h4 _ hmem).1).2.1

end Times

section Value
variable {ι : Type} [Fintype ι] {n : ℕ}

/-- **C38, sign.**  With non-negative variances along the grid the score loss is non-negative. -/
theorem scoreValue_nonneg (sde : SDE) (nn : (Fin n → ι → ℝ) → ℝ → Fin n → ι → ℝ) (ts : Arr1 ℝ)
    (paths : Fin n → List (ι → ℝ)) (hQ : ∀ k < ts.2.length, 0 ≤ (discretise sde (timeAt ts (k + 1)) ts.1).2) :
    0 ≤ scoreValue sde nn ts paths := by
  unfold scoreValue meanCols
  refine div_nonneg (Finset.sum_nonneg fun k hk => Finset.sum_nonneg fun j _ =>
    mul_nonneg ?_ (hQ k (Finset.mem_range.1 hk))) (by positivity)
  unfold Dsb.mean; positivity

/-- **C38.** Every value returned by the score loss is non-negative. -/
theorem C38_nonneg {sde : SDE} {t0 T : ℝ} {nsteps : ℕ} (hn : nsteps ≠ 0) (hT : t0 + eps ≤ T)
    (hadm : ∀ t, t0 ≤ t → t ≤ T → Admissible sde t) (random : Bool) (nn : (Fin n → ι → ℝ) → ℝ → Fin n → ι → ℝ)
    (key : Key) (x0s : Fin n → ι → ℝ) {r : Except String ℝ}
    (h : (lossFn sde nn t0 T nsteps random "score" key x0s).Returns r) : ∃ v, r = .ok v ∧ 0 ≤ v := by
  simp only [lossFn, Rand.returns_bind, Rand.pure_eq, Rand.returns_ret] at h
  obtain ⟨ts, hts, paths, -, rfl⟩ := h
  obtain ⟨-, -, -, h4⟩ := grid_facts hn hT hadm random hts
  exact ⟨_, rfl, scoreValue_nonneg sde nn ts paths fun k hk => (h4 k hk).le⟩

/-- **C38.** Whatever the paths, the score loss vanishes exactly when the network returns the conditional score at
every sampled point. -/
theorem C38_zero [Nonempty ι] (hn : n ≠ 0) (sde : SDE) (nn : (Fin n → ι → ℝ) → ℝ → Fin n → ι → ℝ) (ts : Arr1 ℝ)
    (hK : ts.2 ≠ []) (paths : Fin n → List (ι → ℝ))
    (hQ : ∀ k < ts.2.length, 0 < (discretise sde (timeAt ts (k + 1)) ts.1).2) :
    scoreValue sde nn ts paths = 0 ↔ ∀ k < ts.2.length, ∀ j i,
      nn (slice paths (k + 1)) (timeAt ts (k + 1)) j i =
        condScore sde (slice paths (k + 1) j i) (timeAt ts (k + 1)) (slice paths 0 j i) ts.1 := by
  have hK' : (ts.2.length : ℝ) * n ≠ 0 := by
    have : ts.2.length ≠ 0 := by simpa using hK
    positivity
  have hc : (Fintype.card ι : ℝ) ≠ 0 := by exact_mod_cast Fintype.card_ne_zero
  have hmean : ∀ a : ι → ℝ, 0 ≤ Dsb.mean fun i => a i ^ 2 := fun a => by unfold Dsb.mean; positivity
  rw [scoreValue, meanCols, div_eq_zero_iff, or_iff_left hK', Finset.sum_eq_zero_iff_of_nonneg fun k hk =>
    Finset.sum_nonneg fun j _ => mul_nonneg (hmean _) (hQ k (Finset.mem_range.1 hk)).le]
  refine forall_congr' fun k => ?_
  rw [Finset.mem_range]
  refine forall_congr' fun hk => ?_
  rw [Finset.sum_eq_zero_iff_of_nonneg fun j _ => mul_nonneg (hmean _) (hQ k hk).le]
  simp only [Finset.mem_univ, true_implies]
  refine forall_congr' fun j => ?_
  rw [mul_eq_zero, or_iff_left (hQ k hk).ne', Dsb.mean, div_eq_zero_iff, or_iff_left hc,
    Finset.sum_eq_zero_iff_of_nonneg fun i _ => sq_nonneg _]
  simp only [Finset.mem_univ, true_implies]
  refine forall_congr' fun i => ?_
  rw [pow_eq_zero_iff two_ne_zero, sub_eq_zero]

end Value

section Expectation
variable {ι : Type} [Fintype ι] {n : ℕ}

theorem isProb_normalRows (k : Key) (m : ℕ) : (normalRows k m ι).IsProb := by
  unfold normalRows
  show (Rand.sample k Set.univ _ >>= fun a => Rand.ret (List.ofFn a)).IsProb
  exact Rand.IsProb.bind ⟨by unfold stdNormal; infer_instance, fun _ => trivial⟩ fun _ => trivial

theorem isProb_simulatePath (sde : SDE) (key : Key) (x0 : ι → ℝ) (ts : Arr1 ℝ) :
    (simulatePath sde key x0 ts).IsProb := (isProb_normalRows _ _).bind fun _ => trivial

theorem isProb_vmapR {α : Type} : ∀ {n : ℕ} {p : Fin n → Rand α}, (∀ j, (p j).IsProb) → (vmapR p).IsProb
  | 0, _, _ => trivial
  | _ + 1, _, h => (h 0).bind fun _ => (isProb_vmapR fun j => h j.succ).bind fun _ => trivial

theorem E_vmapR_sum {α : Type} : ∀ {n : ℕ} {p : Fin n → Rand α}, (∀ j, (p j).IsProb) → ∀ G : Fin n → α → ℝ≥0∞,
    (vmapR p).E (fun xs => ∑ j, G j (xs j)) = ∑ j, (p j).E (G j)
  | 0, _, _, _ => by simp [vmapR]
  | n + 1, p, h, G => by
    have ih := E_vmapR_sum (p := fun j => p j.succ) (fun j => h j.succ) (fun j => G j.succ)
    simp only [vmapR, Rand.E_bind, Rand.pure_eq, Rand.E_ret, Fin.sum_univ_succ, Fin.cons_zero, Fin.cons_succ]
    simp only [Rand.E_const_add (isProb_vmapR fun j : Fin n => h j.succ), ih]
    rw [Rand.E_congr _ fun a => add_comm _ _, Rand.E_const_add (h 0), add_comm]

theorem E_path_sum {sde : SDE} (hd : Defined sde) (key : Key) (x0 : ι → ℝ) (ts : Arr1 ℝ) (hg : GridOk sde ts.1 ts.2)
    (f : ℕ → (ι → ℝ) → (ι → ℝ) → ℝ≥0∞) (hf : ∀ k < ts.2.length, Measurable (f k x0)) :
    (simulatePath sde key x0 ts).E (fun p => ∑ k ∈ Finset.range ts.2.length, f k (p.getD 0 0) (p.getD (k + 1) 0)) =
      ∑ k ∈ Finset.range ts.2.length, ∫⁻ x, f k x0 x ∂(transLaw sde (timeAt ts (k + 1)) ts.1 x0) := by
  have hE : ∀ φ : List (ι → ℝ) → ℝ≥0∞, (simulatePath sde key x0 ts).E φ =
      ∫⁻ w, φ (x0 :: fwdScan sde x0 ts.1 ts.2 (List.ofFn w)) ∂(Measure.pi fun _ : Fin ts.2.length => stdNormal ι) := by
    intro φ
    simp only [simulatePath, normalRows, Rand.E_bind, Rand.E_map, Rand.E_sample, Rand.pure_eq, Rand.E_ret]
    rfl
  have hlen : ∀ w : Fin ts.2.length → ι → ℝ, (fwdScan sde x0 ts.1 ts.2 (List.ofFn w)).length = ts.2.length :=
    fun w => fwdScan_length sde ts.2 x0 ts.1 _ (by simp)
  have hdef : ∀ k < ts.2.length, ∀ w : Fin ts.2.length → ι → ℝ,
      (x0 :: fwdScan sde x0 ts.1 ts.2 (List.ofFn w)).getD (k + 1) 0 =
      (x0 :: fwdScan sde x0 ts.1 ts.2 (List.ofFn w)).getD (k + 1) x0 := by
    intro k hk w
    rw [getD_of_lt _ _ (by rw [List.length_cons, hlen]; omega), getD_of_lt]
  have hmeas : ∀ k < ts.2.length, Measurable fun w : Fin ts.2.length → ι → ℝ =>
      f k x0 ((x0 :: fwdScan sde x0 ts.1 ts.2 (List.ofFn w)).getD (k + 1) 0) := by
    intro k hk
    have h1 := measurable_fwdScan sde ts.2 ts.1 Unit (fun _ l => f k x0 (l.getD k 0)) (by
      have : (fun q : Unit × (Fin ts.2.length → ι → ℝ) => f k x0 ((List.ofFn q.2).getD k 0)) =
          fun q => f k x0 (q.2 ⟨k, hk⟩) := by
        funext q
        rw [getD_of_lt _ _ (by simpa using hk)]; simp
      rw [this]
      exact (hf k hk).comp ((measurable_pi_apply _).comp measurable_snd))
    have h2 : Measurable fun w : Fin ts.2.length → ι → ℝ => (((((), x0) : Unit × (ι → ℝ)), w) :
        (Unit × (ι → ℝ)) × (Fin ts.2.length → ι → ℝ)) := measurable_const.prodMk measurable_id
    exact h1.comp h2
  rw [hE]
  simp only [List.getD_cons_zero]
  rw [lintegral_finsetSum _ fun k hk => hmeas k (Finset.mem_range.1 hk)]
  refine Finset.sum_congr rfl fun k hk => ?_
  have hk' := Finset.mem_range.1 hk
  have hm := C31_marginal hd key x0 ts hg (k + 1) hk' (hf k hk')
  rw [hE] at hm
  rw [lintegral_congr fun w => by rw [hdef k hk' w], hm]
  have : ts.toList.getD (k + 1) ts.1 = timeAt ts (k + 1) := by
    rw [timeAt, getD_of_lt _ _ (by simp [Arr1.toList]; omega), getD_of_lt]
  rw [this]

/-- **C38, expected loss.**  Given the times, the expectation of the loss over the draws is the denoising objective. -/
theorem C38_expected_loss {sde : SDE} (hd : Defined sde) (key : Key) (x0s : Fin n → ι → ℝ) (ts : Arr1 ℝ)
    (hg : GridOk sde ts.1 ts.2) (hQ : ∀ k < ts.2.length, 0 < (discretise sde (timeAt ts (k + 1)) ts.1).2)
    {s : ℝ → (ι → ℝ) → ι → ℝ} (hs : ∀ t ∈ ts.2, Measurable (s t)) :
    (fwdPaths sde key x0s ts).E (fun paths => ENNReal.ofReal (scoreValue sde (rowwise s) ts paths)) =
      ∑ k ∈ Finset.range ts.2.length,
        ENNReal.ofReal ((discretise sde (timeAt ts (k + 1)) ts.1).2 / (Fintype.card ι * (ts.2.length * n))) *
        ∑ j, ∫⁻ x, ENNReal.ofReal (∑ i, (s (timeAt ts (k + 1)) x i -
          condScore sde (x i) (timeAt ts (k + 1)) (x0s j i) ts.1) ^ 2)
            ∂(transLaw sde (timeAt ts (k + 1)) ts.1 (x0s j)) := by
  set c : ℕ → ℝ := fun k => (discretise sde (timeAt ts (k + 1)) ts.1).2 / (Fintype.card ι * (ts.2.length * n)) with hc
  set f : ℕ → (ι → ℝ) → (ι → ℝ) → ℝ≥0∞ := fun k x0 x => ENNReal.ofReal (c k) * ENNReal.ofReal
    (∑ i, (s (timeAt ts (k + 1)) x i - condScore sde (x i) (timeAt ts (k + 1)) (x0 i) ts.1) ^ 2) with hfdef
  have hcn : ∀ k < ts.2.length, 0 ≤ c k := fun k hk => div_nonneg (hQ k hk).le (by positivity)
  have hmb : ∀ k < ts.2.length, ∀ x0 : ι → ℝ, Measurable fun x : ι → ℝ => ENNReal.ofReal
      (∑ i, (s (timeAt ts (k + 1)) x i - condScore sde (x i) (timeAt ts (k + 1)) (x0 i) ts.1) ^ 2) := by
    intro k hk x0
    refine (Finset.measurable_sum _ fun i _ => Measurable.pow_const ?_ 2).ennreal_ofReal
    refine ((measurable_pi_apply i).comp (hs _ (timeAt_mem hk))).sub ?_
    unfold condScore; fun_prop
  have hf : ∀ k < ts.2.length, ∀ x0, Measurable (f k x0) := fun k hk x0 => (hmb k hk x0).const_mul _
  have hval : ∀ paths : Fin n → List (ι → ℝ), ENNReal.ofReal (scoreValue sde (rowwise s) ts paths) =
      ∑ j, ∑ k ∈ Finset.range ts.2.length, f k ((paths j).getD 0 0) ((paths j).getD (k + 1) 0) := by
    intro paths
    have e : scoreValue sde (rowwise s) ts paths = ∑ j, ∑ k ∈ Finset.range ts.2.length, c k *
        ∑ i, (s (timeAt ts (k + 1)) ((paths j).getD (k + 1) 0) i -
          condScore sde ((paths j).getD (k + 1) 0 i) (timeAt ts (k + 1)) ((paths j).getD 0 0 i) ts.1) ^ 2 := by
      rw [scoreValue, meanCols, Finset.sum_comm, Finset.sum_div]
      refine Finset.sum_congr rfl fun j _ => ?_
      rw [Finset.sum_div]
      refine Finset.sum_congr rfl fun k _ => ?_
      simp only [Dsb.mean, rowwise, slice, hc]
      rw [div_mul_eq_mul_div, div_div, mul_comm (Finset.sum _ _), mul_div_right_comm]
    rw [e, ENNReal.ofReal_sum_of_nonneg fun j _ => Finset.sum_nonneg fun k hk =>
      mul_nonneg (hcn k (Finset.mem_range.1 hk)) (Finset.sum_nonneg fun i _ => sq_nonneg _)]
    refine Finset.sum_congr rfl fun j _ => ?_
    rw [ENNReal.ofReal_sum_of_nonneg fun k hk =>
      mul_nonneg (hcn k (Finset.mem_range.1 hk)) (Finset.sum_nonneg fun i _ => sq_nonneg _)]
    exact Finset.sum_congr rfl fun k hk => ENNReal.ofReal_mul (hcn k (Finset.mem_range.1 hk))
  rw [Rand.E_congr _ hval, fwdPaths, E_vmapR_sum (fun j => isProb_simulatePath sde _ _ ts)
    (fun _ p => ∑ k ∈ Finset.range ts.2.length, f k (p.getD 0 0) (p.getD (k + 1) 0))]
  rw [Finset.sum_congr rfl fun (j : Fin n) _ => E_path_sum hd (split key n j) (x0s j) ts hg f fun k hk => hf k hk _, Finset.sum_comm]
  refine Finset.sum_congr rfl fun k hk => ?_
  rw [Finset.mul_sum]
  exact Finset.sum_congr rfl fun j _ => lintegral_const_mul _ (hmb k (Finset.mem_range.1 hk) _)

end Expectation

section Minimiser
variable {ι : Type} [Fintype ι] [DecidableEq ι] {n : ℕ}

theorem measurable_noisedScore (sde : SDE) {t t0 : ℝ} (hQ : 0 < (discretise sde t t0).2) (π : Measure (ι → ℝ))
    [IsProbabilityMeasure π] : Measurable (noisedScore sde t t0 π) :=
  measurable_pi_iff.2 fun i => Score.measurable_score (Real.toNNReal_pos.2 hQ).ne' (measurable_scale _) i

/-- Optimality at one time. -/
theorem denoise_min (sde : SDE) {t t0 : ℝ} (hQ : 0 < (discretise sde t t0).2) (π : Measure (ι → ℝ))
    [IsProbabilityMeasure π] {s : (ι → ℝ) → ι → ℝ} (hs : Measurable s) :
    ∫⁻ x0, ∫⁻ x, ENNReal.ofReal (∑ i, (noisedScore sde t t0 π x i - condScore sde (x i) t (x0 i) t0) ^ 2)
      ∂(transLaw sde t t0 x0) ∂π ≤
    ∫⁻ x0, ∫⁻ x, ENNReal.ofReal (∑ i, (s x i - condScore sde (x i) t (x0 i) t0) ^ 2)
      ∂(transLaw sde t t0 x0) ∂π := by
  have hqc : ((discretise sde t t0).2.toNNReal : ℝ) = (discretise sde t t0).2 := Real.coe_toNNReal _ hQ.le
  have hcs : ∀ (x0 x : ι → ℝ) i, Score.cs (discretise sde t t0).2.toNNReal
      (fun i => (discretise sde t t0).1 * x0 i) x i = condScore sde (x i) t (x0 i) t0 := by
    intro x0 x i; rw [Score.cs, hqc]; rfl
  have h := Score.population_min (π := π) (Real.toNNReal_pos.2 hQ).ne' (measurable_scale (discretise sde t t0).1) hs
  simp only [hcs, ← noisedScore_eq] at h
  exact h

omit [Fintype ι] [DecidableEq ι] in
/-- Sums over a data set are integrals against its empirical law. -/
theorem lintegral_empirical (hn : n ≠ 0) (x0s : Fin n → ι → ℝ) (h : (ι → ℝ) → ℝ≥0∞) (hh : Measurable h) :
    ∑ j, h (x0s j) = n * ∫⁻ x0, h x0 ∂(empirical x0s) := by
  have hn0 : (n : ℝ≥0∞) ≠ 0 := by exact_mod_cast hn
  rw [empirical, lintegral_smul_measure, lintegral_finsetSum_measure, smul_eq_mul, ← mul_assoc,
    ENNReal.mul_inv_cancel hn0 (ENNReal.natCast_ne_top n), one_mul]
  exact Finset.sum_congr rfl fun j _ => (lintegral_dirac' _ hh).symm

instance isProb_empirical [NeZero n] (x0s : Fin n → ι → ℝ) : IsProbabilityMeasure (empirical x0s) := by
  refine ⟨?_⟩
  have hn0 : (n : ℝ≥0∞) ≠ 0 := by exact_mod_cast NeZero.ne n
  simp [empirical, ENNReal.inv_mul_cancel hn0 (ENNReal.natCast_ne_top n)]

omit [DecidableEq ι] in
theorem measurable_inner (sde : SDE) {t t0 : ℝ} (hQ : 0 ≤ (discretise sde t t0).2) {s : (ι → ℝ) → ι → ℝ}
    (hs : Measurable s) : Measurable fun x0 : ι → ℝ =>
      ∫⁻ x, ENNReal.ofReal (∑ i, (s x i - condScore sde (x i) t (x0 i) t0) ^ 2) ∂(transLaw sde t t0 x0) := by
  have hg : Measurable fun p : (ι → ℝ) × (ι → ℝ) =>
      ENNReal.ofReal (∑ i, (s p.2 i - condScore sde (p.2 i) t (p.1 i) t0) ^ 2) := by
    refine (Finset.measurable_sum _ fun i _ => Measurable.pow_const ?_ 2).ennreal_ofReal
    refine ((measurable_pi_apply i).comp (hs.comp measurable_snd)).sub ?_
    unfold condScore; fun_prop
  have h1 : ∀ x0 : ι → ℝ, ∫⁻ x, ENNReal.ofReal (∑ i, (s x i - condScore sde (x i) t (x0 i) t0) ^ 2)
      ∂(transLaw sde t t0 x0) = ∫⁻ z, ENNReal.ofReal (∑ i,
        (s (fun i => (discretise sde t t0).1 * x0 i + Real.sqrt (discretise sde t t0).2 * z i) i -
          condScore sde ((discretise sde t t0).1 * x0 i + Real.sqrt (discretise sde t t0).2 * z i) t (x0 i) t0) ^ 2)
        ∂(stdNormal ι) := fun x0 =>
    (lintegral_stdNormal hQ (fun i => (discretise sde t t0).1 * x0 i)
      (hg.comp (measurable_const.prodMk measurable_id))).symm
  rw [funext h1]
  have hm : Measurable fun p : (ι → ℝ) × (ι → ℝ) => ((p.1,
      fun i => (discretise sde t t0).1 * p.1 i + Real.sqrt (discretise sde t t0).2 * p.2 i) : (ι → ℝ) × (ι → ℝ)) :=
    measurable_fst.prodMk (measurable_pi_iff.2 fun i => by fun_prop)
  have h2 := hg.comp hm
  have : SFinite (stdNormal ι) := by unfold stdNormal; infer_instance
  exact h2.lintegral_prod_right'

/-- **C38, population.**  With the data drawn independently from `π`, no measurable network has a smaller expected loss
at given times than the score of the noised data law. -/
theorem C38_population_minimiser {sde : SDE} (hd : Defined sde) (key : Key) (π : Measure (ι → ℝ))
    [IsProbabilityMeasure π] (ts : Arr1 ℝ) (hg : GridOk sde ts.1 ts.2)
    (hQ : ∀ t ∈ ts.2, 0 < (discretise sde t ts.1).2) {s : ℝ → (ι → ℝ) → ι → ℝ} (hs : ∀ t ∈ ts.2, Measurable (s t)) :
    ∫⁻ x0s, (fwdPaths sde key x0s ts).E (fun paths => ENNReal.ofReal
      (scoreValue (n := n) sde (rowwise fun t => noisedScore sde t ts.1 π) ts paths)) ∂(Measure.pi fun _ => π) ≤
    ∫⁻ x0s, (fwdPaths sde key x0s ts).E
      (fun paths => ENNReal.ofReal (scoreValue (n := n) sde (rowwise s) ts paths)) ∂(Measure.pi fun _ => π) := by
  have hQ' : ∀ k < ts.2.length, 0 < (discretise sde (timeAt ts (k + 1)) ts.1).2 := fun k hk => hQ _ (timeAt_mem hk)
  have hform : ∀ {s : ℝ → (ι → ℝ) → ι → ℝ}, (∀ t ∈ ts.2, Measurable (s t)) →
      ∫⁻ x0s, (fwdPaths sde key x0s ts).E
        (fun paths => ENNReal.ofReal (scoreValue (n := n) sde (rowwise s) ts paths)) ∂(Measure.pi fun _ => π) =
      ∑ k ∈ Finset.range ts.2.length,
        ENNReal.ofReal ((discretise sde (timeAt ts (k + 1)) ts.1).2 / (Fintype.card ι * (ts.2.length * n))) *
        ∑ _j : Fin n, ∫⁻ x0, ∫⁻ x, ENNReal.ofReal (∑ i, (s (timeAt ts (k + 1)) x i -
          condScore sde (x i) (timeAt ts (k + 1)) (x0 i) ts.1) ^ 2)
            ∂(transLaw sde (timeAt ts (k + 1)) ts.1 x0) ∂π := by
    intro s hs
    rw [lintegral_congr fun x0s => C38_expected_loss hd key x0s ts hg hQ' hs]
    have hmi : ∀ k < ts.2.length, Measurable _ := fun k hk =>
      measurable_inner sde (hQ' k hk).le (hs _ (timeAt_mem hk))
    have hmj : ∀ k < ts.2.length, ∀ j : Fin n, Measurable fun x0s : Fin n → ι → ℝ =>
        ∫⁻ x, ENNReal.ofReal (∑ i, (s (timeAt ts (k + 1)) x i -
          condScore sde (x i) (timeAt ts (k + 1)) (x0s j i) ts.1) ^ 2)
            ∂(transLaw sde (timeAt ts (k + 1)) ts.1 (x0s j)) := fun k hk j =>
      (hmi k hk).comp (measurable_pi_apply j)
    rw [lintegral_finsetSum _ fun k hk => (Finset.measurable_sum _ fun j _ =>
      hmj k (Finset.mem_range.1 hk) j).const_mul _]
    refine Finset.sum_congr rfl fun k hk => ?_
    have hk' := Finset.mem_range.1 hk
    rw [lintegral_const_mul _ (Finset.measurable_sum _ fun j _ => hmj k hk' j),
      lintegral_finsetSum _ fun j _ => hmj k hk' j]
    congr 1
    refine Finset.sum_congr rfl fun j _ => ?_
    exact (measurePreserving_eval (fun _ : Fin n => π) j).lintegral_comp (hmi k hk')
  rw [hform hs, hform fun t ht => measurable_noisedScore sde (hQ t ht) π]
  refine Finset.sum_le_sum fun k hk => mul_le_mul_right (Finset.sum_le_sum fun j _ => ?_) _
  have hk' := Finset.mem_range.1 hk
  exact denoise_min sde (hQ' k hk') π (hs _ (timeAt_mem hk'))

theorem supported_times (key : Key) (lo t0 T : ℝ) (nsteps : ℕ) (random : Bool) :
    (times key lo t0 T nsteps random).Supported := by
  unfold times
  split
  · unfold uniformIn uniforms
    refine Rand.Supported.map _ (Rand.Supported.map _ ⟨?_, fun _ => trivial⟩)
    have h1 : ∀ᵐ x ∂unifMeasure, x ∈ Set.Ico (0 : ℝ) 1 := by
      unfold unifMeasure
      exact ae_restrict_mem measurableSet_Ico
    exact (Measure.ae_pi_le_pi (Filter.eventually_pi fun _ => h1))
  · trivial

/-- **C38, data set.**  For every data set, over all the draws of the program (random or fixed times), no measurable
network that treats the samples separately has a smaller expected loss than the score of the noised empirical law. -/
theorem C38_dataset_minimiser [NeZero n] {sde : SDE} {t0 T : ℝ} {nsteps : ℕ} (hn : nsteps ≠ 0) (hT : t0 + eps ≤ T)
    (hadm : ∀ t, t0 ≤ t → t ≤ T → Admissible sde t) (random : Bool) (key : Key) (x0s : Fin n → ι → ℝ)
    {s : ℝ → (ι → ℝ) → ι → ℝ} (hs : ∀ t, Measurable (s t)) :
    (lossFn sde (rowwise fun t => noisedScore sde t t0 (empirical x0s)) t0 T nsteps random "score" key x0s).E okValue ≤
    (lossFn sde (rowwise s) t0 T nsteps random "score" key x0s).E okValue := by
  have he : 0 < eps := by norm_num [eps]
  have hd : Defined sde := Admissible.defined (hadm t0 le_rfl (by linarith))
  simp only [lossFn, Rand.E_bind, Rand.pure_eq, Rand.E_ret]
  refine Rand.E_mono_supported (supported_times ..) fun ts hts => ?_
  obtain ⟨h1, -, h3, h4⟩ := grid_facts hn hT hadm random hts
  obtain ⟨-, -, -, h5⟩ := times_ok hn hT random hts
  have hok : ∀ nn paths, okValue (lossValue (ι := ι) (n := n) sde nn "score" ts paths) =
      ENNReal.ofReal (scoreValue sde nn ts paths) := fun nn paths => rfl
  simp only [hok]
  subst h1
  have hQt : ∀ t ∈ ts.2, 0 < (discretise sde t ts.1).2 := fun t ht =>
    (C29_bounds (hadm t (h5 t ht).1.le (h5 t ht).2) (hadm ts.1 le_rfl (by linarith)) (h5 t ht).1).2.1
  rw [C38_expected_loss hd _ x0s ts h3 h4 fun t ht => measurable_noisedScore sde (hQt t ht) _,
    C38_expected_loss hd _ x0s ts h3 h4 fun t _ => hs t]
  refine Finset.sum_le_sum fun k hk => mul_le_mul_right ?_ _
  have hk' := Finset.mem_range.1 hk
  rw [lintegral_empirical (NeZero.ne n) x0s _
      (measurable_inner sde (h4 k hk').le (measurable_noisedScore sde (h4 k hk') _)),
    lintegral_empirical (NeZero.ne n) x0s _ (measurable_inner sde (h4 k hk').le (hs _))]
  exact mul_le_mul_right (denoise_min sde (h4 k hk') _ (hs _)) _

/-- The hypotheses are met, for instance by the Ornstein–Uhlenbeck process on `[0, 2]`. -/
example : ∀ t, (0 : ℝ) ≤ t → t ≤ 2 → Admissible (.const (-1) 1) t := fun _ _ _ => ⟨by norm_num, by norm_num⟩

end Minimiser

end Props
end Fbs
