import Verif.Props.Dsb
import Verif.Lemmas.Score
import Verif.Lemmas.Gauss
import Mathlib.Probability.Moments.Variance

/-!
# C75: what the iterative proportional fitting losses learn
-/

open MeasureTheory ProbabilityTheory
open scoped ENNReal NNReal
open Fbs.Jax

namespace Fbs
namespace Spec

variable {κ : Type} [Fintype κ]

/-- Law of the `k`-th point of the Euler chain on the times `t` with drift `f` and dispersion `σ`, started from `π`. -/
noncomputable def chainLaw (f : (κ → ℝ) → ℝ → (κ → ℝ)) (σ : ℝ → ℝ) (t : ℕ → ℝ) (π : Measure (κ → ℝ)) : ℕ → Measure (κ → ℝ)
  | 0 => π
  | k + 1 => ((chainLaw f σ t π k).prod (stdNormal κ)).map fun p i =>
      p.1 i + f p.1 (t k) i * |t (k + 1) - t k| + Real.sqrt |t (k + 1) - t k| * σ (t k) * p.2 i

/-- A function of one sample applied to every sample of the batch. -/
def perSample {n : ℕ} (f : (κ → ℝ) → ℝ → (κ → ℝ)) (x : Fin n × κ → ℝ) (t : ℝ) : Fin n × κ → ℝ :=
  fun p => f (fun i => x (p.1, i)) t p.2

/-- The batch as one array. -/
def batch {n : ℕ} (xs : Fin n → κ → ℝ) : Fin n × κ → ℝ := fun p => xs p.1 p.2

/-- Expected loss for a batch of independent samples from `π`. -/
noncomputable def expectedIpf (n : ℕ) (key : Key) (π : Measure (κ → ℝ)) (ts : Arr1 ℝ) (b f : (κ → ℝ) → ℝ → (κ → ℝ)) (σ : ℝ → ℝ) :
    ℝ≥0∞ :=
  ∫⁻ xs, (Dsb.ipfLossCont key (batch xs) ts (perSample (n := n) b) (perSample f) σ).E ENNReal.ofReal
    ∂(Measure.pi fun _ : Fin n => π)

/-- Law of the `k`-th point of the chain `X_{k+1} = F(X_k, s_k) + sqrt(γ_k) z`, started from `π`. -/
noncomputable def discLaw (F : (κ → ℝ) → ℝ → (κ → ℝ)) (s γ : ℕ → ℝ) (π : Measure (κ → ℝ)) : ℕ → Measure (κ → ℝ)
  | 0 => π
  | k + 1 => ((discLaw F s γ π k).prod (stdNormal κ)).map fun p i => F p.1 (s k) i + Real.sqrt (γ k) * p.2 i

/-- Expected discrete loss for a batch of independent samples from `π`. -/
noncomputable def expectedIpfDisc (n : ℕ) (key : Key) (π : Measure (κ → ℝ)) (ks : Arr1 ℝ) (gammas : List ℝ)
    (B F : (κ → ℝ) → ℝ → (κ → ℝ)) : ℝ≥0∞ :=
  ∫⁻ xs, (Dsb.ipfLossDisc (batch xs) ks gammas (perSample (n := n) B) (perSample F) key).E ENNReal.ofReal
    ∂(Measure.pi fun _ : Fin n => π)

end Spec

namespace Props
open Dsb Spec

variable {κ : Type} [Fintype κ] {f b : (κ → ℝ) → ℝ → (κ → ℝ)} {σ : ℝ → ℝ}

/-- The rows of a finite array as a sequence. -/
def rowSeq {K : ℕ} {β : Type} (w : Fin K → β → ℝ) (k : ℕ) : β → ℝ := if h : k < K then w ⟨k, h⟩ else 0

omit [Fintype κ] in
theorem getD_ofFn_rowSeq {K : ℕ} (w : Fin K → κ → ℝ) : (fun k => (List.ofFn w).getD k 0) = rowSeq w := by
  funext k
  by_cases h : k < K
  · simp [rowSeq, h]
  · simp [rowSeq, h]

omit [Fintype κ] in
theorem rowSeq_cons {K : ℕ} (z : κ → ℝ) (w : Fin K → κ → ℝ) :
    rowSeq (Fin.cons z w : Fin (K + 1) → κ → ℝ) 0 = z ∧
      (fun k => rowSeq (Fin.cons z w : Fin (K + 1) → κ → ℝ) (k + 1)) = rowSeq w := by
  refine ⟨by simp [rowSeq], ?_⟩
  funext k
  by_cases h : k < K
  · have h' : (⟨k + 1, by omega⟩ : Fin (K + 1)) = Fin.succ ⟨k, h⟩ := rfl
    simp only [rowSeq, Nat.add_lt_add_iff_right, h, dif_pos, h', Fin.cons_succ]
  · simp [rowSeq, h]

omit [Fintype κ] in
theorem measurable_rowSeq {K : ℕ} (k : ℕ) : Measurable fun w : Fin K → κ → ℝ => rowSeq w k := by
  unfold rowSeq
  split_ifs
  · exact measurable_pi_apply _
  · exact measurable_const

omit [Fintype κ] in
theorem measurable_eulerMap {t : ℝ} (hf : Measurable fun x => f x t) (dt c : ℝ) :
    Measurable fun p : (κ → ℝ) × (κ → ℝ) => (fun i => p.1 i + f p.1 t i * dt + c * p.2 i : κ → ℝ) := by
  refine measurable_pi_iff.2 fun i => ?_
  have h1 : Measurable fun p : (κ → ℝ) × (κ → ℝ) => f p.1 t i := (measurable_pi_apply i).comp (hf.comp measurable_fst)
  exact ((((measurable_pi_apply i).comp measurable_fst).add (h1.mul_const _))).add
    (((measurable_pi_apply i).comp measurable_snd).const_mul _)

omit [Fintype κ] in
theorem measurable_visited {K : ℕ} (t : ℕ → ℝ) : ∀ k, (∀ j < k, Measurable fun x => f x (t j)) →
    Measurable fun p : (κ → ℝ) × (Fin K → κ → ℝ) => visited f σ t (rowSeq p.2) p.1 k
  | 0, _ => measurable_fst
  | k + 1, hf => by
    have ih := measurable_visited (K := K) t k fun j hj => hf j (by omega)
    exact (measurable_eulerMap (hf k (by omega)) _ _).comp (ih.prodMk ((measurable_rowSeq k).comp measurable_snd))

theorem isProb_chainLaw (t : ℕ → ℝ) (π : Measure (κ → ℝ)) [IsProbabilityMeasure π] : ∀ k,
    (∀ j < k, Measurable fun x => f x (t j)) → IsProbabilityMeasure (chainLaw f σ t π k)
  | 0, _ => inferInstanceAs (IsProbabilityMeasure π)
  | k + 1, hf => by
    have := isProb_chainLaw t π k fun j hj => hf j (by omega)
    exact Measure.isProbabilityMeasure_map (measurable_eulerMap (hf k (by omega)) _ _).aemeasurable

theorem chainLaw_shift (t : ℕ → ℝ) (π : Measure (κ → ℝ)) (k : ℕ) :
    chainLaw f σ (fun k => t (k + 1)) (chainLaw f σ t π 1) k = chainLaw f σ t π (k + 1) := by
  induction k with
  | zero => rfl
  | succ k ih => rw [chainLaw, ih, chainLaw.eq_def _ _ _ _ (k + 1 + 1)]

theorem lintegral_chainLaw_succ (t : ℕ → ℝ) (π : Measure (κ → ℝ)) [IsProbabilityMeasure π] (k : ℕ)
    (hf : ∀ j < k + 1, Measurable fun x => f x (t j)) {F : (κ → ℝ) → ℝ≥0∞} (hF : Measurable F) :
    ∫⁻ y, F y ∂(chainLaw f σ t π (k + 1)) = ∫⁻ x, ∫⁻ z, F (fun i => x i + f x (t k) i * |t (k + 1) - t k| +
      Real.sqrt |t (k + 1) - t k| * σ (t k) * z i) ∂(stdNormal κ) ∂(chainLaw f σ t π k) := by
  have hE := measurable_eulerMap (hf k (by omega)) |t (k + 1) - t k| (Real.sqrt |t (k + 1) - t k| * σ (t k))
  rw [chainLaw, lintegral_map hF hE]
  exact lintegral_prod _ (hF.comp hE).aemeasurable

/-- Two consecutive points of the simulated chain. -/
theorem lintegral_visited_pair : ∀ (k K : ℕ) (t : ℕ → ℝ) (π : Measure (κ → ℝ)) [IsProbabilityMeasure π], k < K →
    (∀ j < k + 1, Measurable fun x => f x (t j)) → ∀ {G : (κ → ℝ) × (κ → ℝ) → ℝ≥0∞}, Measurable G →
    ∫⁻ x, ∫⁻ w, G (visited f σ t (rowSeq w) x k, visited f σ t (rowSeq w) x (k + 1))
      ∂(Measure.pi fun _ : Fin K => stdNormal κ) ∂π =
    ∫⁻ x, ∫⁻ z, G (x, fun i => x i + f x (t k) i * |t (k + 1) - t k| +
      Real.sqrt |t (k + 1) - t k| * σ (t k) * z i) ∂(stdNormal κ) ∂(chainLaw f σ t π k)
  | 0, K + 1, t, π, _, _, hf, G, hG => by
    refine lintegral_congr fun x => ?_
    have hm : Measurable fun w : Fin (K + 1) → κ → ℝ => G (visited f σ t (rowSeq w) x 0, visited f σ t (rowSeq w) x 1) :=
      hG.comp (((measurable_visited t 0 (by simp)).prodMk (measurable_visited t 1 hf)).comp
        (measurable_const.prodMk measurable_id))
    rw [lintegral_rows (stdNormal κ) K hm]
    refine lintegral_congr fun z => ?_
    simp only [visited, (rowSeq_cons z _).1]
    simp
  | k + 1, K + 1, t, π, _, hk, hf, G, hG => by
    have hf' : ∀ j < k + 1, Measurable fun x => f x (t (j + 1)) := fun j hj => hf (j + 1) (by omega)
    have := isProb_chainLaw (f := f) (σ := σ) t π 1 fun j hj => hf j (by omega)
    have ih := lintegral_visited_pair k K (fun k => t (k + 1)) (chainLaw f σ t π 1) (by omega) hf' hG
    rw [chainLaw_shift] at ih
    rw [← ih, lintegral_chainLaw_succ t π 0 (fun j hj => hf j (by omega))]
    · refine lintegral_congr fun x => ?_
      have hm : Measurable fun w : Fin (K + 1) → κ → ℝ =>
          G (visited f σ t (rowSeq w) x (k + 1), visited f σ t (rowSeq w) x (k + 1 + 1)) :=
        hG.comp (((measurable_visited t (k + 1) fun j hj => hf j (by omega)).prodMk
          (measurable_visited t (k + 1 + 1) hf)).comp (measurable_const.prodMk measurable_id))
      rw [lintegral_rows (stdNormal κ) K hm]
      refine lintegral_congr fun z => lintegral_congr fun w => ?_
      have e := visited_shift f σ t (rowSeq (Fin.cons z w : Fin (K + 1) → κ → ℝ)) x
      rw [(rowSeq_cons z w).2] at e
      have e1 : visited f σ t (rowSeq (Fin.cons z w : Fin (K + 1) → κ → ℝ)) x 1 = fun i =>
          x i + f x (t 0) i * |t (0 + 1) - t 0| + Real.sqrt |t (0 + 1) - t 0| * σ (t 0) * z i := by
        simp only [visited, (rowSeq_cons z w).1]
      rw [← e k, ← e (k + 1), e1]
    · refine Measurable.lintegral_prod_right' (f := fun p : (κ → ℝ) × (Fin K → κ → ℝ) =>
        G (visited f σ (fun k => t (k + 1)) (rowSeq p.2) p.1 k, visited f σ (fun k => t (k + 1)) (rowSeq p.2) p.1 (k + 1))) ?_
      exact hG.comp ((measurable_visited _ k fun j hj => hf' j (by omega)).prodMk (measurable_visited _ (k + 1) hf'))

omit [Fintype κ] in
theorem visited_perSample {n : ℕ} (t : ℕ → ℝ) (r : ℕ → Fin n × κ → ℝ) (xs : Fin n → κ → ℝ) (j : Fin n) : ∀ k,
    (fun i => visited (perSample f) σ t r (batch xs) k (j, i)) = visited f σ t (fun k i => r k (j, i)) (xs j) k
  | 0 => rfl
  | k + 1 => by
    have ih := visited_perSample t r xs j k
    funext i
    simp only [visited, perSample, ih]
    rw [congrFun ih i]

/-- The mismatch of one step as a function of the two points. -/
noncomputable def gap (b f : (κ → ℝ) → ℝ → (κ → ℝ)) (t : ℕ → ℝ) (k : ℕ) (p : (κ → ℝ) × (κ → ℝ)) (i : κ) : ℝ :=
  b p.2 (t (k + 1)) i * |t (k + 1) - t k| -
    ((p.1 i + f p.1 (t k) i * |t (k + 1) - t k|) - (p.2 i + f p.2 (t k) i * |t (k + 1) - t k|))

omit [Fintype κ] in
theorem measurable_gap {t : ℕ → ℝ} {k : ℕ} (hf : Measurable fun x => f x (t k)) (hb : Measurable fun x => b x (t (k + 1))) (i : κ) :
    Measurable fun p => gap b f t k p i := by
  have h1 : Measurable fun p : (κ → ℝ) × (κ → ℝ) => f p.1 (t k) i := (measurable_pi_apply i).comp (hf.comp measurable_fst)
  have h2 : Measurable fun p : (κ → ℝ) × (κ → ℝ) => f p.2 (t k) i := (measurable_pi_apply i).comp (hf.comp measurable_snd)
  have h3 : Measurable fun p : (κ → ℝ) × (κ → ℝ) => b p.2 (t (k + 1)) i := (measurable_pi_apply i).comp (hb.comp measurable_snd)
  unfold gap
  exact (h3.mul_const _).sub (((((measurable_pi_apply i).comp measurable_fst)).add (h1.mul_const _)).sub
    ((((measurable_pi_apply i).comp measurable_snd)).add (h2.mul_const _)))

/-- Contribution of step `k` to the expected loss. -/
noncomputable def stepLoss (b f : (κ → ℝ) → ℝ → (κ → ℝ)) (σ : ℝ → ℝ) (t : ℕ → ℝ) (π : Measure (κ → ℝ)) (k : ℕ) : ℝ≥0∞ :=
  ∫⁻ x, ∫⁻ z, ENNReal.ofReal (∑ i, gap b f t k (x, fun i => x i + f x (t k) i * |t (k + 1) - t k| +
      Real.sqrt |t (k + 1) - t k| * σ (t k) * z i) i ^ 2) ∂(stdNormal κ) ∂(chainLaw f σ t π k)

theorem measurePreserving_row {n : ℕ} (j : Fin n) :
    MeasurePreserving (fun (w : Fin n × κ → ℝ) i => w (j, i)) (stdNormal (Fin n × κ)) (stdNormal κ) := by
  have hm : Measurable fun (w : Fin n × κ → ℝ) i => w (j, i) := measurable_pi_iff.2 fun i => measurable_pi_apply _
  refine ⟨hm, (Measure.pi_eq fun s hs => ?_).symm⟩
  rw [Measure.map_apply hm (MeasurableSet.univ_pi hs)]
  have : (fun (w : Fin n × κ → ℝ) i => w (j, i)) ⁻¹' Set.univ.pi s =
      Set.univ.pi fun p : Fin n × κ => if p.1 = j then s p.2 else Set.univ := by
    ext w
    simp only [Set.mem_preimage, Set.mem_pi, Set.mem_univ, true_implies, Prod.forall]
    refine ⟨fun h a i => ?_, fun h i => by simpa using h j i⟩
    by_cases ha : a = j
    · subst ha; simpa using h i
    · simp [ha]
  rw [this, stdNormal, Measure.pi_pi, Fintype.prod_prod_type, Finset.prod_eq_single j]
  · simp
  · intro a _ ha; simp [ha]
  · simp

/-- The squared mismatch of step `k` of a simulated path. -/
noncomputable def pathLoss (b f : (κ → ℝ) → ℝ → (κ → ℝ)) (σ : ℝ → ℝ) (t : ℕ → ℝ) (k : ℕ) {K : ℕ} (x : κ → ℝ)
    (w : Fin K → κ → ℝ) : ℝ≥0∞ :=
  ENNReal.ofReal (∑ i, gap b f t k (visited f σ t (rowSeq w) x k, visited f σ t (rowSeq w) x (k + 1)) i ^ 2)

theorem measurable_gapSum {t : ℕ → ℝ} {k : ℕ} (hf : Measurable fun x => f x (t k)) (hb : Measurable fun x => b x (t (k + 1))) :
    Measurable fun p => ENNReal.ofReal (∑ i, gap b f t k p i ^ 2) :=
  (Finset.measurable_sum _ fun i _ => (measurable_gap hf hb i).pow_const 2).ennreal_ofReal

theorem measurable_pathLoss {t : ℕ → ℝ} {k K : ℕ} (hk : k < K) (hf : ∀ k < K, Measurable fun x => f x (t k))
    (hb : ∀ k < K, Measurable fun x => b x (t (k + 1))) :
    Measurable fun p : (κ → ℝ) × (Fin K → κ → ℝ) => pathLoss b f σ t k p.1 p.2 :=
  (measurable_gapSum (hf k hk) (hb k hk)).comp ((measurable_visited t k fun j hj => hf j (by omega)).prodMk
      (measurable_visited t (k + 1) fun j hj => hf j (by omega)))

theorem ipfValue_perSample {n : ℕ} (t : ℕ → ℝ) (K : ℕ) (xs : Fin n → κ → ℝ) (w : Fin K → Fin n × κ → ℝ) :
    ENNReal.ofReal (ipfValue (perSample b) (perSample f) t
      (visited (perSample f) σ t (fun k => (List.ofFn w).getD k 0) (batch xs)) K) =
    ∑ k ∈ Finset.range K, ∑ j : Fin n, ENNReal.ofReal (1 / (K * (n * Fintype.card κ))) *
      pathLoss b f σ t k (xs j) fun k i => w k (j, i) := by
  set c : ℝ := 1 / (K * (n * Fintype.card κ)) with hc
  have hc0 : 0 ≤ c := by positivity
  have e : ipfValue (perSample b) (perSample f) t (visited (perSample f) σ t (fun k => (List.ofFn w).getD k 0) (batch xs)) K =
      ∑ k ∈ Finset.range K, ∑ j : Fin n, c * ∑ i, gap b f t k
      (visited f σ t (rowSeq fun k i => w k (j, i)) (xs j) k, visited f σ t (rowSeq fun k i => w k (j, i)) (xs j) (k + 1)) i ^ 2 := by
    rw [ipfValue, Finset.sum_div]
    refine Finset.sum_congr rfl fun k _ => ?_
    rw [← Finset.mul_sum, Fintype.sum_prod_type, hc, Fintype.card_prod, Fintype.card_fin, div_div, one_div,
      inv_mul_eq_div, Nat.cast_mul, mul_comm (_ * _) (K : ℝ)]
    congr 1
    refine Finset.sum_congr rfl fun j _ => Finset.sum_congr rfl fun i _ => ?_
    have hr : (fun k i => (List.ofFn w).getD k 0 (j, i)) = rowSeq fun k i => w k (j, i) := by
      have h := getD_ofFn_rowSeq w
      funext k i
      rw [congrFun (congrFun h k) (j, i)]
      by_cases hk : k < K <;> simp [rowSeq, hk]
    have hv := fun k => visited_perSample (f := f) (σ := σ) t (fun k => (List.ofFn w).getD k 0) xs j k
    rw [hr] at hv
    simp only [mismatch, gap, perSample]
    rw [← hv k, ← hv (k + 1)]
  rw [e, ENNReal.ofReal_sum_of_nonneg fun k _ => Finset.sum_nonneg fun j _ =>
    mul_nonneg hc0 (Finset.sum_nonneg fun i _ => sq_nonneg _)]
  refine Finset.sum_congr rfl fun k _ => ?_
  rw [ENNReal.ofReal_sum_of_nonneg fun j _ => mul_nonneg hc0 (Finset.sum_nonneg fun i _ => sq_nonneg _)]
  exact Finset.sum_congr rfl fun j _ => ENNReal.ofReal_mul hc0

/-- The expected loss is the mean of the contributions of the steps. -/
theorem expectedIpf_eq {n : ℕ} [NeZero n] (key : Key) (π : Measure (κ → ℝ)) [IsProbabilityMeasure π] (t : ℕ → ℝ) (K : ℕ)
    (hf : ∀ k < K, Measurable fun x => f x (t k)) (hb : ∀ k < K, Measurable fun x => b x (t (k + 1))) :
    expectedIpf n key π (grid t K) b f σ =
      ∑ k ∈ Finset.range K, ENNReal.ofReal (1 / (K * Fintype.card κ)) * stepLoss b f σ t π k := by
  have hn : (n : ℝ) ≠ 0 := by exact_mod_cast NeZero.ne n
  have hrow : ∀ j : Fin n, MeasurePreserving (fun (w : Fin K → Fin n × κ → ℝ) k i => w k (j, i))
      (Measure.pi fun _ => stdNormal (Fin n × κ)) (Measure.pi fun _ => stdNormal κ) := fun j =>
    measurePreserving_pi _ _ fun _ => measurePreserving_row j
  have hXm : ∀ k < K, Measurable fun p : (κ → ℝ) × (Fin K → κ → ℝ) => pathLoss b f σ t k p.1 p.2 :=
    fun k hk => measurable_pathLoss hk hf hb
  have hst : ∀ k < K, ∫⁻ x, ∫⁻ w, pathLoss b f σ t k x w ∂(Measure.pi fun _ : Fin K => stdNormal κ) ∂π = stepLoss b f σ t π k :=
    fun k hk => lintegral_visited_pair k K t π hk (fun j hj => hf j (by omega)) (measurable_gapSum (hf k hk) (hb k hk))
  have hval := ipfValue_perSample (n := n) (b := b) (f := f) (σ := σ) t K
  generalize pathLoss b f σ t = P at *
  have hIm : ∀ k < K, Measurable fun x => ∫⁻ w, P k x w ∂(Measure.pi fun _ : Fin K => stdNormal κ) :=
    fun k hk => (hXm k hk).lintegral_prod_right'
  have hE : ∀ xs : Fin n → κ → ℝ, (ipfLossCont key (batch xs) (grid t K) (perSample b) (perSample f) σ).E ENNReal.ofReal =
      ∑ k ∈ Finset.range K, ∑ j : Fin n, ENNReal.ofReal (1 / (K * (n * Fintype.card κ))) *
        ∫⁻ w, P k (xs j) w ∂(Measure.pi fun _ : Fin K => stdNormal κ) := by
    intro xs
    rw [C37_cont_value]
    simp only [normalRows, Rand.E_map, Rand.E_sample, hval xs]
    have hm : ∀ k < K, ∀ j : Fin n, Measurable fun w : Fin K → Fin n × κ → ℝ => P k (xs j) fun k i => w k (j, i) :=
      fun k hk j => (hXm k hk).comp (measurable_const.prodMk (hrow j).measurable)
    rw [lintegral_finsetSum _ fun k hk => Finset.measurable_sum _ fun j _ => (hm k (Finset.mem_range.1 hk) j).const_mul _]
    refine Finset.sum_congr rfl fun k hk => ?_
    have hk' := Finset.mem_range.1 hk
    rw [lintegral_finsetSum _ fun j _ => (hm k hk' j).const_mul _]
    refine Finset.sum_congr rfl fun j _ => ?_
    rw [lintegral_const_mul _ (hm k hk' j)]
    congr 1
    exact (hrow j).lintegral_comp (f := fun w => P k (xs j) w) ((hXm k hk').comp (measurable_const.prodMk measurable_id))
  have hIj : ∀ k < K, ∀ j : Fin n, Measurable fun xs : Fin n → κ → ℝ =>
      ∫⁻ w, P k (xs j) w ∂(Measure.pi fun _ : Fin K => stdNormal κ) := fun k hk j =>
    (hIm k hk).comp (measurable_pi_apply j)
  rw [expectedIpf, lintegral_congr hE, lintegral_finsetSum _ fun k hk => Finset.measurable_sum _ fun j _ =>
    (hIj k (Finset.mem_range.1 hk) j).const_mul _]
  refine Finset.sum_congr rfl fun k hk => ?_
  have hk' := Finset.mem_range.1 hk
  rw [lintegral_finsetSum _ fun j _ => (hIj k hk' j).const_mul _]
  have h1 : ∀ j : Fin n, ∫⁻ xs, ENNReal.ofReal (1 / (K * (n * Fintype.card κ))) *
        ∫⁻ w, P k (xs j) w ∂(Measure.pi fun _ : Fin K => stdNormal κ) ∂(Measure.pi fun _ : Fin n => π) =
      ENNReal.ofReal (1 / (K * (n * Fintype.card κ))) * stepLoss b f σ t π k := by
    intro j
    rw [lintegral_const_mul _ (hIj k hk' j)]
    congr 1
    exact ((measurePreserving_eval (fun _ : Fin n => π) j).lintegral_comp (hIm k hk')).trans (hst k hk')
  rw [Finset.sum_congr rfl fun j _ => h1 j, Finset.sum_const, Finset.card_univ, Fintype.card_fin, nsmul_eq_mul, ← mul_assoc]
  congr 1
  rw [← ENNReal.ofReal_natCast, ← ENNReal.ofReal_mul (by positivity)]
  congr 1
  field_simp

/-- The contribution of a step as a denoising objective. -/
theorem stepLoss_eq (π : Measure (κ → ℝ)) {t : ℕ → ℝ} {k : ℕ}
    (hf : Measurable fun x => f x (t k)) (hb : Measurable fun x => b x (t (k + 1))) (hσ : σ (t k) ≠ 0) (ht : t (k + 1) ≠ t k)
    {q : ℝ≥0} (hq : (q : ℝ) = σ (t k) ^ 2 * |t (k + 1) - t k|) :
    stepLoss b f σ t π k = ENNReal.ofReal (q ^ 2) * ∫⁻ a, ∫⁻ x, ENNReal.ofReal (∑ i,
      ((b x (t (k + 1)) i + f x (t k) i) / σ (t k) ^ 2 -
        Score.cs q (fun i => a i + f a (t k) i * |t (k + 1) - t k|) x i) ^ 2)
      ∂(Measure.pi fun i => gaussianReal (a i + f a (t k) i * |t (k + 1) - t k|) q) ∂(chainLaw f σ t π k) := by
  have hd : |t (k + 1) - t k| ≠ 0 := abs_ne_zero.2 (sub_ne_zero.2 ht)
  have hc : ((Real.sqrt |t (k + 1) - t k| * σ (t k)) ^ 2).toNNReal * 1 = q := by
    rw [mul_one, mul_pow, Real.sq_sqrt (abs_nonneg _)]
    refine NNReal.eq ?_
    rw [Real.coe_toNNReal _ (by positivity), hq, mul_comm]
  rw [stepLoss, ← lintegral_const_mul' _ _ ENNReal.ofReal_ne_top]
  refine lintegral_congr fun a => ?_
  have h := gaussProd_map (0 : κ → ℝ) 1 (fun i => a i + f a (t k) i * |t (k + 1) - t k|) (Real.sqrt |t (k + 1) - t k| * σ (t k))
  rw [hc] at h
  simp only [Pi.zero_apply, mul_zero, add_zero] at h
  have hm : Measurable fun x => ENNReal.ofReal (∑ i, gap b f t k (a, x) i ^ 2) :=
    (measurable_gapSum hf hb).comp (measurable_const.prodMk measurable_id)
  have h2 := lintegral_map (μ := gaussProd (0 : κ → ℝ) 1) hm
    (g := fun z i => a i + f a (t k) i * |t (k + 1) - t k| + Real.sqrt |t (k + 1) - t k| * σ (t k) * z i) (by fun_prop)
  rw [h] at h2
  rw [← lintegral_const_mul' _ _ ENNReal.ofReal_ne_top]
  refine h2.symm.trans (lintegral_congr fun x => ?_)
  rw [← ENNReal.ofReal_mul (sq_nonneg _), Finset.mul_sum]
  refine congrArg _ (Finset.sum_congr rfl fun i _ => ?_)
  rw [← mul_pow, gap, Score.cs, hq]
  field_simp
  ring

/-- The law of the next point has the mixture density. -/
theorem chainLaw_succ_density (π : Measure (κ → ℝ)) [IsProbabilityMeasure π] {t : ℕ → ℝ} {k : ℕ}
    (hf : ∀ j < k + 1, Measurable fun x => f x (t j)) {q : ℝ≥0}
    (hq : (q : ℝ) = σ (t k) ^ 2 * |t (k + 1) - t k|) {F : (κ → ℝ) → ℝ≥0∞} (hF : Measurable F) :
    ∫⁻ x, F x ∂(chainLaw f σ t π (k + 1)) =
      ∫⁻ a, ∫⁻ x, F x ∂(Measure.pi fun i => gaussianReal (a i + f a (t k) i * |t (k + 1) - t k|) q) ∂(chainLaw f σ t π k) := by
  rw [lintegral_chainLaw_succ t π k hf hF]
  refine lintegral_congr fun a => ?_
  have hc : ((Real.sqrt |t (k + 1) - t k| * σ (t k)) ^ 2).toNNReal * 1 = q := by
    rw [mul_one, mul_pow, Real.sq_sqrt (abs_nonneg _)]
    refine NNReal.eq ?_
    rw [Real.coe_toNNReal _ (by positivity), hq, mul_comm]
  have h := gaussProd_map (0 : κ → ℝ) 1 (fun i => a i + f a (t k) i * |t (k + 1) - t k|) (Real.sqrt |t (k + 1) - t k| * σ (t k))
  rw [hc] at h
  simp only [Pi.zero_apply, mul_zero, add_zero] at h
  have h2 := lintegral_map (μ := gaussProd (0 : κ → ℝ) 1) hF
    (g := fun z i => a i + f a (t k) i * |t (k + 1) - t k| + Real.sqrt |t (k + 1) - t k| * σ (t k) * z i) (by fun_prop)
  rw [h] at h2
  exact h2.symm

/-- The denoising objective of the zero function. -/
theorem denoise_zero (ν : Measure (κ → ℝ)) [IsProbabilityMeasure ν] {q : ℝ≥0} (hq : q ≠ 0) (m : (κ → ℝ) → κ → ℝ) :
    ∫⁻ a, ∫⁻ x, ENNReal.ofReal (∑ i, (0 - Score.cs q (m a) x i) ^ 2) ∂(Measure.pi fun i => gaussianReal (m a i) q) ∂ν =
      ENNReal.ofReal (Fintype.card κ / q) := by
  have hq' : (q : ℝ) ≠ 0 := by exact_mod_cast hq
  have h1 : ∀ c : ℝ, ∫⁻ x, ENNReal.ofReal ((0 - -(x - c) / q) ^ 2) ∂(gaussianReal c q) = ENNReal.ofReal (1 / q) := by
    intro c
    have hv := evariance_eq_lintegral_ofReal id (gaussianReal c q)
    rw [← ofReal_variance (memLp_id_gaussianReal 2), variance_id_gaussianReal] at hv
    simp only [id, integral_id_gaussianReal] at hv
    have : ∀ x : ℝ, ENNReal.ofReal ((0 - -(x - c) / q) ^ 2) = ENNReal.ofReal (1 / q ^ 2) * ENNReal.ofReal ((x - c) ^ 2) := by
      intro x
      rw [← ENNReal.ofReal_mul (by positivity)]
      congr 1
      field_simp
      ring
    rw [lintegral_congr this, lintegral_const_mul' _ _ ENNReal.ofReal_ne_top, ← hv, ← ENNReal.ofReal_mul (by positivity)]
    congr 1
    field_simp
  have h2 : ∀ a, ∫⁻ x, ENNReal.ofReal (∑ i, (0 - Score.cs q (m a) x i) ^ 2) ∂(Measure.pi fun i => gaussianReal (m a i) q) =
      ENNReal.ofReal (Fintype.card κ / q) := by
    intro a
    have h3 : ∀ x : κ → ℝ, ENNReal.ofReal (∑ i, (0 - Score.cs q (m a) x i) ^ 2) =
        ∑ i, ENNReal.ofReal ((0 - -(x i - m a i) / q) ^ 2) := fun x =>
      ENNReal.ofReal_sum_of_nonneg fun i _ => sq_nonneg _
    have hm : ∀ i, Measurable fun y : ℝ => ENNReal.ofReal ((0 - -(y - m a i) / q) ^ 2) := fun i => by fun_prop
    have hm' : ∀ i, Measurable fun x : κ → ℝ => ENNReal.ofReal ((0 - -(x i - m a i) / q) ^ 2) := fun i =>
      (hm i).comp (measurable_pi_apply i)
    rw [lintegral_congr h3, lintegral_finsetSum _ fun i _ => hm' i]
    rw [Finset.sum_congr rfl fun i _ =>
      ((measurePreserving_eval (fun i => gaussianReal (m a i) q) i).lintegral_comp (hm i)).trans (h1 _)]
    rw [Finset.sum_const, Finset.card_univ, nsmul_eq_mul, ← ENNReal.ofReal_natCast, ← ENNReal.ofReal_mul (by positivity)]
    congr 1
    field_simp
  rw [lintegral_congr h2]; simp

variable [DecidableEq κ]

/-- **C75.**  The samples of the batch are independent with law `π`, the simulated process is the Euler chain with drift `f`
and dispersion `σ`, and `p k` is the density of its point after `k + 1` steps.  A network `b'` that equals
`σ(t_k)² ∇ log p_k - f(·, t_k)` at every time `t_{k+1}` has a finite expected loss, at most the mean of `σ(t_k)² |t_{k+1} - t_k|`,
and the expected loss of any other measurable network `b` exceeds it by exactly the mean over the steps and entries of
`(t_{k+1} - t_k)² E(b - b')²` at the simulated points. -/
theorem C75_pythagoras (n : ℕ) [NeZero n] (key : Key) (π : Measure (κ → ℝ)) [IsProbabilityMeasure π] (t : ℕ → ℝ) (K : ℕ)
    (hf : ∀ k < K, Measurable fun x => f x (t k)) (hσ : ∀ k < K, σ (t k) ≠ 0) (ht : ∀ k < K, t (k + 1) ≠ t k) :
    ∃ p : ℕ → (κ → ℝ) → ℝ,
      (∀ k < K, Continuous (p k) ∧ (∀ x, 0 < p k x) ∧
        (∀ x i, DifferentiableAt ℝ (fun y => p k (Function.update x i y)) (x i)) ∧
        chainLaw f σ t π (k + 1) = (volume : Measure (κ → ℝ)).withDensity fun x => ENNReal.ofReal (p k x)) ∧
      ∀ b' : (κ → ℝ) → ℝ → (κ → ℝ),
        (∀ k < K, ∀ x i, b' x (t (k + 1)) i =
          σ (t k) ^ 2 * deriv (fun y => Real.log (p k (Function.update x i y))) (x i) - f x (t k) i) →
        (∀ k < K, Measurable fun x => b' x (t (k + 1))) ∧
        expectedIpf n key π (grid t K) b' f σ ≤
          ENNReal.ofReal ((∑ k ∈ Finset.range K, σ (t k) ^ 2 * |t (k + 1) - t k|) / K) ∧
        ∀ b : (κ → ℝ) → ℝ → (κ → ℝ), (∀ k < K, Measurable fun x => b x (t (k + 1))) →
          expectedIpf n key π (grid t K) b f σ = expectedIpf n key π (grid t K) b' f σ +
            ∑ k ∈ Finset.range K, ENNReal.ofReal ((t (k + 1) - t k) ^ 2 / (K * Fintype.card κ)) *
              ∫⁻ x, ENNReal.ofReal (∑ i, (b x (t (k + 1)) i - b' x (t (k + 1)) i) ^ 2) ∂(chainLaw f σ t π (k + 1)) := by
  have hprob : ∀ k ≤ K, IsProbabilityMeasure (chainLaw f σ t π k) := fun k hk =>
    isProb_chainLaw t π k fun j hj => hf j (by omega)
  set q : ℕ → ℝ≥0 := fun k => (σ (t k) ^ 2 * |t (k + 1) - t k|).toNNReal with hqdef
  have hq : ∀ k, (q k : ℝ) = σ (t k) ^ 2 * |t (k + 1) - t k| := fun k => Real.coe_toNNReal _ (by positivity)
  have hq0 : ∀ k < K, q k ≠ 0 := fun k hk => by
    have h1 := hσ k hk
    have h2 : |t (k + 1) - t k| ≠ 0 := abs_ne_zero.2 (sub_ne_zero.2 (ht k hk))
    intro h
    have h3 := hq k
    rw [h] at h3
    exact (mul_ne_zero (pow_ne_zero 2 h1) h2) h3.symm
  set m : ℕ → (κ → ℝ) → κ → ℝ := fun k a i => a i + f a (t k) i * |t (k + 1) - t k| with hmdef
  have hm : ∀ k < K, Measurable (m k) := fun k hk => measurable_pi_iff.2 fun i =>
    (measurable_pi_apply i).add (((measurable_pi_apply i).comp (hf k hk)).mul_const _)
  refine ⟨fun k => Score.mix (chainLaw f σ t π k) (q k) (m k), fun k hk => ?_, fun b' hb' => ?_⟩
  · have := hprob k hk.le
    refine ⟨Score.continuous_mix (hq0 k hk) (hm k hk), Score.mix_pos (hq0 k hk) (hm k hk), fun x i =>
      (Score.hasDerivAt_mix (hq0 k hk) (hm k hk) x i).differentiableAt, ?_⟩
    refine Measure.ext fun s hs => ?_
    have hi : Measurable (s.indicator (1 : (κ → ℝ) → ℝ≥0∞)) := measurable_one.indicator hs
    rw [← lintegral_indicator_one hs, ← lintegral_indicator_one hs,
      chainLaw_succ_density π (fun j hj => hf j (by omega)) (hq k) hi]
    exact Score.lintegral_mix (hq0 k hk) (hm k hk) hi
  · have hs' : ∀ k < K, ∀ x i, (b' x (t (k + 1)) i + f x (t k) i) / σ (t k) ^ 2 =
        Score.score (chainLaw f σ t π k) (q k) (m k) x i := fun k hk x i => by
      have := hσ k hk
      rw [hb' k hk, Score.score, Linear.grad]
      field_simp
      ring
    have hb'm : ∀ k < K, Measurable fun x => b' x (t (k + 1)) := fun k hk => by
      have := hprob k hk.le
      refine measurable_pi_iff.2 fun i => ?_
      have h1 := ((Score.measurable_score (π := chainLaw f σ t π k) (hq0 k hk) (hm k hk) i).const_mul (σ (t k) ^ 2)).sub
        ((measurable_pi_apply i).comp (hf k hk))
      refine (funext fun x => ?_ : (fun x => b' x (t (k + 1)) i) = _) ▸ h1
      rw [hb' k hk]; rfl
    refine ⟨hb'm, ?_, fun b hb => ?_⟩
    · rw [expectedIpf_eq key π t K hf hb'm, Finset.sum_div, ENNReal.ofReal_sum_of_nonneg fun k _ => by positivity]
      refine Finset.sum_le_sum fun k hk => ?_
      have hk' := Finset.mem_range.1 hk
      have := hprob k hk'.le
      rw [stepLoss_eq π (hf k hk') (hb'm k hk') (hσ k hk') (ht k hk') (hq k)]
      simp only [hs' k hk']
      have hz := Score.population_min (π := chainLaw f σ t π k) (hq0 k hk') (hm k hk') (s := fun _ _ => 0) measurable_const
      rw [denoise_zero _ (hq0 k hk')] at hz
      refine (mul_le_mul_right (mul_le_mul_right hz _) _).trans ?_
      rw [← ENNReal.ofReal_mul (by positivity), ← ENNReal.ofReal_mul (by positivity)]
      refine ENNReal.ofReal_le_ofReal ?_
      have hqk : (q k : ℝ) ≠ 0 := by exact_mod_cast hq0 k hk'
      rw [← hq]
      have : (0 : ℝ) ≤ q k / K := by positivity
      rcases Nat.eq_zero_or_pos (Fintype.card κ) with h0 | h0
      · simp [h0, this]
      · have hK : (K : ℝ) ≠ 0 := by
          have : 0 < K := by omega
          positivity
        have h0' : (Fintype.card κ : ℝ) ≠ 0 := by positivity
        refine le_of_eq ?_
        field_simp
    · rw [expectedIpf_eq key π t K hf hb, expectedIpf_eq key π t K hf hb'm, ← Finset.sum_add_distrib]
      refine Finset.sum_congr rfl fun k hk => ?_
      have hk' := Finset.mem_range.1 hk
      have := hprob k hk'.le
      have hsm : Measurable fun x i => (b x (t (k + 1)) i + f x (t k) i) / σ (t k) ^ 2 := measurable_pi_iff.2 fun i =>
        (((measurable_pi_apply i).comp (hb k hk')).add ((measurable_pi_apply i).comp (hf k hk'))).div_const _
      have hdm : Measurable fun x => ENNReal.ofReal (∑ i, (b x (t (k + 1)) i - b' x (t (k + 1)) i) ^ 2) :=
        (Finset.measurable_sum _ fun i _ => (((measurable_pi_apply i).comp (hb k hk')).sub
          ((measurable_pi_apply i).comp (hb'm k hk'))).pow_const 2).ennreal_ofReal
      rw [stepLoss_eq π (hf k hk') (hb k hk') (hσ k hk') (ht k hk') (hq k),
        stepLoss_eq π (hf k hk') (hb'm k hk') (hσ k hk') (ht k hk') (hq k)]
      simp only [hs' k hk']
      have hP := Score.population_pythagoras (π := chainLaw f σ t π k) (hq0 k hk') (hm k hk') hsm
      rw [chainLaw_succ_density π (fun j hj => hf j (by omega)) (hq k) hdm, hP, mul_add, mul_add]
      congr 1
      rw [← mul_assoc, ← ENNReal.ofReal_mul (by positivity), ← lintegral_const_mul' _ _ ENNReal.ofReal_ne_top,
        ← lintegral_const_mul' _ _ ENNReal.ofReal_ne_top]
      refine lintegral_congr fun a => ?_
      rw [← lintegral_const_mul' _ _ ENNReal.ofReal_ne_top, ← lintegral_const_mul' _ _ ENNReal.ofReal_ne_top]
      refine lintegral_congr fun x => ?_
      rw [← ENNReal.ofReal_mul (by positivity), ← ENNReal.ofReal_mul (by positivity), Finset.mul_sum, Finset.mul_sum]
      refine congrArg _ (Finset.sum_congr rfl fun i _ => ?_)
      rw [← hs' k hk', hq, ← sq_abs (t (k + 1) - t k)]
      have := hσ k hk'
      field_simp
      ring

/-- **C75, minimiser.**  Among all measurable networks `b'` has the smallest expected loss, and a measurable network attains
it exactly when it agrees with `b'` at every time `t_{k+1}` up to a Lebesgue null set of points. -/
theorem C75_minimiser (n : ℕ) [NeZero n] [Nonempty κ] (key : Key) (π : Measure (κ → ℝ)) [IsProbabilityMeasure π] (t : ℕ → ℝ)
    (K : ℕ) (hf : ∀ k < K, Measurable fun x => f x (t k)) (hσ : ∀ k < K, σ (t k) ≠ 0) (ht : ∀ k < K, t (k + 1) ≠ t k) :
    ∃ p : ℕ → (κ → ℝ) → ℝ,
      (∀ k < K, Continuous (p k) ∧ (∀ x, 0 < p k x) ∧
        chainLaw f σ t π (k + 1) = (volume : Measure (κ → ℝ)).withDensity fun x => ENNReal.ofReal (p k x)) ∧
      ∀ b' : (κ → ℝ) → ℝ → (κ → ℝ),
        (∀ k < K, ∀ x i, b' x (t (k + 1)) i =
          σ (t k) ^ 2 * deriv (fun y => Real.log (p k (Function.update x i y))) (x i) - f x (t k) i) →
        ∀ b : (κ → ℝ) → ℝ → (κ → ℝ), (∀ k < K, Measurable fun x => b x (t (k + 1))) →
          expectedIpf n key π (grid t K) b' f σ ≤ expectedIpf n key π (grid t K) b f σ ∧
          (expectedIpf n key π (grid t K) b f σ = expectedIpf n key π (grid t K) b' f σ ↔
            ∀ k < K, ∀ᵐ x : κ → ℝ, b x (t (k + 1)) = b' x (t (k + 1))) := by
  obtain ⟨p, hp, h⟩ := C75_pythagoras n key π t K hf hσ ht
  refine ⟨p, fun k hk => ⟨(hp k hk).1, (hp k hk).2.1, (hp k hk).2.2.2⟩, fun b' hb' b hb => ?_⟩
  obtain ⟨hb'm, hfin, hpy⟩ := h b' hb'
  have e := hpy b hb
  refine ⟨e.ge.trans' le_self_add, ?_⟩
  have hne : expectedIpf n key π (grid t K) b' f σ ≠ ∞ := ne_top_of_le_ne_top ENNReal.ofReal_ne_top hfin
  have hz : ∀ S : ℝ≥0∞, expectedIpf n key π (grid t K) b' f σ + S = expectedIpf n key π (grid t K) b' f σ ↔ S = 0 := fun S =>
    ⟨fun h => (ENNReal.add_right_inj hne).1 (h.trans (add_zero _).symm), fun h => by rw [h, add_zero]⟩
  rw [e, hz, Finset.sum_eq_zero_iff]
  refine forall_congr' fun k => ?_
  rw [Finset.mem_range]
  refine forall_congr' fun hk => ?_
  have hdm : Measurable fun x => ENNReal.ofReal (∑ i, (b x (t (k + 1)) i - b' x (t (k + 1)) i) ^ 2) :=
    (Finset.measurable_sum _ fun i _ => (((measurable_pi_apply i).comp (hb k hk)).sub
      ((measurable_pi_apply i).comp (hb'm k hk))).pow_const 2).ennreal_ofReal
  have hc : ENNReal.ofReal ((t (k + 1) - t k) ^ 2 / (K * Fintype.card κ)) ≠ 0 := by
    rw [ENNReal.ofReal_ne_zero_iff]
    have h1 : 0 < (t (k + 1) - t k) ^ 2 := by have := sub_ne_zero.2 (ht k hk); positivity
    have h2 : 0 < K := by omega
    have h3 : 0 < Fintype.card κ := Fintype.card_pos
    positivity
  have hpm : Measurable fun x => ENNReal.ofReal (p k x) := (hp k hk).1.measurable.ennreal_ofReal
  rw [mul_eq_zero, or_iff_right hc, lintegral_eq_zero_iff hdm, (hp k hk).2.2.2, Filter.EventuallyEq, ae_withDensity_iff hpm]
  refine Filter.eventually_congr (Filter.Eventually.of_forall fun x => ?_)
  have hpos := (hp k hk).2.1 x
  simp only [ne_eq, ENNReal.ofReal_eq_zero, not_le, hpos, true_implies, Pi.zero_apply]
  refine ⟨fun h => ?_, fun h => ?_⟩
  · have h0 := (Finset.sum_eq_zero_iff_of_nonneg fun i _ => sq_nonneg _).1
      (le_antisymm h (Finset.sum_nonneg fun i _ => sq_nonneg (b x (t (k + 1)) i - b' x (t (k + 1)) i)))
    funext i
    have := h0 i (Finset.mem_univ i)
    rw [sq_eq_zero_iff, sub_eq_zero] at this
    exact this
  · simp [h]

omit [DecidableEq κ] in
/-- **C75, the vectorised loss** has the same expectation. -/
theorem C75_vectorised (n : ℕ) (key : Key) (π : Measure (κ → ℝ)) (ts : Arr1 ℝ) :
    ∫⁻ xs, (ipfLossContV key (batch xs) ts (perSample (n := n) b) (perSample f) σ).E ENNReal.ofReal
      ∂(Measure.pi fun _ : Fin n => π) = expectedIpf n key π ts b f σ := by
  simp only [expectedIpf, C37_agree]

omit [DecidableEq κ] in
theorem discLaw_eq {F : (κ → ℝ) → ℝ → (κ → ℝ)} (s γ : ℕ → ℝ) (π : Measure (κ → ℝ)) (k : ℕ) :
    chainLaw (fun x r i => F x (s ⌊r⌋₊) i - x i) (fun r => Real.sqrt (γ ⌊r⌋₊)) (fun k => (k : ℝ)) π k = discLaw F s γ π k := by
  induction k with
  | zero => rfl
  | succ k ih =>
    rw [chainLaw, discLaw, ih]
    congr 1
    funext p i
    simp

/-- **C75, the discrete loss.**  For any simulated maps `F(·, s_k)` and noise variances `γ_k > 0`, a network that equals
`B'(x, s_{k+1}) = 2 x + γ_k ∇ log p_k(x) - F(x, s_k)`, with `p_k` the density of the simulated point after `k + 1` steps, has the
smallest expected `ipf_loss_disc` among all measurable networks, and every minimiser agrees with it almost everywhere. -/
theorem C75_disc (n : ℕ) [NeZero n] [Nonempty κ] (key : Key) (π : Measure (κ → ℝ)) [IsProbabilityMeasure π] (s γ : ℕ → ℝ)
    (K : ℕ) {F : (κ → ℝ) → ℝ → (κ → ℝ)} (hF : ∀ k < K, Measurable fun x => F x (s k)) (hγ : ∀ k < K, 0 < γ k) :
    ∃ p : ℕ → (κ → ℝ) → ℝ,
      (∀ k < K, Continuous (p k) ∧ (∀ x, 0 < p k x) ∧
        discLaw F s γ π (k + 1) = (volume : Measure (κ → ℝ)).withDensity fun x => ENNReal.ofReal (p k x)) ∧
      ∀ B' : (κ → ℝ) → ℝ → (κ → ℝ),
        (∀ k < K, ∀ x i, B' x (s (k + 1)) i =
          2 * x i + γ k * deriv (fun y => Real.log (p k (Function.update x i y))) (x i) - F x (s k) i) →
        ∀ B : (κ → ℝ) → ℝ → (κ → ℝ), (∀ k < K, Measurable fun x => B x (s (k + 1))) →
          expectedIpfDisc n key π (grid s K) ((List.range K).map γ) B' F ≤
            expectedIpfDisc n key π (grid s K) ((List.range K).map γ) B F ∧
          (expectedIpfDisc n key π (grid s K) ((List.range K).map γ) B F =
            expectedIpfDisc n key π (grid s K) ((List.range K).map γ) B' F ↔
            ∀ k < K, ∀ᵐ x : κ → ℝ, B x (s (k + 1)) = B' x (s (k + 1))) := by
  set f : (κ → ℝ) → ℝ → (κ → ℝ) := fun x r i => F x (s ⌊r⌋₊) i - x i with hfd
  set σ : ℝ → ℝ := fun r => Real.sqrt (γ ⌊r⌋₊) with hσd
  set t : ℕ → ℝ := fun k => (k : ℝ) with htd
  have hfl : ∀ k : ℕ, ⌊t k⌋₊ = k := fun k => Nat.floor_natCast k
  have hdt : ∀ k, |t (k + 1) - t k| = 1 := fun k => by simp [htd]
  have hσ2 : ∀ k < K, σ (t k) ^ 2 = γ k := fun k hk => by
    simp only [hσd, hfl]; exact Real.sq_sqrt (hγ k hk).le
  obtain ⟨p, hp, h⟩ := C75_minimiser (f := f) (σ := σ) n key π t K
    (fun k hk => measurable_pi_iff.2 fun i => by
      simp only [hfd, hfl]
      exact ((measurable_pi_apply i).comp (hF k hk)).sub (measurable_pi_apply i))
    (fun k hk => by simp only [hσd, hfl]; exact (Real.sqrt_pos.2 (hγ k hk)).ne')
    (fun k _ => by simp [htd])
  refine ⟨p, fun k hk => ⟨(hp k hk).1, (hp k hk).2.1, by rw [← discLaw_eq]; exact (hp k hk).2.2⟩, fun B' hB' B hB => ?_⟩
  have hL : ∀ B : (κ → ℝ) → ℝ → (κ → ℝ), expectedIpfDisc n key π (grid s K) ((List.range K).map γ) B F =
      ENNReal.ofReal K * expectedIpf n key π (grid t K) (fun x r i => B x (s ⌊r⌋₊) i - x i) f σ := by
    intro B
    have hg : (List.range K).map γ = (List.range K).map fun k : ℕ => |t (k + 1) - t k| * σ (t k) ^ 2 :=
      List.map_congr_left fun k hk => by rw [hdt, hσ2 k (List.mem_range.1 hk), one_mul]
    rw [expectedIpfDisc, expectedIpf, ← lintegral_const_mul' _ _ ENNReal.ofReal_ne_top]
    refine lintegral_congr fun xs => ?_
    rw [hg, C37_disc key (batch xs) t s K (perSample fun x r i => B x (s ⌊r⌋₊) i - x i) (perSample f) σ
      (fun r => Real.sqrt_nonneg _) (perSample B) (perSample F)
      (fun k _ x => by funext q; simp only [perSample, hfd, hfl, hdt]; ring)
      (fun k _ x => by funext q; simp only [perSample, hfl, hdt]; ring), Rand.E_map]
    simp only [ENNReal.ofReal_mul (Nat.cast_nonneg K)]
    exact Rand.E_const_mul _ ENNReal.ofReal_ne_top _
  have hmin := h (fun x r i => B' x (s ⌊r⌋₊) i - x i) (fun k hk x i => by
      simp only [hfl]
      rw [hB' k hk, hσ2 k hk]
      simp only [hfd, hfl]
      ring) (fun x r i => B x (s ⌊r⌋₊) i - x i) (fun k hk => measurable_pi_iff.2 fun i => by
      simp only [hfl]
      exact ((measurable_pi_apply i).comp (hB k hk)).sub (measurable_pi_apply i))
  rw [hL B', hL B]
  refine ⟨mul_le_mul_right hmin.1 _, ?_⟩
  rcases Nat.eq_zero_or_pos K with rfl | hK
  · simp
  have hK0 : ENNReal.ofReal K ≠ 0 := by
    rw [ENNReal.ofReal_ne_zero_iff]; exact_mod_cast hK
  rw [ENNReal.mul_right_inj hK0 ENNReal.ofReal_ne_top, hmin.2]
  refine forall_congr' fun k => forall_congr' fun _ => Filter.eventually_congr (Filter.Eventually.of_forall fun x => ?_)
  simp only [hfl]
  refine ⟨fun h => funext fun i => ?_, fun h => by rw [h]⟩
  have := congrFun h i
  simpa using this

omit [Fintype κ] in
/-- A network with the property of the minimiser exists for strictly monotone times, whatever the densities. -/
theorem exists_reversal (p : ℕ → (κ → ℝ) → ℝ) {t : ℕ → ℝ} (ht : Function.Injective t) (K : ℕ) (f : (κ → ℝ) → ℝ → (κ → ℝ))
    (σ : ℝ → ℝ) : ∃ b' : (κ → ℝ) → ℝ → (κ → ℝ), ∀ k < K, ∀ x i, b' x (t (k + 1)) i =
      σ (t k) ^ 2 * deriv (fun y => Real.log (p k (Function.update x i y))) (x i) - f x (t k) i := by
  classical
  refine ⟨fun x r i => if h : ∃ k : ℕ, t (k + 1) = r then
    σ (t h.choose) ^ 2 * deriv (fun y => Real.log (p h.choose (Function.update x i y))) (x i) - f x (t h.choose) i else 0,
    fun k _ x i => ?_⟩
  have h : ∃ j : ℕ, t (j + 1) = t (k + 1) := ⟨k, rfl⟩
  have hk : h.choose = k := by have := ht h.choose_spec; omega
  simp only [dif_pos h, hk]

/-- The hypotheses are met by an Ornstein–Uhlenbeck drift simulated backwards on a decreasing grid. -/
example (key : Key) (π : Measure (Fin 3 → ℝ)) [IsProbabilityMeasure π] :
    ∃ b' : (Fin 3 → ℝ) → ℝ → (Fin 3 → ℝ), ∀ b : (Fin 3 → ℝ) → ℝ → (Fin 3 → ℝ), (∀ s, Measurable fun x => b x s) →
      expectedIpf 8 key π (grid (fun k => 1 - k / 4) 4) b' (fun x _ => -x) (fun s => 1 + s ^ 2) ≤
        expectedIpf 8 key π (grid (fun k => 1 - k / 4) 4) b (fun x _ => -x) (fun s => 1 + s ^ 2) := by
  obtain ⟨p, -, h⟩ := C75_minimiser (f := fun x _ => -x) (σ := fun s => 1 + s ^ 2) 8 key π (fun k : ℕ => 1 - (k : ℝ) / 4) 4
    (fun _ _ => measurable_neg) (fun _ _ => by positivity) (fun k _ => by push_cast; intro h; linarith)
  obtain ⟨b', hb'⟩ := exists_reversal p (t := fun k : ℕ => 1 - (k : ℝ) / 4)
    (fun a c hac => by
      have : (a : ℝ) = c := by simp only at hac; linarith
      exact_mod_cast this) 4 (fun x _ => -x) (fun s => 1 + s ^ 2)
  exact ⟨b', fun b hb => (h b' hb' b fun k _ => hb _).1⟩

end Props
end Fbs
