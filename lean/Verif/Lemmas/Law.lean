import Verif.Lemmas.Search
import Verif.Model.CsmcResampling
import Mathlib.MeasureTheory.Integral.Lebesgue.Countable

/-! Laws of the primitive finite draws as finite sums. -/

open MeasureTheory
open scoped ENNReal

namespace Fbs
namespace Jax

variable {n m : ℕ}

/-- Probability of index `i` under `choice` with weights `p`. -/
noncomputable def cat (p : Fin n → ℝ) (i : Fin n) : ℝ≥0∞ := ENNReal.ofReal (p i / total p)

theorem lintegral_comp_fintype {Ω α : Type} [MeasurableSpace Ω] [Fintype α] [MeasurableSpace α]
    [MeasurableSingletonClass α] {μ : Measure Ω} {g : Ω → α} (hg : Measurable g)
    (F : α → ℝ≥0∞) : ∫⁻ ω, F (g ω) ∂μ = ∑ a, μ {ω | g ω = a} * F a := by
  have hF : Measurable F := measurable_of_finite F
  rw [← lintegral_map hF hg, lintegral_fintype]
  refine Finset.sum_congr rfl fun a _ => ?_
  rw [Measure.map_apply hg (measurableSet_singleton a), mul_comm]
  rfl

theorem E_choice [NeZero n] {p : Fin n → ℝ} (hp : ∀ i, 0 ≤ p i) (hT : 0 < total p) (k : Key)
    (F : Fin n → ℝ≥0∞) : (choice k p).E F = ∑ i, cat p i * F i := by
  unfold choice uniform
  rw [Rand.E_map, Rand.E_sample, lintegral_comp_fintype (measurable_choiceIdx p)]
  simp only [unif_choiceIdx hp hT, cat]

theorem sum_cat {p : Fin n → ℝ} (hp : ∀ i, 0 ≤ p i) (hT : 0 < total p) :
    ∑ i, cat p i = 1 := by
  unfold cat
  rw [← ENNReal.ofReal_sum_of_nonneg fun i _ => div_nonneg (hp i) hT.le, ← Finset.sum_div]
  have : (∑ i, p i) = total p := rfl
  rw [this, div_self hT.ne', ENNReal.ofReal_one]

theorem E_choices [NeZero n] {p : Fin n → ℝ} (hp : ∀ i, 0 ≤ p i) (hT : 0 < total p) (k : Key)
    (F : (Fin m → Fin n) → ℝ≥0∞) :
    (choices k p m).E F = ∑ c, (∏ i, cat p (c i)) * F c := by
  unfold choices uniforms
  rw [Rand.E_map, Rand.E_sample]
  have hmeas : Measurable fun (u : Fin m → ℝ) (i : Fin m) => choiceIdx p (u i) :=
    measurable_pi_lambda _ fun i => (measurable_choiceIdx p).comp (measurable_pi_apply i)
  rw [lintegral_comp_fintype hmeas]
  refine Finset.sum_congr rfl fun c _ => ?_
  congr 1
  have : {u : Fin m → ℝ | (fun i => choiceIdx p (u i)) = c}
      = Set.univ.pi fun i => {u | choiceIdx p u = c i} := by
    ext u; simp [funext_iff]
  rw [this, Measure.pi_pi]
  simp only [unif_choiceIdx hp hT, cat]

theorem vmax_ge [NeZero n] (w : Fin n → ℝ) (i : Fin n) : w i ≤ vmax w :=
  Finset.le_sup' w (Finset.mem_univ i)

theorem exists_vmax [NeZero n] (w : Fin n → ℝ) : ∃ i, w i = vmax w := by
  obtain ⟨i, _, hi⟩ := Finset.exists_mem_eq_sup' (s := Finset.univ) ⟨(0 : Fin n), Finset.mem_univ _⟩ w
  exact ⟨i, hi.symm⟩

theorem vmax_pos [NeZero n] {w : Fin n → ℝ} (hw : ∀ i, 0 ≤ w i) (hT : 0 < total w) :
    0 < vmax w := by
  by_contra h
  push Not at h
  have : ∀ i, w i = 0 := fun i => le_antisymm ((vmax_ge w i).trans h) (hw i)
  simp [total, this] at hT

/-- Probability that a particle of weight `wm` is killed. -/
theorem unif_killed [NeZero n] {w : Fin n → ℝ} (hw : ∀ i, 0 ≤ w i) (hT : 0 < total w)
    (i : Fin n) :
    unifMeasure {u | u * vmax w ≥ w i} = ENNReal.ofReal (1 - w i / vmax w) := by
  have hM := vmax_pos hw hT
  have hm : MeasurableSet {u : ℝ | u * vmax w ≥ w i} :=
    measurableSet_le measurable_const (by fun_prop)
  unfold unifMeasure
  rw [Measure.restrict_apply hm]
  have : {u : ℝ | u * vmax w ≥ w i} ∩ Set.Ico 0 1 = Set.Ico (w i / vmax w) 1 := by
    ext u
    have h0 : 0 ≤ w i / vmax w := div_nonneg (hw i) hM.le
    simp only [ge_iff_le, Set.mem_inter_iff, Set.mem_ofPred_eq, Set.mem_Ico]
    rw [div_le_iff₀ hM]
    constructor
    · rintro ⟨h1, h2, h3⟩; exact ⟨h1, h3⟩
    · rintro ⟨h1, h2⟩
      refine ⟨h1, ?_, h2⟩
      have := (div_le_iff₀ hM).2 h1
      linarith
  rw [this, Real.volume_Ico]

/-- Probability that position `m` of a killing draw holds index `a`. -/
noncomputable def killMass [NeZero n] (w : Fin n → ℝ) (m a : Fin n) : ℝ≥0∞ :=
  (if a = m then ENNReal.ofReal (w m / vmax w) else 0)
    + ENNReal.ofReal (1 - w m / vmax w) * cat w a

/-- Push a finite product distribution forward through coordinatewise maps. -/
theorem sum_prod_map {ι X Y : Type} [Fintype ι] [DecidableEq ι] [Fintype X] [DecidableEq X]
    [Fintype Y] [DecidableEq Y] (p : ι → X → ℝ≥0∞) (g : ι → X → Y) (F : (ι → Y) → ℝ≥0∞) :
    ∑ x : ι → X, (∏ i, p i (x i)) * F (fun i => g i (x i))
      = ∑ y : ι → Y, (∏ i, ∑ a, if g i a = y i then p i a else 0) * F y := by
  have h1 : ∀ x : ι → X, (∏ i, p i (x i)) * F (fun i => g i (x i))
      = ∑ y : ι → Y, (∏ i, if g i (x i) = y i then p i (x i) else 0) * F y := by
    intro x
    rw [Finset.sum_eq_single (fun i => g i (x i))]
    · simp
    · intro y _ hy
      have : ∃ i, g i (x i) ≠ y i := by
        by_contra h
        push Not at h
        exact hy (funext h).symm
      obtain ⟨i, hi⟩ := this
      rw [Finset.prod_eq_zero (Finset.mem_univ i) (by simp [hi]), zero_mul]
    · simp
  simp_rw [h1]
  rw [Finset.sum_comm]
  refine Finset.sum_congr rfl fun y _ => ?_
  rw [← Finset.sum_mul]
  congr 1
  rw [Finset.prod_univ_sum, Fintype.piFinset_univ]

/-- The law of the killing index array: independent positions. -/
theorem E_killingIdx [NeZero n] {w : Fin n → ℝ} (hw : ∀ i, 0 ≤ w i) (hT : 0 < total w)
    (k k' : Key) (F : (Fin n → Fin n) → ℝ≥0∞) :
    (uniforms k n >>= fun u => choices k' w n >>= fun c =>
      Rand.ret (Resampling.killingIdx w u c)).E F
      = ∑ A, (∏ m, killMass w m (A m)) * F A := by
  classical
  rw [Rand.E_bind]
  simp only [Rand.E_bind, Rand.E_ret, E_choices hw hT]
  unfold uniforms
  rw [Rand.E_sample]
  let g : (Fin n → ℝ) → (Fin n → Bool) := fun u m => decide (u m * vmax w ≥ w m)
  have hg : Measurable g := by
    refine measurable_pi_lambda _ fun m => ?_
    have : Measurable fun x : ℝ => decide (x * vmax w ≥ w m) := by
      apply measurable_to_bool
      have : (fun x : ℝ => decide (x * vmax w ≥ w m)) ⁻¹' {true} = {u | u * vmax w ≥ w m} := by
        ext x; simp
      rw [this]
      exact measurableSet_le measurable_const (by fun_prop)
    exact this.comp (measurable_pi_apply m)
  have hsel : ∀ u c, Resampling.killingIdx w u c = fun m => if g u m then c m else m := by
    intro u c; funext m
    simp [Resampling.killingIdx, g]
  simp only [hsel]
  rw [lintegral_comp_fintype hg
    (F := fun K => ∑ c : Fin n → Fin n, (∏ i, cat w (c i)) * F fun m => if K m then c m else m)]
  let r : Fin n → Bool → ℝ≥0∞ := fun m b =>
    if b then ENNReal.ofReal (1 - w m / vmax w) else ENNReal.ofReal (w m / vmax w)
  have hmass : ∀ K : Fin n → Bool,
      (Measure.pi fun _ : Fin n => unifMeasure) {u | g u = K} = ∏ m, r m (K m) := by
    intro K
    have : {u | g u = K} = Set.univ.pi fun m => {x : ℝ | decide (x * vmax w ≥ w m) = K m} := by
      ext u; simp [funext_iff, g]
    rw [this, Measure.pi_pi]
    refine Finset.prod_congr rfl fun m _ => ?_
    cases hK : K m
    · have hc : {x : ℝ | decide (x * vmax w ≥ w m) = false} = {x | x * vmax w ≥ w m}ᶜ := by
        ext x; simp
      have hm : MeasurableSet {u : ℝ | u * vmax w ≥ w m} :=
        measurableSet_le measurable_const (by fun_prop)
      rw [hc, prob_compl_eq_one_sub hm, unif_killed hw hT]
      simp only [r]
      have h0 : 0 ≤ w m / vmax w := div_nonneg (hw m) (vmax_pos hw hT).le
      have h1 : w m / vmax w ≤ 1 := (div_le_one (vmax_pos hw hT)).2 (vmax_ge w m)
      rw [← ENNReal.ofReal_one, ← ENNReal.ofReal_sub _ (by linarith)]
      simp
    · have hc : {x : ℝ | decide (x * vmax w ≥ w m) = true} = {x | x * vmax w ≥ w m} := by
        ext x; simp
      rw [hc, unif_killed hw hT]
      simp [r]
  simp only [hmass]
  -- combine the two sums into one over pairs
  have hpair := sum_prod_map (ι := Fin n) (X := Bool × Fin n) (Y := Fin n)
    (fun m x => r m x.1 * cat w x.2) (fun m x => if x.1 then x.2 else m) F
  have hlhs : (∑ K : Fin n → Bool, (∏ m, r m (K m)) * ∑ c : Fin n → Fin n,
      (∏ i, cat w (c i)) * F fun m => if K m then c m else m)
      = ∑ x : Fin n → Bool × Fin n, (∏ i, (r i (x i).1 * cat w (x i).2))
          * F fun i => if (x i).1 then (x i).2 else i := by
    simp only [Finset.mul_sum]
    rw [← Finset.sum_product', Finset.univ_product_univ]
    refine Fintype.sum_equiv (Equiv.arrowProdEquivProdArrow (Fin n) (fun _ => Bool) (fun _ => Fin n)).symm _ _ ?_
    rintro ⟨K, c⟩
    simp only [Equiv.arrowProdEquivProdArrow, Equiv.coe_fn_symm_mk, Finset.prod_mul_distrib]
    rw [mul_assoc]
    rfl
  rw [hlhs, hpair]
  refine Finset.sum_congr rfl fun A _ => ?_
  congr 1
  refine Finset.prod_congr rfl fun m _ => ?_
  rw [Fintype.sum_prod_type]
  simp only [Fintype.sum_bool, if_true, Bool.false_eq_true, if_false, r]
  unfold killMass
  rw [Finset.sum_ite_eq' Finset.univ (A m), if_pos (Finset.mem_univ _), add_comm]
  congr 1
  by_cases h : A m = m
  · simp only [h, if_true, ← Finset.mul_sum, sum_cat hw hT, mul_one]
  · have h' : ¬ m = A m := fun e => h e.symm
    simp [h, h']

end Jax
end Fbs
