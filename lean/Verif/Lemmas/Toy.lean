import Verif.Lemmas.Gauss
import Verif.Lemmas.Score
import Verif.Model.Toy

/-! Product measures on arrays that are split into two parts, and on arrays of rows. -/

open MeasureTheory ProbabilityTheory
open scoped ENNReal NNReal

namespace Fbs
namespace Toy

variable {ι κ ζ : Type}

theorem concat_inl (e : ι ⊕ κ ≃ ζ) (u : ι → ℝ) (v : κ → ℝ) (i : ι) : concat e u v (e (Sum.inl i)) = u i := by
  simp [concat]

theorem concat_inr (e : ι ⊕ κ ≃ ζ) (u : ι → ℝ) (v : κ → ℝ) (i : κ) : concat e u v (e (Sum.inr i)) = v i := by
  simp [concat]

theorem unpackU_concat (e : ι ⊕ κ ≃ ζ) (u : ι → ℝ) (v : κ → ℝ) : unpackU e (concat e u v) = u :=
  funext fun i => concat_inl e u v i

theorem unpackV_concat (e : ι ⊕ κ ≃ ζ) (u : ι → ℝ) (v : κ → ℝ) : unpackV e (concat e u v) = v :=
  funext fun i => concat_inr e u v i

theorem concat_unpack (e : ι ⊕ κ ≃ ζ) (z : ζ → ℝ) : concat e (unpackU e z) (unpackV e z) = z := by
  funext k
  obtain ⟨s, rfl⟩ := e.surjective k
  cases s <;> simp [concat, unpackU, unpackV]

theorem measurable_concat (e : ι ⊕ κ ≃ ζ) : Measurable fun p : (ι → ℝ) × (κ → ℝ) => concat e p.1 p.2 := by
  refine measurable_pi_iff.2 fun z => ?_
  unfold concat
  rcases e.symm z with i | i
  · exact (measurable_pi_apply i).comp measurable_fst
  · exact (measurable_pi_apply i).comp measurable_snd

theorem measurable_unpackU (e : ι ⊕ κ ≃ ζ) : Measurable (unpackU e) :=
  measurable_pi_iff.2 fun _ => measurable_pi_apply _

theorem measurable_unpackV (e : ι ⊕ κ ≃ ζ) : Measurable (unpackV e) :=
  measurable_pi_iff.2 fun _ => measurable_pi_apply _

variable [Fintype ι] [Fintype κ] [Fintype ζ]

theorem map_concat (e : ι ⊕ κ ≃ ζ) (μ : ζ → Measure ℝ) [∀ z, SigmaFinite (μ z)] :
    ((Measure.pi fun i => μ (e (Sum.inl i))).prod (Measure.pi fun i => μ (e (Sum.inr i)))).map
      (fun p : (ι → ℝ) × (κ → ℝ) => concat e p.1 p.2) = Measure.pi μ := by
  refine (Measure.pi_eq fun s hs => ?_).symm
  rw [Measure.map_apply (measurable_concat e) (MeasurableSet.univ_pi hs)]
  have : (fun p : (ι → ℝ) × (κ → ℝ) => concat e p.1 p.2) ⁻¹' Set.univ.pi s =
      (Set.univ.pi fun i => s (e (Sum.inl i))) ×ˢ (Set.univ.pi fun i => s (e (Sum.inr i))) := by
    ext p
    simp only [Set.mem_preimage, Set.mem_pi, Set.mem_univ, forall_const, Set.mem_prod]
    constructor
    · intro h
      exact ⟨fun i => by simpa [concat] using h (e (Sum.inl i)), fun i => by simpa [concat] using h (e (Sum.inr i))⟩
    · rintro ⟨h1, h2⟩ z
      obtain ⟨t, rfl⟩ := e.surjective z
      cases t with
      | inl i => simpa [concat] using h1 i
      | inr i => simpa [concat] using h2 i
  rw [this, Measure.prod_prod, Measure.pi_pi, Measure.pi_pi, ← Equiv.prod_comp e, Fintype.prod_sum_type]

/-- Integration over an array by integrating over its two parts. -/
theorem lintegral_concat (e : ι ⊕ κ ≃ ζ) (μ : ζ → Measure ℝ) [∀ z, SigmaFinite (μ z)] {f : (ζ → ℝ) → ℝ≥0∞}
    (hf : Measurable f) : ∫⁻ z, f z ∂(Measure.pi μ) =
      ∫⁻ u, ∫⁻ v, f (concat e u v) ∂(Measure.pi fun i => μ (e (Sum.inr i))) ∂(Measure.pi fun i => μ (e (Sum.inl i))) := by
  have hm : Measurable fun p : (ι → ℝ) × (κ → ℝ) => f (concat e p.1 p.2) := hf.comp (measurable_concat e)
  rw [← map_concat e μ, lintegral_map hf (measurable_concat e), lintegral_prod _ hm.aemeasurable]

/-- A matrix of independent entries is an array of independent rows. -/
theorem map_rows {α : Type} [Fintype α] (μ : α → ι → Measure ℝ) [∀ a i, IsProbabilityMeasure (μ a i)] :
    (Measure.pi fun p : α × ι => μ p.1 p.2).map (fun z a i => z (a, i)) = Measure.pi fun a => Measure.pi (μ a) := by
  have hm : Measurable fun (z : α × ι → ℝ) a i => z (a, i) :=
    measurable_pi_iff.2 fun a => measurable_pi_iff.2 fun i => measurable_pi_apply _
  refine (Measure.pi_eq_generateFrom (C := fun _ => Set.univ.pi '' Set.univ.pi fun _ => {s | MeasurableSet s})
    (fun _ => generateFrom_pi) (fun _ => isPiSystem_pi)
    (fun a => ⟨fun _ => Set.univ, fun _ => ⟨fun _ => Set.univ, fun _ _ => MeasurableSet.univ, Set.pi_univ _⟩,
      fun _ => measure_lt_top _ _, Set.iUnion_const _⟩) ?_).symm
  intro s hs
  choose t ht hst using hs
  rw [Measure.map_apply hm (MeasurableSet.univ_pi fun a => by
    rw [← hst a]; exact MeasurableSet.univ_pi fun i => ht a i (Set.mem_univ i))]
  have : (fun (z : α × ι → ℝ) a i => z (a, i)) ⁻¹' Set.univ.pi s = Set.univ.pi fun p : α × ι => t p.1 p.2 := by
    ext z
    simp only [Set.mem_preimage, Set.mem_pi, Set.mem_univ, forall_const, ← hst, Prod.forall]
  rw [this, Measure.pi_pi, Fintype.prod_prod_type]
  refine Finset.prod_congr rfl fun a _ => ?_
  rw [← hst a, Measure.pi_pi]

/-- The rows `a j + c z_j` for one matrix `z` of standard normal entries. -/
theorem lintegral_normal_rows {N : ℕ} {v : ℝ} (a : Fin N → ι → ℝ) (c : ℝ) (hv : c ^ 2 = v)
    {f : (Fin N → ι → ℝ) → ℝ≥0∞} (hf : Measurable f) :
    ∫⁻ z, f (fun j i => a j i + c * z (j, i)) ∂(Jax.stdNormal (Fin N × ι)) =
      ∫⁻ y, f y ∂(Measure.pi fun j => gaussProd (a j) v.toNNReal) := by
  have h := gaussProd_map (0 : Fin N × ι → ℝ) 1 (fun p => a p.1 p.2) c
  rw [hv, mul_one] at h
  simp only [Pi.zero_apply, mul_zero, add_zero] at h
  have h2 := map_rows fun (j : Fin N) (i : ι) => gaussianReal (a j i) v.toNNReal
  have hm : Measurable fun (z : Fin N × ι → ℝ) a i => z (a, i) :=
    measurable_pi_iff.2 fun a => measurable_pi_iff.2 fun i => measurable_pi_apply _
  have hd : Measurable fun (z : Fin N × ι → ℝ) p => a p.1 p.2 + c * z p :=
    measurable_pi_iff.2 fun p => by fun_prop
  have e1 : (Measure.pi fun j => gaussProd (a j) v.toNNReal) =
      ((Jax.stdNormal (Fin N × ι)).map fun z p => a p.1 p.2 + c * z p).map fun z a i => z (a, i) := by
    rw [stdNormal_eq, h]
    exact h2.symm
  rw [e1, lintegral_map hf hm]
  have hf' : Measurable fun z : Fin N × ι → ℝ => f fun a i => z (a, i) := hf.comp hm
  rw [lintegral_map hf' hd]

omit [Fintype κ] [Fintype ζ] in
/-- The product Gaussian in terms of Lebesgue measure. -/
theorem lintegral_gaussProd_dens {q : ℝ≥0} (hq : q ≠ 0) (m : ι → ℝ) {f : (ι → ℝ) → ℝ≥0∞} (hf : Measurable f) :
    ∫⁻ x, f x ∂(gaussProd m q) = ∫⁻ x, ENNReal.ofReal (Score.dens q m x) * f x := by
  have hd : Measurable fun x : ι → ℝ => ENNReal.ofReal (Score.dens q m x) :=
    ((Score.measurable_dens q).comp (measurable_const.prodMk measurable_id)).ennreal_ofReal
  rw [gaussProd, Score.pi_gauss_eq_withDensity hq, lintegral_withDensity_eq_lintegral_mul _ hd hf]
  rfl

/-- The step law depends measurably on its mean. -/
theorem measurable_gaussProd (q : ℝ≥0) : Measurable fun m : ι → ℝ => gaussProd m q := by
  refine Measurable.measure_of_isPiSystem_of_isProbabilityMeasure (S := Set.univ.pi '' Set.univ.pi fun _ => {s | MeasurableSet s})
    generateFrom_pi.symm isPiSystem_pi ?_
  rintro s ⟨t, ht, rfl⟩
  simp only [gaussProd, Measure.pi_pi]
  refine Finset.measurable_prod _ fun i _ => ?_
  have h : ∀ m : ι → ℝ, gaussianReal (m i) q (t i) = gaussianReal 0 q ((fun y => m i + y) ⁻¹' t i) := by
    intro m
    have := gaussianReal_map_const_add (μ := 0) (v := q) (m i)
    rw [zero_add] at this
    have hti : MeasurableSet (t i) := ht i (Set.mem_univ i)
    rw [← this, Measure.map_apply (by fun_prop) hti]
  simp only [h]
  have hs : MeasurableSet {p : (ι → ℝ) × ℝ | p.1 i + p.2 ∈ t i} :=
    (show Measurable fun p : (ι → ℝ) × ℝ => p.1 i + p.2 by fun_prop) (ht i (Set.mem_univ i))
  exact measurable_measure_prodMk_left hs

end Toy
end Fbs
