import Verif.Lemmas.Pinsker
import Verif.Lemmas.Toy

/-!
# Relative entropy of normal laws and of chains with normal steps
-/

open MeasureTheory ProbabilityTheory InformationTheory
open scoped ENNReal NNReal

namespace Fbs
namespace Girsanov

variable {ι : Type} [Fintype ι]

/-- The logarithm of the ratio of the normal densities with means `m`, `m'`. -/
noncomputable def lr (v : ℝ≥0) (m m' y : ι → ℝ) : ℝ :=
  ∑ i, (m i - m' i) / v * (y i - (m i + m' i) / 2)

theorem dens_ratio {v : ℝ≥0} (m m' y : ι → ℝ) :
    Score.dens v m y = Score.dens v m' y * Real.exp (lr v m m' y) := by
  simp only [Score.dens, lr, Real.exp_sum, ← Finset.prod_mul_distrib]
  refine Finset.prod_congr rfl fun i _ => ?_
  rw [gaussianPDFReal, gaussianPDFReal, mul_assoc _ (Real.exp _) (Real.exp _), ← Real.exp_add]
  congr 2
  rcases eq_or_ne v 0 with rfl | hv
  · simp
  have : (v : ℝ) ≠ 0 := by exact_mod_cast hv
  field_simp
  ring

theorem measurable_lr (v : ℝ≥0) : Measurable fun p : (ι → ℝ) × (ι → ℝ) × (ι → ℝ) => lr v p.1 p.2.1 p.2.2 := by
  unfold lr
  fun_prop

theorem gaussProd_withDensity {v : ℝ≥0} (hv : v ≠ 0) (m m' : ι → ℝ) :
    gaussProd m v = (gaussProd m' v).withDensity fun y => ENNReal.ofReal (Real.exp (lr v m m' y)) := by
  have hd : ∀ m : ι → ℝ, Measurable fun x : ι → ℝ => ENNReal.ofReal (Score.dens v m x) := fun m =>
    ((Score.measurable_dens v).comp (measurable_const.prodMk measurable_id)).ennreal_ofReal
  have hl : Measurable fun y : ι → ℝ => ENNReal.ofReal (Real.exp (lr v m m' y)) :=
    (Real.measurable_exp.comp ((measurable_lr v).comp (measurable_const.prodMk (measurable_const.prodMk measurable_id)))).ennreal_ofReal
  rw [gaussProd, gaussProd, Score.pi_gauss_eq_withDensity hv, Score.pi_gauss_eq_withDensity hv,
    ← withDensity_mul _ (hd m') hl]
  congr 1
  funext y
  rw [Pi.mul_apply, dens_ratio m m' y, ENNReal.ofReal_mul]
  exact Finset.prod_nonneg fun i _ => gaussianPDFReal_nonneg _ _ _

theorem integrable_eval_gaussProd (m : ι → ℝ) (v : ℝ≥0) (i : ι) : Integrable (fun y : ι → ℝ => y i) (gaussProd m v) := by
  have hmp := measurePreserving_eval (fun i => gaussianReal (m i) v) i
  exact hmp.integrable_comp_of_integrable (g := id)
    ((memLp_id_gaussianReal 1).integrable le_rfl)

theorem integral_eval_gaussProd (m : ι → ℝ) (v : ℝ≥0) (i : ι) : ∫ y, y i ∂(gaussProd m v) = m i := by
  have hmp := measurePreserving_eval (fun i => gaussianReal (m i) v) i
  have h := integral_map (μ := gaussProd m v) (φ := fun y : ι → ℝ => y i) (f := fun y : ℝ => y)
    (measurable_pi_apply i).aemeasurable (by fun_prop)
  rw [← h]
  show ∫ y, y ∂((Measure.pi fun i => gaussianReal (m i) v).map (Function.eval i)) = _
  rw [hmp.map_eq]
  exact integral_id_gaussianReal

theorem integrable_lr (v : ℝ≥0) (m m' μ : ι → ℝ) : Integrable (lr v m m') (gaussProd μ v) := by
  unfold lr
  exact integrable_finsetSum _ fun i _ => ((integrable_eval_gaussProd μ v i).sub (integrable_const _)).const_mul _

theorem integral_lr {v : ℝ≥0} (m m' : ι → ℝ) :
    ∫ y, lr v m m' y ∂(gaussProd m v) = ∑ i, (m i - m' i) ^ 2 / (2 * v) := by
  have hi : ∀ i, Integrable (fun y : ι → ℝ => (m i - m' i) / v * (y i - (m i + m' i) / 2)) (gaussProd m v) := fun i =>
    ((integrable_eval_gaussProd m v i).sub (integrable_const _)).const_mul _
  unfold lr
  rw [integral_finsetSum _ fun i _ => hi i]
  refine Finset.sum_congr rfl fun i _ => ?_
  rw [integral_const_mul, integral_sub (integrable_eval_gaussProd m v i) (integrable_const _), integral_eval_gaussProd]
  simp only [integral_const, probReal_univ, smul_eq_mul, one_mul]
  rcases eq_or_ne v 0 with rfl | hv
  · simp
  have : (v : ℝ) ≠ 0 := by exact_mod_cast hv
  field_simp
  ring

/-- **Relative entropy of normal laws with one covariance.** -/
theorem lintegral_klFun_lr {v : ℝ≥0} (hv : v ≠ 0) (m m' : ι → ℝ) :
    ∫⁻ y, ENNReal.ofReal (klFun (Real.exp (lr v m m' y))) ∂(gaussProd m' v) =
      ENNReal.ofReal (∑ i, (m i - m' i) ^ 2 / (2 * v)) := by
  have hl : Measurable fun y : ι → ℝ => ENNReal.ofReal (Real.exp (lr v m m' y)) :=
    (Real.measurable_exp.comp ((measurable_lr v).comp (measurable_const.prodMk (measurable_const.prodMk measurable_id)))).ennreal_ofReal
  have hw := gaussProd_withDensity hv m m'
  have hac : gaussProd m v ≪ gaussProd m' v := by
    rw [hw]
    exact withDensity_absolutelyContinuous _ _
  have hrn : (gaussProd m v).rnDeriv (gaussProd m' v) =ᵐ[gaussProd m' v]
      fun y => ENNReal.ofReal (Real.exp (lr v m m' y)) := by
    conv_lhs => rw [hw]
    exact Measure.rnDeriv_withDensity _ hl
  have hllr : llr (gaussProd m v) (gaussProd m' v) =ᵐ[gaussProd m v] lr v m m' := by
    filter_upwards [hac.ae_eq hrn] with y hy
    rw [llr, hy, ENNReal.toReal_ofReal (Real.exp_pos _).le, Real.log_exp]
  have h1 : klDiv (gaussProd m v) (gaussProd m' v) = _ := klDiv_eq_lintegral_klFun_of_ac hac
  have h2 := klDiv_of_ac_of_integrable hac ((integrable_congr hllr).2 (integrable_lr v m m' m))
  rw [integral_congr_ae hllr, integral_lr] at h2
  simp only [probReal_univ, add_sub_cancel_right] at h2
  rw [← h2, h1]
  refine lintegral_congr_ae ?_
  filter_upwards [hrn] with y hy
  rw [hy, ENNReal.toReal_ofReal (Real.exp_pos _).le]

/-- The kernel with normal steps around `m`. -/
noncomputable def gker {Ω : Type*} [MeasurableSpace Ω] (v : ℝ≥0) (m : Ω → ι → ℝ) (hm : Measurable m) : Kernel Ω (ι → ℝ) :=
  ⟨fun x => gaussProd (m x) v, (Toy.measurable_gaussProd v).comp hm⟩

instance {Ω : Type*} [MeasurableSpace Ω] (v : ℝ≥0) (m : Ω → ι → ℝ) (hm : Measurable m) : IsMarkovKernel (gker v m hm) :=
  ⟨fun x => by show IsProbabilityMeasure (gaussProd (m x) v); infer_instance⟩

/-- Relative entropy of one step. -/
theorem klDiv_gker {Ω : Type*} [MeasurableSpace Ω] (μ : Measure Ω) [IsProbabilityMeasure μ] {v : ℝ≥0} (hv : v ≠ 0)
    {m m' : Ω → ι → ℝ} (hm : Measurable m) (hm' : Measurable m') :
    klDiv (μ ⊗ₘ gker v m hm) (μ ⊗ₘ gker v m' hm') =
      ∫⁻ x, ENNReal.ofReal (∑ i, (m x i - m' x i) ^ 2 / (2 * v)) ∂μ := by
  have hlm : Measurable fun p : Ω × (ι → ℝ) => lr v (m p.1) (m' p.1) p.2 :=
    (measurable_lr v).comp ((hm.comp measurable_fst).prodMk ((hm'.comp measurable_fst).prodMk measurable_snd))
  have hl : Measurable fun p : Ω × (ι → ℝ) => ENNReal.ofReal (Real.exp (lr v (m p.1) (m' p.1) p.2)) :=
    (Real.measurable_exp.comp hlm).ennreal_ofReal
  have hw : μ ⊗ₘ gker v m hm = (μ ⊗ₘ gker v m' hm').withDensity
      fun p => ENNReal.ofReal (Real.exp (lr v (m p.1) (m' p.1) p.2)) := by
    refine Measure.ext_of_lintegral _ fun f hf => ?_
    rw [lintegral_withDensity_eq_lintegral_mul _ hl hf, Measure.lintegral_compProd hf,
      Measure.lintegral_compProd (hl.mul hf)]
    refine lintegral_congr fun x => ?_
    show ∫⁻ y, f (x, y) ∂(gaussProd (m x) v) = ∫⁻ y, _ ∂(gaussProd (m' x) v)
    rw [gaussProd_withDensity hv (m x) (m' x)]
    exact lintegral_withDensity_eq_lintegral_mul _
      (hl.comp (measurable_prodMk_left (x := x))) (hf.comp (measurable_prodMk_left (x := x)))
  have hac : μ ⊗ₘ gker v m hm ≪ μ ⊗ₘ gker v m' hm' := by
    rw [hw]
    exact withDensity_absolutelyContinuous _ _
  have hrn : (μ ⊗ₘ gker v m hm).rnDeriv (μ ⊗ₘ gker v m' hm') =ᵐ[μ ⊗ₘ gker v m' hm']
      fun p => ENNReal.ofReal (Real.exp (lr v (m p.1) (m' p.1) p.2)) := by
    conv_lhs => rw [hw]
    exact Measure.rnDeriv_withDensity _ hl
  rw [klDiv_eq_lintegral_klFun_of_ac hac]
  have h3 : ∫⁻ p, ENNReal.ofReal (klFun ((μ ⊗ₘ gker v m hm).rnDeriv (μ ⊗ₘ gker v m' hm') p).toReal) ∂(μ ⊗ₘ gker v m' hm') =
      ∫⁻ p, ENNReal.ofReal (klFun (Real.exp (lr v (m p.1) (m' p.1) p.2))) ∂(μ ⊗ₘ gker v m' hm') := by
    refine lintegral_congr_ae ?_
    filter_upwards [hrn] with y hy
    rw [hy, ENNReal.toReal_ofReal (Real.exp_pos _).le]
  have hk : Measurable fun p : Ω × (ι → ℝ) => ENNReal.ofReal (klFun (Real.exp (lr v (m p.1) (m' p.1) p.2))) :=
    (measurable_klFun.comp (Real.measurable_exp.comp hlm)).ennreal_ofReal
  rw [h3, Measure.lintegral_compProd hk]
  exact lintegral_congr fun x => lintegral_klFun_lr hv (m x) (m' x)

/-! ### Chains with normal steps -/

/-- Append a state to a path. -/
def snocM (ι : Type) (k : ℕ) (p : (Fin (k + 1) → ι → ℝ) × (ι → ℝ)) : Fin (k + 2) → ι → ℝ :=
  Fin.snoc (α := fun _ => ι → ℝ) p.1 p.2

/-- Split off the last state of a path. -/
def unsnocM (ι : Type) (k : ℕ) (q : Fin (k + 2) → ι → ℝ) : (Fin (k + 1) → ι → ℝ) × (ι → ℝ) :=
  (fun i => q i.castSucc, q (Fin.last _))

omit [Fintype ι] in
theorem unsnoc_snoc (k : ℕ) (p : (Fin (k + 1) → ι → ℝ) × (ι → ℝ)) : unsnocM ι k (snocM ι k p) = p := by
  refine Prod.ext (funext fun i => ?_) ?_
  · simp [unsnocM, snocM]
  · simp [unsnocM, snocM]

omit [Fintype ι] in
theorem measurable_snocM (k : ℕ) : Measurable (snocM ι k) := by
  refine measurable_pi_iff.2 fun i => ?_
  refine Fin.lastCases ?_ (fun j => ?_) i
  · have : (fun p : (Fin (k + 1) → ι → ℝ) × (ι → ℝ) => snocM ι k p (Fin.last _)) = Prod.snd := by
      funext p; simp [snocM]
    rw [this]; exact measurable_snd
  · have : (fun p : (Fin (k + 1) → ι → ℝ) × (ι → ℝ) => snocM ι k p j.castSucc) = fun p => p.1 j := by
      funext p; simp [snocM]
    rw [this]; exact (measurable_pi_apply j).comp measurable_fst

omit [Fintype ι] in
theorem measurable_unsnocM (k : ℕ) : Measurable (unsnocM ι k) :=
  (measurable_pi_iff.2 fun _ => measurable_pi_apply _).prodMk (measurable_pi_apply _)

omit [Fintype ι] in
theorem ofFn_snocM (k : ℕ) (p : (Fin (k + 1) → ι → ℝ) × (ι → ℝ)) :
    List.ofFn (snocM ι k p) = List.ofFn p.1 ++ [p.2] := by
  rw [List.ofFn_succ', List.concat_eq_append]
  simp [snocM]

omit [Fintype ι] in
theorem klDiv_snoc {k : ℕ} (P P' : Measure ((Fin (k + 1) → ι → ℝ) × (ι → ℝ))) [IsFiniteMeasure P] [IsFiniteMeasure P'] :
    klDiv (P.map (snocM ι k)) (P'.map (snocM ι k)) = klDiv P P' := by
  refine le_antisymm (klDiv_map_le _ _ (measurable_snocM k)) ?_
  have h := klDiv_map_le (P.map (snocM ι k)) (P'.map (snocM ι k)) (measurable_unsnocM k)
  rw [Measure.map_map (measurable_unsnocM k) (measurable_snocM k), Measure.map_map (measurable_unsnocM k) (measurable_snocM k),
    show unsnocM ι k ∘ snocM ι k = id from funext (unsnoc_snoc k), Measure.map_id, Measure.map_id] at h
  exact h

variable (μ0 : Measure (ι → ℝ)) (m : ℕ → (ι → ℝ) → ι → ℝ) (hm : ∀ k, Measurable (m k)) (v : ℕ → ℝ≥0)

include hm in
omit [Fintype ι] in
theorem measurable_mean (k : ℕ) : Measurable fun h : Fin (k + 1) → ι → ℝ => m k (h (Fin.last k)) :=
  (hm k).comp (measurable_pi_apply _)

/-- The law of the first `k + 1` states of the chain. -/
noncomputable def pathLaw : (k : ℕ) → Measure (Fin (k + 1) → ι → ℝ)
  | 0 => μ0.map fun x _ => x
  | k + 1 => (pathLaw k ⊗ₘ gker (v k) (fun h => m k (h (Fin.last k))) (measurable_mean m hm k)).map (snocM ι k)

theorem isProb_pathLaw [IsProbabilityMeasure μ0] : ∀ k, IsProbabilityMeasure (pathLaw μ0 m hm v k)
  | 0 => Measure.isProbabilityMeasure_map (measurable_pi_iff.2 fun _ => measurable_id).aemeasurable
  | k + 1 => by
    have := isProb_pathLaw k
    exact Measure.isProbabilityMeasure_map (measurable_snocM k).aemeasurable

/-- A step of the chain under the integral. -/
theorem lintegral_pathLaw_succ [IsProbabilityMeasure μ0] (k : ℕ) {f : (Fin (k + 2) → ι → ℝ) → ℝ≥0∞} (hf : Measurable f) :
    ∫⁻ q, f q ∂(pathLaw μ0 m hm v (k + 1)) =
      ∫⁻ h, ∫⁻ y, f (snocM ι k (h, y)) ∂(gaussProd (m k (h (Fin.last k))) (v k)) ∂(pathLaw μ0 m hm v k) := by
  have := isProb_pathLaw μ0 m hm v k
  rw [pathLaw, lintegral_map hf (measurable_snocM k)]
  exact Measure.lintegral_compProd (hf.comp (measurable_snocM k))

/-- **The chain rule of the relative entropy of two chains with normal steps of the same covariance.** -/
theorem klDiv_pathLaw [IsProbabilityMeasure μ0] (μ0' : Measure (ι → ℝ)) [IsProbabilityMeasure μ0']
    (m' : ℕ → (ι → ℝ) → ι → ℝ) (hm' : ∀ k, Measurable (m' k)) : ∀ K, (∀ k < K, v k ≠ 0) →
    klDiv (pathLaw μ0 m hm v K) (pathLaw μ0' m' hm' v K) = klDiv μ0 μ0' +
      ∫⁻ q, ∑ k : Fin K, ENNReal.ofReal (∑ i, (m k (q k.castSucc) i - m' k (q k.castSucc) i) ^ 2 / (2 * v k))
        ∂(pathLaw μ0 m hm v K)
  | 0, _ => by
    have hc : Measurable fun (x : ι → ℝ) (_ : Fin 1) => x := measurable_pi_iff.2 fun _ => measurable_id
    have he : Measurable fun (q : Fin 1 → ι → ℝ) => q 0 := measurable_pi_apply 0
    simp only [Finset.univ_eq_empty, Finset.sum_empty, lintegral_zero, add_zero, pathLaw]
    refine le_antisymm (klDiv_map_le _ _ hc) ?_
    have h := klDiv_map_le (μ0.map fun (x : ι → ℝ) (_ : Fin 1) => x) (μ0'.map fun (x : ι → ℝ) (_ : Fin 1) => x) he
    rw [Measure.map_map he hc, Measure.map_map he hc] at h
    have e : ((fun q : Fin 1 → ι → ℝ => q 0) ∘ fun (x : ι → ℝ) (_ : Fin 1) => x) = id := rfl
    rwa [e, Measure.map_id, Measure.map_id] at h
  | K + 1, hv => by
    have h1 := isProb_pathLaw μ0 m hm v K
    have h2 := isProb_pathLaw μ0' m' hm' v K
    have ih := klDiv_pathLaw μ0' m' hm' K fun k hk => hv k (by omega)
    have hg : ∀ k, Measurable fun x : ι → ℝ => ENNReal.ofReal (∑ i, (m k x i - m' k x i) ^ 2 / (2 * v k)) := fun k => by
      have e1 : ∀ i, Measurable fun x => m k x i := fun i => (measurable_pi_apply i).comp (hm k)
      have e2 : ∀ i, Measurable fun x => m' k x i := fun i => (measurable_pi_apply i).comp (hm' k)
      exact (Finset.measurable_sum _ fun i _ => (((e1 i).sub (e2 i)).pow_const 2).div_const _).ennreal_ofReal
    have hsum : Measurable fun q : Fin (K + 2) → ι → ℝ => ∑ k : Fin (K + 1),
        ENNReal.ofReal (∑ i, (m k (q k.castSucc) i - m' k (q k.castSucc) i) ^ 2 / (2 * v k)) :=
      Finset.measurable_sum _ fun k _ => (hg k).comp (measurable_pi_apply _)
    have hsum' : Measurable fun q : Fin (K + 1) → ι → ℝ => ∑ k : Fin K,
        ENNReal.ofReal (∑ i, (m k (q k.castSucc) i - m' k (q k.castSucc) i) ^ 2 / (2 * v k)) :=
      Finset.measurable_sum _ fun k _ => (hg k).comp (measurable_pi_apply _)
    rw [lintegral_pathLaw_succ μ0 m hm v K hsum, pathLaw, pathLaw, klDiv_snoc, klDiv_compProd_eq_add, ih,
      klDiv_gker _ (hv K (by omega)), add_assoc, ← lintegral_add_left hsum']
    congr 1
    refine lintegral_congr fun h => ?_
    have e : ∀ (y : ι → ℝ) (k : Fin (K + 1)), snocM ι K (h, y) k.castSucc = h k := fun y k => by simp [snocM]
    simp only [e, lintegral_const, measure_univ, mul_one]
    rw [Fin.sum_univ_castSucc (n := K)]
    rfl

end Girsanov
end Fbs
