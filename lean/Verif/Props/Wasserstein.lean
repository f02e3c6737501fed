import Verif.Lemmas.GaussKl
import Verif.Lemmas.Mvn
import Verif.Lemmas.BuresOt
import Mathlib.Analysis.InnerProductSpace.PiL2

/-!
# C102: `bures_dist` is the squared Wasserstein distance
-/

namespace Fbs
namespace Props

open Matrix Utils Spec MeasureTheory ProbabilityTheory BuresOt Mvn WithLp
open scoped ENNReal

variable {n k : Type} [Fintype n] [DecidableEq n] [Fintype k] {eigh : Matrix n n ℝ → (n → ℝ) × Matrix n n ℝ}

/-! ### Second moments -/

/-- The two states of a coupling have second moments, and the given means and covariances. -/
structure HasMoments (γ : Measure ((n → ℝ) × (n → ℝ))) (m0 : n → ℝ) (A : Matrix n n ℝ) (m1 : n → ℝ) (B : Matrix n n ℝ) : Prop where
  mem_fst : ∀ i, MemLp (fun p => p.1 i) 2 γ
  mem_snd : ∀ i, MemLp (fun p => p.2 i) 2 γ
  mean_fst : ∀ i, ∫ p, p.1 i ∂γ = m0 i
  mean_snd : ∀ i, ∫ p, p.2 i ∂γ = m1 i
  cov_fst : ∀ i j, ∫ p, (p.1 i - m0 i) * (p.1 j - m0 j) ∂γ = A i j
  cov_snd : ∀ i j, ∫ p, (p.2 i - m1 i) * (p.2 j - m1 j) ∂γ = B i j

section
variable {Ω : Type} [MeasurableSpace Ω] {μ : Measure Ω} [IsProbabilityMeasure μ]

omit [DecidableEq n] [IsProbabilityMeasure μ] in
theorem integral_quadForm {x : n → Ω → ℝ} (hx : ∀ i, MemLp (x i) 2 μ) {A : Matrix n n ℝ} (hA : ∀ i j, ∫ ω, x i ω * x j ω ∂μ = A i j)
    (M : Matrix n n ℝ) :
    Integrable (fun ω => (fun i => x i ω) ⬝ᵥ M *ᵥ fun i => x i ω) μ ∧
      ∫ ω, (fun i => x i ω) ⬝ᵥ M *ᵥ (fun i => x i ω) ∂μ = (M * A).trace := by
  have hi : ∀ i j, Integrable (fun ω => M i j * (x i ω * x j ω)) μ := fun i j => ((hx i).integrable_mul (hx j)).const_mul _
  have e : (fun ω => (fun i => x i ω) ⬝ᵥ M *ᵥ fun i => x i ω) = fun ω => ∑ i, ∑ j, M i j * (x i ω * x j ω) := by
    funext ω
    simp only [dotProduct, mulVec, Finset.mul_sum]
    exact Finset.sum_congr rfl fun i _ => Finset.sum_congr rfl fun j _ => by ring
  constructor
  · rw [e]
    exact integrable_finsetSum _ fun i _ => integrable_finsetSum _ fun j _ => hi i j
  · rw [e, integral_finsetSum _ fun i _ => integrable_finsetSum _ fun j _ => hi i j]
    simp only [trace, diag_apply, mul_apply]
    refine Finset.sum_congr rfl fun i _ => ?_
    rw [integral_finsetSum _ fun j _ => hi i j]
    refine Finset.sum_congr rfl fun j _ => ?_
    rw [integral_const_mul, hA, ← hA, ← hA]
    congr 2
    exact funext fun ω => mul_comm _ _

end

omit [DecidableEq n] in
/-- The cost of a coupling, from its moments. -/
theorem cost_eq {γ : Measure ((n → ℝ) × (n → ℝ))} [IsProbabilityMeasure γ] {m0 m1 : n → ℝ} {A B : Matrix n n ℝ}
    (h : HasMoments γ m0 A m1 B) :
    Integrable (fun p => ∑ i, (p.1 i - p.2 i) ^ 2) γ ∧
    ∫ p, ∑ i, (p.1 i - p.2 i) ^ 2 ∂γ =
      ∑ i, (m0 i - m1 i) ^ 2 + A.trace + B.trace - 2 * ∑ i, ∫ p, (p.1 i - m0 i) * (p.2 i - m1 i) ∂γ := by
  have hx : ∀ i, MemLp (fun p : (n → ℝ) × (n → ℝ) => p.1 i - m0 i) 2 γ := fun i => (h.mem_fst i).sub (memLp_const _)
  have hy : ∀ i, MemLp (fun p : (n → ℝ) × (n → ℝ) => p.2 i - m1 i) 2 γ := fun i => (h.mem_snd i).sub (memLp_const _)
  have hint : ∀ i, Integrable (fun p : (n → ℝ) × (n → ℝ) => (p.1 i - p.2 i) ^ 2) γ := fun i =>
    ((h.mem_fst i).sub (h.mem_snd i)).integrable_sq
  refine ⟨integrable_finsetSum _ fun i _ => hint i, ?_⟩
  rw [integral_finsetSum _ fun i _ => hint i, trace, trace, Finset.mul_sum, ← Finset.sum_add_distrib, ← Finset.sum_add_distrib,
    ← Finset.sum_sub_distrib]
  refine Finset.sum_congr rfl fun i _ => ?_
  have e : (fun p : (n → ℝ) × (n → ℝ) => (p.1 i - p.2 i) ^ 2) = fun p =>
      ((p.1 i - m0 i) * (p.1 i - m0 i) + (p.2 i - m1 i) * (p.2 i - m1 i) - 2 * ((p.1 i - m0 i) * (p.2 i - m1 i))) +
        ((m0 i - m1 i) ^ 2 + 2 * (m0 i - m1 i) * ((p.1 i - m0 i) - (p.2 i - m1 i))) := by
    funext p; ring
  have i1 : Integrable (fun p : (n → ℝ) × (n → ℝ) => (p.1 i - m0 i) * (p.1 i - m0 i)) γ := (hx i).integrable_mul (hx i)
  have i2 : Integrable (fun p : (n → ℝ) × (n → ℝ) => (p.2 i - m1 i) * (p.2 i - m1 i)) γ := (hy i).integrable_mul (hy i)
  have i12 : Integrable (fun p : (n → ℝ) × (n → ℝ) => (p.1 i - m0 i) * (p.1 i - m0 i) + (p.2 i - m1 i) * (p.2 i - m1 i)) γ := i1.add i2
  have i3 : Integrable (fun p : (n → ℝ) × (n → ℝ) => 2 * ((p.1 i - m0 i) * (p.2 i - m1 i))) γ := ((hx i).integrable_mul (hy i)).const_mul 2
  have i123 : Integrable (fun p : (n → ℝ) × (n → ℝ) => (p.1 i - m0 i) * (p.1 i - m0 i) + (p.2 i - m1 i) * (p.2 i - m1 i) -
      2 * ((p.1 i - m0 i) * (p.2 i - m1 i))) γ := i12.sub i3
  have i4 := (hx i).integrable one_le_two
  have i5 := (hy i).integrable one_le_two
  have i6 : Integrable (fun p : (n → ℝ) × (n → ℝ) => 2 * (m0 i - m1 i) * ((p.1 i - m0 i) - (p.2 i - m1 i))) γ := (i4.sub i5).const_mul _
  have i7 : Integrable (fun p : (n → ℝ) × (n → ℝ) => (m0 i - m1 i) ^ 2 + 2 * (m0 i - m1 i) * ((p.1 i - m0 i) - (p.2 i - m1 i))) γ :=
    (integrable_const _).add i6
  have z1 : ∫ p, (p.1 i - m0 i) ∂γ = 0 := by
    rw [integral_sub ((h.mem_fst i).integrable one_le_two) (integrable_const _), h.mean_fst]
    simp
  have z2 : ∫ p, (p.2 i - m1 i) ∂γ = 0 := by
    rw [integral_sub ((h.mem_snd i).integrable one_le_two) (integrable_const _), h.mean_snd]
    simp
  have s1 : ∫ p, ((p.1 i - m0 i) * (p.1 i - m0 i) + (p.2 i - m1 i) * (p.2 i - m1 i) - 2 * ((p.1 i - m0 i) * (p.2 i - m1 i))) ∂γ =
      A i i + B i i - 2 * ∫ p, (p.1 i - m0 i) * (p.2 i - m1 i) ∂γ := by
    rw [integral_sub i12 i3, integral_add i1 i2, integral_const_mul, h.cov_fst, h.cov_snd]
  have s2 : ∫ p, ((m0 i - m1 i) ^ 2 + 2 * (m0 i - m1 i) * ((p.1 i - m0 i) - (p.2 i - m1 i))) ∂γ = (m0 i - m1 i) ^ 2 := by
    rw [integral_add (integrable_const _) i6, integral_const_mul, integral_sub i4 i5, z1, z2]
    simp
  rw [e, integral_add i123 i7, s1, s2, diag_apply, diag_apply]
  ring

omit [DecidableEq n] in
theorem HasMoments.posSemidef {γ : Measure ((n → ℝ) × (n → ℝ))} [IsProbabilityMeasure γ] {m0 m1 : n → ℝ} {A B : Matrix n n ℝ}
    (h : HasMoments γ m0 A m1 B) : A.PosSemidef ∧ B.PosSemidef := by
  have key : ∀ {x : n → (n → ℝ) × (n → ℝ) → ℝ} (_ : ∀ i, MemLp (x i) 2 γ) {M : Matrix n n ℝ}
      (_ : ∀ i j, ∫ p, x i p * x j p ∂γ = M i j), M.PosSemidef := by
    intro x hx M hM
    refine PosSemidef.of_dotProduct_mulVec_nonneg ?_ fun v => ?_
    · rw [IsHermitian, conjTranspose_eq_transpose_of_trivial]
      ext i j
      rw [transpose_apply, ← hM, ← hM]
      congr 1
      exact funext fun p => mul_comm _ _
    · have e := (integral_quadForm hx hM (vecMulVec v v)).2
      have e2 : (vecMulVec v v * M).trace = star v ⬝ᵥ M *ᵥ v := by
        simp only [star_trivial, trace, diag_apply, mul_apply, vecMulVec_apply, dotProduct, mulVec, Finset.mul_sum]
        rw [Finset.sum_comm]
        exact Finset.sum_congr rfl fun i _ => Finset.sum_congr rfl fun j _ => by ring
      rw [← e2, ← e]
      refine integral_nonneg fun p => ?_
      have : (fun i => x i p) ⬝ᵥ vecMulVec v v *ᵥ (fun i => x i p) = (v ⬝ᵥ fun i => x i p) ^ 2 := by
        simp only [dotProduct, mulVec, vecMulVec_apply, sq, Finset.mul_sum, Finset.sum_mul]
        exact Finset.sum_congr rfl fun i _ => Finset.sum_congr rfl fun j _ => by ring
      rw [Pi.zero_apply, this]
      exact sq_nonneg _
  exact ⟨key (fun i => (h.mem_fst i).sub (memLp_const _)) h.cov_fst, key (fun i => (h.mem_snd i).sub (memLp_const _)) h.cov_snd⟩

/-! ### The claims -/

/-- **C102, lower bound.**  Whatever the laws of two random vectors and their dependence, the mean squared distance between them is at least the
Bures distance between their means and covariances. -/
theorem C102_lower (he : IsEigh eigh) {γ : Measure ((n → ℝ) × (n → ℝ))} [IsProbabilityMeasure γ] {m0 m1 : n → ℝ} {A B : Matrix n n ℝ}
    (h : HasMoments γ m0 A m1 B) : buresDist eigh m0 A m1 B ≤ ∫ p, ∑ i, (p.1 i - p.2 i) ^ 2 ∂γ := by
  obtain ⟨hA, hB⟩ := h.posSemidef
  have hx : ∀ i, MemLp (fun p : (n → ℝ) × (n → ℝ) => p.1 i - m0 i) 2 γ := fun i => (h.mem_fst i).sub (memLp_const _)
  have hy : ∀ i, MemLp (fun p : (n → ℝ) × (n → ℝ) => p.2 i - m1 i) 2 γ := fun i => (h.mem_snd i).sub (memLp_const _)
  have hc : ∑ i, ∫ p, (p.1 i - m0 i) * (p.2 i - m1 i) ∂γ ≤ (sqrtm eigh (sqrtm eigh A * B * sqrtm eigh A)).trace := by
    refine trace_le he hA hB fun Q hQ => ?_
    obtain ⟨i1, e1⟩ := integral_quadForm hx h.cov_fst Q⁻¹
    obtain ⟨i2, e2⟩ := integral_quadForm hy h.cov_snd Q
    have hi : ∀ i, Integrable (fun p : (n → ℝ) × (n → ℝ) => (p.1 i - m0 i) * (p.2 i - m1 i)) γ := fun i => (hx i).integrable_mul (hy i)
    rw [← e1, ← e2, ← integral_add i1 i2, ← integral_finsetSum _ fun i _ => hi i, ← integral_const_mul]
    refine integral_mono ((integrable_finsetSum _ fun i _ => hi i).const_mul _) (i1.add i2) fun p => ?_
    exact young hQ (fun i => p.1 i - m0 i) (fun i => p.2 i - m1 i)
  rw [(cost_eq h).2]
  unfold buresDist
  simp only [trace_sub, trace_add, trace_smul, smul_eq_mul]
  linarith

theorem mvn_moments {m : n → ℝ} {S : Matrix n n ℝ} (hS : S.PosSemidef) :
    (∀ i, MemLp (fun x : n → ℝ => x i) 2 (mvn m S)) ∧ (∀ i, ∫ x, x i ∂(mvn m S) = m i) ∧
      ∀ i j, ∫ x, (x i - m i) * (x j - m j) ∂(mvn m S) = S i j := by
  have hm : AEMeasurable (ofLp : EuclideanSpace ℝ n → n → ℝ) (multivariateGaussian (toLp 2 m) S) :=
    (WithLp.measurable_ofLp 2 _).aemeasurable
  refine ⟨fun i => ?_, fun i => ?_, fun i j => ?_⟩
  · unfold mvn
    rw [memLp_map_measure_iff (measurable_pi_apply i).aestronglyMeasurable hm]
    exact GaussKl.memLp_coord (toLp 2 m) S i
  · unfold mvn
    rw [integral_map hm (measurable_pi_apply i).aestronglyMeasurable]
    exact GaussKl.integral_coord (toLp 2 m) S i
  · unfold mvn
    rw [integral_map hm (Measurable.aestronglyMeasurable (by fun_prop))]
    have := GaussKl.integral_quadTerm (toLp 2 m) hS m i j
    rw [this]
    simp

theorem hasMoments_of_marginals {γ : Measure ((n → ℝ) × (n → ℝ))} {m0 m1 : n → ℝ} {A B : Matrix n n ℝ} (hA : A.PosSemidef)
    (hB : B.PosSemidef) (h0 : γ.map Prod.fst = mvn m0 A) (h1 : γ.map Prod.snd = mvn m1 B) : HasMoments γ m0 A m1 B := by
  obtain ⟨a1, a2, a3⟩ := mvn_moments (m := m0) hA
  obtain ⟨b1, b2, b3⟩ := mvn_moments (m := m1) hB
  rw [← h0] at a1 a2 a3
  rw [← h1] at b1 b2 b3
  refine ⟨fun i => ?_, fun i => ?_, fun i => ?_, fun i => ?_, fun i j => ?_, fun i j => ?_⟩
  · exact (memLp_map_measure_iff (measurable_pi_apply i).aestronglyMeasurable measurable_fst.aemeasurable).1 (a1 i)
  · exact (memLp_map_measure_iff (measurable_pi_apply i).aestronglyMeasurable measurable_snd.aemeasurable).1 (b1 i)
  · rw [← a2 i, integral_map measurable_fst.aemeasurable (Measurable.aestronglyMeasurable (by fun_prop))]
  · rw [← b2 i, integral_map measurable_snd.aemeasurable (Measurable.aestronglyMeasurable (by fun_prop))]
  · rw [← a3 i j, integral_map measurable_fst.aemeasurable (Measurable.aestronglyMeasurable (by fun_prop))]
  · rw [← b3 i j, integral_map measurable_snd.aemeasurable (Measurable.aestronglyMeasurable (by fun_prop))]

theorem bures_eq (m0 m1 : n → ℝ) (A B : Matrix n n ℝ) : buresDist eigh m0 A m1 B =
    ∑ i, (m0 i - m1 i) ^ 2 + A.trace + B.trace - 2 * (sqrtm eigh (sqrtm eigh A * B * sqrtm eigh A)).trace := by
  unfold buresDist
  simp only [trace_sub, trace_add, trace_smul, smul_eq_mul]
  ring

/-- A coupling of two normal laws whose mean squared distance is the Bures distance. -/
theorem exists_coupling (he : IsEigh eigh) (m0 m1 : n → ℝ) {A B : Matrix n n ℝ} (hA : A.PosSemidef) (hB : B.PosSemidef) :
    ∃ γ : Measure ((n → ℝ) × (n → ℝ)), IsProbabilityMeasure γ ∧ γ.map Prod.fst = mvn m0 A ∧ γ.map Prod.snd = mvn m1 B ∧
      ∫ p, ∑ i, (p.1 i - p.2 i) ^ 2 ∂γ = buresDist eigh m0 A m1 B := by
  obtain ⟨a1, a2, a3⟩ := C41_sqrtm he hA
  obtain ⟨H, K, hHK, htr⟩ := exists_factors he hA hB
  set a := sqrtm eigh A
  obtain ⟨G, hG⟩ : ∃ G : Matrix n (n ⊕ n) ℝ, G = fromCols a 0 := ⟨_, rfl⟩
  obtain ⟨L, hL⟩ : ∃ L : Matrix n (n ⊕ n) ℝ, L = fromCols H K := ⟨_, rfl⟩
  have hGG : G * Gᵀ = A := by rw [hG, transpose_fromCols, fromCols_mul_fromRows, a1, a3]; simp
  have hLL : L * Lᵀ = B := by rw [hL, transpose_fromCols, fromCols_mul_fromRows, hHK]
  have hGL : (G * Lᵀ).trace = (sqrtm eigh (a * B * a)).trace := by
    rw [hG, hL, transpose_fromCols, fromCols_mul_fromRows, Matrix.zero_mul, add_zero, htr]
  have mG := measurable_affine (k := n) m0 G
  have mL := measurable_affine (k := n) m1 L
  have hp : IsProbabilityMeasure (Jax.stdNormal (n ⊕ n)) := by rw [stdNormal_eq_mvn]; infer_instance
  have h0 : ((Jax.stdNormal (n ⊕ n)).map fun z => (m0 + G *ᵥ z, m1 + L *ᵥ z)).map Prod.fst = mvn m0 A := by
    rw [Measure.map_map measurable_fst (mG.prodMk mL), ← hGG]
    exact stdNormal_affine m0 G
  have h1 : ((Jax.stdNormal (n ⊕ n)).map fun z => (m0 + G *ᵥ z, m1 + L *ᵥ z)).map Prod.snd = mvn m1 B := by
    rw [Measure.map_map measurable_snd (mG.prodMk mL), ← hLL]
    exact stdNormal_affine m1 L
  have hprob := Measure.isProbabilityMeasure_map (μ := Jax.stdNormal (n ⊕ n)) (mG.prodMk mL).aemeasurable
  refine ⟨_, hprob, h0, h1, ?_⟩
  rw [(cost_eq (hasMoments_of_marginals hA hB h0 h1)).2, bures_eq, ← hGL]
  congr 2
  refine Finset.sum_congr rfl fun i _ => ?_
  rw [integral_map (mG.prodMk mL).aemeasurable (Measurable.aestronglyMeasurable (by fun_prop))]
  simp only [Pi.add_apply, add_sub_cancel_left]
  obtain ⟨z1, z2, z3⟩ := mvn_moments (m := (0 : n ⊕ n → ℝ)) (S := 1) PosSemidef.one
  rw [← stdNormal_eq_mvn] at z1 z2 z3
  simp only [Pi.zero_apply, sub_zero] at z3
  have e := (integral_quadForm z1 z3 (vecMulVec (G i) (L i))).2
  rw [Matrix.mul_one, trace_vecMulVec] at e
  rw [diag_apply, mul_apply]
  refine Eq.trans ?_ (e.trans rfl)
  congr 1
  funext z
  simp only [dotProduct, mulVec, vecMulVec_apply, Finset.mul_sum, Finset.sum_mul]
  refine (Finset.sum_comm).trans ?_
  exact Finset.sum_congr rfl fun i _ => Finset.sum_congr rfl fun j _ => by ring

/-- **C102, Wasserstein distance.**  `bures_dist` is the square of the 2-Wasserstein distance between the two normal laws: the least mean squared distance
over all couplings. -/
theorem C102_wasserstein (he : IsEigh eigh) (m0 m1 : n → ℝ) {A B : Matrix n n ℝ} (hA : A.PosSemidef) (hB : B.PosSemidef) :
    IsLeast {c : ℝ≥0∞ | ∃ γ : Measure ((n → ℝ) × (n → ℝ)), γ.map Prod.fst = mvn m0 A ∧ γ.map Prod.snd = mvn m1 B ∧
      c = ∫⁻ p, ENNReal.ofReal (∑ i, (p.1 i - p.2 i) ^ 2) ∂γ} (ENNReal.ofReal (buresDist eigh m0 A m1 B)) := by
  have nn : ∀ p : (n → ℝ) × (n → ℝ), 0 ≤ ∑ i, (p.1 i - p.2 i) ^ 2 := fun p => Finset.sum_nonneg fun i _ => sq_nonneg _
  constructor
  · obtain ⟨γ, hp, h0, h1, hc⟩ := exists_coupling he m0 m1 hA hB
    refine ⟨γ, h0, h1, ?_⟩
    rw [← hc, ofReal_integral_eq_lintegral_ofReal (cost_eq (hasMoments_of_marginals hA hB h0 h1)).1 (ae_of_all _ nn)]
  · rintro c ⟨γ, h0, h1, rfl⟩
    have hp : IsProbabilityMeasure γ := ⟨by
      have := congrArg (fun μ => μ Set.univ) h0
      simp only [measure_univ] at this
      rwa [Measure.map_apply measurable_fst MeasurableSet.univ, Set.preimage_univ] at this⟩
    have hm := hasMoments_of_marginals hA hB h0 h1
    rw [← ofReal_integral_eq_lintegral_ofReal (cost_eq hm).1 (ae_of_all _ nn)]
    exact ENNReal.ofReal_le_ofReal (C102_lower he hm)

omit [DecidableEq n] in
theorem factor_dist {A B : Matrix n n ℝ} {G H : Matrix n k ℝ} (hG : G * Gᵀ = A) (hH : H * Hᵀ = B) :
    ∑ i, ∑ j, (G i j - H i j) ^ 2 = A.trace + B.trace - 2 * (G * Hᵀ).trace := by
  have e := trace_mul_transpose_self (G - H)
  simp only [Matrix.sub_apply] at e
  rw [← e, transpose_sub, Matrix.sub_mul, Matrix.mul_sub, Matrix.mul_sub, hG, hH, trace_sub, trace_sub, trace_sub]
  have : (H * Gᵀ).trace = (G * Hᵀ).trace := by rw [← trace_transpose, transpose_mul, transpose_transpose]
  rw [this]
  ring

/-- **C102, triangle inequality.**  The square root of `bures_dist` is a metric: with C41 it is symmetric and zero only for equal arguments. -/
theorem C102_triangle (he : IsEigh eigh) (m0 m1 m2 : n → ℝ) {A B C : Matrix n n ℝ} (hA : A.PosSemidef) (hB : B.PosSemidef)
    (hC : C.PosSemidef) :
    Real.sqrt (buresDist eigh m0 A m2 C) ≤ Real.sqrt (buresDist eigh m0 A m1 B) + Real.sqrt (buresDist eigh m1 B m2 C) := by
  obtain ⟨b1, b2, b3⟩ := C41_sqrtm he hB
  obtain ⟨H, K, hHK, htr⟩ := exists_factors he hB hA
  obtain ⟨H', K', hHK', htr'⟩ := exists_factors he hB hC
  set b := sqrtm eigh B
  obtain ⟨F, hF⟩ : ∃ F : Matrix n (n ⊕ (n ⊕ n)) ℝ, F = fromCols H (fromCols K 0) := ⟨_, rfl⟩
  obtain ⟨G, hG⟩ : ∃ G : Matrix n (n ⊕ (n ⊕ n)) ℝ, G = fromCols b (fromCols 0 0) := ⟨_, rfl⟩
  obtain ⟨L, hL⟩ : ∃ L : Matrix n (n ⊕ (n ⊕ n)) ℝ, L = fromCols H' (fromCols 0 K') := ⟨_, rfl⟩
  have hFF : F * Fᵀ = A := by rw [hF]; simp [transpose_fromCols, fromCols_mul_fromRows, hHK]
  have hGG : G * Gᵀ = B := by rw [hG]; simp [transpose_fromCols, fromCols_mul_fromRows, b1, b3]
  have hLL : L * Lᵀ = C := by rw [hL]; simp [transpose_fromCols, fromCols_mul_fromRows, hHK']
  have hGF : (G * Fᵀ).trace = (sqrtm eigh (b * A * b)).trace := by
    rw [hG, hF]; simp [transpose_fromCols, fromCols_mul_fromRows, htr]
  have hGL : (G * Lᵀ).trace = (sqrtm eigh (b * C * b)).trace := by
    rw [hG, hL]; simp [transpose_fromCols, fromCols_mul_fromRows, htr']
  let v : (n → ℝ) → Matrix n (n ⊕ (n ⊕ n)) ℝ → EuclideanSpace ℝ (n ⊕ (n × (n ⊕ (n ⊕ n)))) := fun m M =>
    toLp 2 (Sum.elim m fun q => M q.1 q.2)
  have hd : ∀ (m m' : n → ℝ) (M M' : Matrix n (n ⊕ (n ⊕ n)) ℝ),
      dist (v m M) (v m' M') = Real.sqrt (∑ i, (m i - m' i) ^ 2 + ∑ i, ∑ j, (M i j - M' i j) ^ 2) := by
    intro m m' M M'
    rw [EuclideanSpace.dist_eq, Fintype.sum_sum_type, Fintype.sum_prod_type]
    simp only [v, Real.dist_eq, sq_abs, Sum.elim_inl, Sum.elim_inr]
  have e01 : buresDist eigh m0 A m1 B = ∑ i, (m0 i - m1 i) ^ 2 + ∑ i, ∑ j, (F i j - G i j) ^ 2 := by
    rw [C41_bures_symm he m0 m1 hA hB, bures_eq, ← hGF, factor_dist hFF hGG]
    have : (F * Gᵀ).trace = (G * Fᵀ).trace := by rw [← trace_transpose, transpose_mul, transpose_transpose]
    have hs : ∑ i, (m0 i - m1 i) ^ 2 = ∑ i, (m1 i - m0 i) ^ 2 := Finset.sum_congr rfl fun i _ => by ring
    rw [this, hs]; ring
  have e12 : buresDist eigh m1 B m2 C = ∑ i, (m1 i - m2 i) ^ 2 + ∑ i, ∑ j, (G i j - L i j) ^ 2 := by
    rw [bures_eq, ← hGL, factor_dist hGG hLL]; ring
  have e02 : buresDist eigh m0 A m2 C ≤ ∑ i, (m0 i - m2 i) ^ 2 + ∑ i, ∑ j, (F i j - L i j) ^ 2 := by
    rw [bures_eq, factor_dist hFF hLL]
    linarith [factors_le he hFF hLL]
  rw [e01, e12, ← hd, ← hd]
  refine (Real.sqrt_le_sqrt e02).trans ?_
  rw [← hd]
  exact dist_triangle _ _ _

/-- **C102, expectations.**  The expectations of a function that changes by at most `l` times the distance differ by at most `l` times the root of
`bures_dist` under the two normal laws. -/
theorem C102_expectation (he : IsEigh eigh) (m0 m1 : n → ℝ) {A B : Matrix n n ℝ} (hA : A.PosSemidef) (hB : B.PosSemidef)
    {f : (n → ℝ) → ℝ} (hf : Measurable f) {l : ℝ} (hl : 0 ≤ l) (hfl : ∀ x y, |f x - f y| ≤ l * Real.sqrt (∑ i, (x i - y i) ^ 2)) :
    |∫ x, f x ∂(mvn m0 A) - ∫ x, f x ∂(mvn m1 B)| ≤ l * Real.sqrt (buresDist eigh m0 A m1 B) := by
  have hint : ∀ (m : n → ℝ) {S : Matrix n n ℝ}, S.PosSemidef → Integrable f (mvn m S) := by
    intro m S hS
    have hs : ∀ i, MemLp (fun x : n → ℝ => x i) 2 (mvn m S) := (mvn_moments hS).1
    have hq : Integrable (fun x : n → ℝ => |f 0| + l * (1 + ∑ i, x i ^ 2)) (mvn m S) :=
      (integrable_const _).add (((integrable_const _).add (integrable_finsetSum _ fun i _ => (hs i).integrable_sq)).const_mul _)
    refine hq.mono' hf.aestronglyMeasurable (ae_of_all _ fun x => ?_)
    rw [Real.norm_eq_abs]
    have h1 := hfl x 0
    simp only [Pi.zero_apply, sub_zero] at h1
    have h2 : |f x| ≤ |f x - f 0| + |f 0| := by
      have := abs_add_le (f x - f 0) (f 0)
      rwa [sub_add_cancel] at this
    have h3 : Real.sqrt (∑ i, x i ^ 2) ≤ 1 + ∑ i, x i ^ 2 := by
      have hn : 0 ≤ ∑ i, x i ^ 2 := Finset.sum_nonneg fun i _ => sq_nonneg _
      rw [Real.sqrt_le_left (by linarith)]
      nlinarith
    linarith [mul_le_mul_of_nonneg_left h3 hl]
  obtain ⟨γ, hp, h0, h1, hc⟩ := exists_coupling he m0 m1 hA hB
  have hm := hasMoments_of_marginals hA hB h0 h1
  have i0 : Integrable (fun p : (n → ℝ) × (n → ℝ) => f p.1) γ := by
    have := hint m0 hA
    rw [← h0] at this
    exact (integrable_map_measure hf.aestronglyMeasurable measurable_fst.aemeasurable).1 this
  have i1 : Integrable (fun p : (n → ℝ) × (n → ℝ) => f p.2) γ := by
    have := hint m1 hB
    rw [← h1] at this
    exact (integrable_map_measure hf.aestronglyMeasurable measurable_snd.aemeasurable).1 this
  have e : ∫ x, f x ∂(mvn m0 A) - ∫ x, f x ∂(mvn m1 B) = ∫ p, (f p.1 - f p.2) ∂γ := by
    rw [integral_sub i0 i1, ← h0, ← h1, integral_map measurable_fst.aemeasurable hf.aestronglyMeasurable,
      integral_map measurable_snd.aemeasurable hf.aestronglyMeasurable]
  have hD : MemLp (fun p : (n → ℝ) × (n → ℝ) => Real.sqrt (∑ i, (p.1 i - p.2 i) ^ 2)) 2 γ := by
    rw [memLp_two_iff_integrable_sq (Measurable.aestronglyMeasurable (by fun_prop))]
    refine (cost_eq hm).1.congr (ae_of_all _ fun p => ?_)
    simp only
    rw [Real.sq_sqrt (Finset.sum_nonneg fun i _ => sq_nonneg _)]
  have hmean : ∫ p, Real.sqrt (∑ i, (p.1 i - p.2 i) ^ 2) ∂γ ≤ Real.sqrt (buresDist eigh m0 A m1 B) := by
    refine Real.le_sqrt_of_sq_le ?_
    have hv := variance_nonneg (fun p : (n → ℝ) × (n → ℝ) => Real.sqrt (∑ i, (p.1 i - p.2 i) ^ 2)) γ
    rw [variance_eq_sub hD] at hv
    have e2 : ∫ p, ((fun p : (n → ℝ) × (n → ℝ) => Real.sqrt (∑ i, (p.1 i - p.2 i) ^ 2)) ^ 2) p ∂γ = buresDist eigh m0 A m1 B := by
      rw [← hc]
      refine integral_congr_ae (ae_of_all _ fun p => ?_)
      simp only [Pi.pow_apply]
      rw [Real.sq_sqrt (Finset.sum_nonneg fun i _ => sq_nonneg _)]
    rw [e2] at hv
    linarith
  rw [e]
  calc |∫ p, (f p.1 - f p.2) ∂γ| ≤ ∫ p, |f p.1 - f p.2| ∂γ := abs_integral_le_integral_abs
    _ ≤ ∫ p, l * Real.sqrt (∑ i, (p.1 i - p.2 i) ^ 2) ∂γ :=
        integral_mono (i0.sub i1).abs ((hD.integrable one_le_two).const_mul _) fun p => hfl p.1 p.2
    _ = l * ∫ p, Real.sqrt (∑ i, (p.1 i - p.2 i) ^ 2) ∂γ := integral_const_mul _ _
    _ ≤ _ := mul_le_mul_of_nonneg_left hmean hl

/-- **C102, a square.**  The value itself is not a distance: going from 0 to 2 in one step costs more than going by way of 1, whatever the covariance. -/
theorem C102_square {eigh : Matrix (Fin 1) (Fin 1) ℝ → (Fin 1 → ℝ) × Matrix (Fin 1) (Fin 1) ℝ} (he : IsEigh eigh) {S : Matrix (Fin 1) (Fin 1) ℝ}
    (hS : S.PosSemidef) :
    buresDist eigh (fun _ => 0) S (fun _ => 1) S + buresDist eigh (fun _ => 1) S (fun _ => 2) S <
      buresDist eigh (fun _ => 0) S (fun _ => 2) S := by
  have h := (C41_bures_zero he (fun _ => 0) (fun _ => 0) hS hS).2 ⟨rfl, rfl⟩
  rw [bures_eq] at h ⊢
  rw [bures_eq, bures_eq]
  simp only [Fin.sum_univ_one, sub_self] at h ⊢
  norm_num at h ⊢
  linarith

/-! ### The hypotheses can be met -/

/-- The unit normal law coupled with itself, shifted. -/
example : HasMoments ((mvn (0 : Fin 2 → ℝ) 1).map fun x => (x, 1 + (1 : Matrix (Fin 2) (Fin 2) ℝ) *ᵥ x)) 0 1 1 1 := by
  have mG := measurable_affine (k := Fin 2) (n := Fin 2) 1 1
  refine hasMoments_of_marginals PosSemidef.one PosSemidef.one ?_ ?_
  · rw [Measure.map_map measurable_fst (measurable_id'.prodMk mG)]
    exact Measure.map_id
  · rw [Measure.map_map measurable_snd (measurable_id'.prodMk mG)]
    have := mvn_affine (m := (0 : Fin 2 → ℝ)) (S := 1) PosSemidef.one (1 : Fin 2 → ℝ) (1 : Matrix (Fin 2) (Fin 2) ℝ)
    simp only [mulVec_zero, add_zero, Matrix.mul_one, transpose_one] at this
    exact this

/-- Degenerate covariances are allowed, and the distance between a point and the unit normal law is the dimension. -/
example {eigh : Matrix (Fin 2) (Fin 2) ℝ → (Fin 2 → ℝ) × Matrix (Fin 2) (Fin 2) ℝ} (he : IsEigh eigh) :
    buresDist eigh 0 0 0 1 = 2 := by
  have h0 : sqrtm eigh (0 : Matrix (Fin 2) (Fin 2) ℝ) = 0 := C41_sqrtm_unique he PosSemidef.zero (by simp)
  rw [bures_eq, h0, Matrix.zero_mul, Matrix.zero_mul, h0]
  simp

example (x y : Fin 2 → ℝ) : |(fun x : Fin 2 → ℝ => x 0) x - (fun x : Fin 2 → ℝ => x 0) y| ≤ 1 * Real.sqrt (∑ i, (x i - y i) ^ 2) := by
  rw [one_mul]
  refine Real.abs_le_sqrt ?_
  rw [Fin.sum_univ_two]
  nlinarith [sq_nonneg (x 1 - y 1)]

end Props
end Fbs
