import Verif.Model.Tables
import Verif.Props.Kl
import Mathlib.Probability.Moments.Covariance
import Mathlib.Probability.Independence.Basic
import Mathlib.MeasureTheory.Integral.Pi
import Mathlib.Probability.Distributions.Gaussian.Real

/-!
# C77: the error tables of the Gaussian experiments
-/

open Matrix MeasureTheory ProbabilityTheory
open scoped ENNReal

namespace Fbs
namespace Props

open Utils Spec Tables

variable {ι : Type} {n nchains : ℕ}

theorem sum_centred (hn : 0 < n) (s : Fin n → ι → ℝ) (k : ι) : ∑ i, (s i k - sampleMean s k) = 0 := by
  have : (n : ℝ) ≠ 0 := by positivity
  simp only [sampleMean, Finset.sum_sub_distrib, Finset.sum_const, Finset.card_univ, Fintype.card_fin, nsmul_eq_mul]
  field_simp
  ring

/-- The entries of the sample covariance. -/
theorem sampleCov_spec (hn : 2 ≤ n) (s : Fin n → ι → ℝ) :
    ∃ C, sampleCov s = some C ∧
      ∀ k l, C k l = (∑ i, (s i k - sampleMean s k) * (s i l - sampleMean s l)) / ((n : ℝ) - 1) := by
  refine ⟨_, if_neg (by omega), fun k l => ?_⟩
  rw [Matrix.smul_apply, smul_eq_mul, mul_apply]
  simp only [transpose_apply, of_apply]
  ring

theorem sampleCov_sums (hn : 2 ≤ n) (s : Fin n → ι → ℝ) {C} (hC : sampleCov s = some C) (k l : ι) :
    C k l = (∑ i, s i k * s i l - (∑ i, ∑ j, s i k * s j l) / n) / ((n : ℝ) - 1) := by
  obtain ⟨C', h1, h2⟩ := sampleCov_spec hn s
  obtain rfl : C' = C := Option.some_inj.1 (h1.symm.trans hC)
  rw [h2]
  congr 1
  have hn0 : (n : ℝ) ≠ 0 := by positivity
  have hd : ∑ i, ∑ j, s i k * s j l = (∑ i, s i k) * ∑ j, s j l := by rw [Finset.sum_mul_sum]
  rw [hd]
  have e : ∀ i, (s i k - sampleMean s k) * (s i l - sampleMean s l) =
      s i k * s i l - sampleMean s l * s i k - sampleMean s k * s i l + sampleMean s k * sampleMean s l := fun i => by ring
  simp only [e, Finset.sum_add_distrib, Finset.sum_sub_distrib, ← Finset.mul_sum, Finset.sum_const, Finset.card_univ,
    Fintype.card_fin, nsmul_eq_mul]
  simp only [sampleMean]
  field_simp
  ring

section Law

variable {P : Measure (ι → ℝ)} [IsProbabilityMeasure P]

theorem integral_pair (hP : ∀ k, MemLp (fun x : ι → ℝ => x k) 2 P) (i j : Fin n) (k l : ι) :
    Integrable (fun s : Fin n → ι → ℝ => s i k * s j l) (Measure.pi fun _ => P) ∧
    ∫ s : Fin n → ι → ℝ, s i k * s j l ∂(Measure.pi fun _ => P) =
      if i = j then ∫ x, x k * x l ∂P else (∫ x, x k ∂P) * ∫ x, x l ∂P := by
  have hm : ∀ i k, MemLp (fun s : Fin n → ι → ℝ => s i k) 2 (Measure.pi fun _ => P) := fun i k =>
    (hP k).comp_measurePreserving (measurePreserving_eval (fun _ : Fin n => P) i)
  refine ⟨(hm i k).integrable_mul (hm j l), ?_⟩
  split_ifs with hij
  · subst hij
    exact integral_comp_eval (μ := fun _ : Fin n => P) (f := fun x : ι → ℝ => x k * x l)
      ((hP k).integrable_mul (hP l)).aestronglyMeasurable
  · have hind := (iIndepFun_pi (μ := fun _ : Fin n => P) (X := fun _ : Fin n => (id : (ι → ℝ) → ι → ℝ))
      fun _ => aemeasurable_id).indepFun hij
    have mk : Measurable fun x : ι → ℝ => x k := measurable_pi_apply k
    have ml : Measurable fun x : ι → ℝ => x l := measurable_pi_apply l
    have hind' := hind.comp mk ml
    have := hind'.integral_mul_eq_mul_integral (hm i k).aestronglyMeasurable (hm j l).aestronglyMeasurable
    refine this.trans ?_
    congr 1
    · exact integral_comp_eval (μ := fun _ : Fin n => P) (f := fun x : ι → ℝ => x k) (hP k).aestronglyMeasurable
    · exact integral_comp_eval (μ := fun _ : Fin n => P) (f := fun x : ι → ℝ => x l) (hP l).aestronglyMeasurable

/-- **C77, the estimators are unbiased.**  For independent samples of any law with second moments, the expectation of
the sample mean is the mean and the expectation of the sample covariance is the covariance of the law. -/
theorem C77_unbiased (hP : ∀ k, MemLp (fun x : ι → ℝ => x k) 2 P) (hn : 2 ≤ n) :
    (∀ k, ∫ s : Fin n → ι → ℝ, sampleMean s k ∂(Measure.pi fun _ => P) = ∫ x, x k ∂P) ∧
    ∃ C : (Fin n → ι → ℝ) → Matrix ι ι ℝ, (∀ s, sampleCov s = some (C s)) ∧
      ∀ k l, ∫ s, C s k l ∂(Measure.pi fun _ => P) = cov[fun x => x k, fun x => x l; P] := by
  have hn0 : (n : ℝ) ≠ 0 := by positivity
  have hn1 : (n : ℝ) - 1 ≠ 0 := by
    have : (2 : ℝ) ≤ n := by exact_mod_cast hn
    linarith
  have hi : ∀ (i : Fin n) k, Integrable (fun s : Fin n → ι → ℝ => s i k) (Measure.pi fun _ => P) := fun i k =>
    ((hP k).comp_measurePreserving (measurePreserving_eval (fun _ : Fin n => P) i)).integrable one_le_two
  constructor
  · intro k
    simp only [sampleMean]
    rw [integral_div, integral_finsetSum _ fun i _ => hi i k]
    have : ∀ i : Fin n, ∫ s : Fin n → ι → ℝ, s i k ∂(Measure.pi fun _ => P) = ∫ x, x k ∂P := fun i =>
      integral_comp_eval (μ := fun _ : Fin n => P) (f := fun x : ι → ℝ => x k) (hP k).aestronglyMeasurable
    simp only [this, Finset.sum_const, Finset.card_univ, Fintype.card_fin, nsmul_eq_mul]
    field_simp
  · choose C hC hC' using fun s : Fin n → ι → ℝ => sampleCov_spec hn s
    refine ⟨C, hC, fun k l => ?_⟩
    simp only [fun s => sampleCov_sums hn s (hC s) k l]
    rw [integral_div, integral_sub (integrable_finsetSum _ fun i _ => (integral_pair hP i i k l).1)
      ((integrable_finsetSum _ fun i _ => integrable_finsetSum _ fun j _ => (integral_pair hP i j k l).1).div_const _),
      integral_div, integral_finsetSum _ fun i _ => (integral_pair hP i i k l).1,
      integral_finsetSum _ fun i _ => integrable_finsetSum _ fun j _ => (integral_pair hP i j k l).1]
    simp only [fun i => integral_finsetSum Finset.univ fun j _ => (integral_pair (n := n) hP i j k l).1,
      fun i j : Fin n => (integral_pair hP i j k l).2]
    have hs : ∀ i : Fin n, ∑ j : Fin n, (if i = j then ∫ x, x k * x l ∂P else (∫ x, x k ∂P) * ∫ x, x l ∂P) =
        ∫ x, x k * x l ∂P + ((n : ℝ) - 1) * ((∫ x, x k ∂P) * ∫ x, x l ∂P) := by
      intro i
      have : ∀ j : Fin n, (if i = j then ∫ x, x k * x l ∂P else (∫ x, x k ∂P) * ∫ x, x l ∂P) =
          (if i = j then ∫ x, x k * x l ∂P - (∫ x, x k ∂P) * ∫ x, x l ∂P else 0) +
            (∫ x, x k ∂P) * ∫ x, x l ∂P := fun j => by split_ifs <;> ring
      simp only [this, Finset.sum_add_distrib, Finset.sum_ite_eq, Finset.mem_univ, if_true, Finset.sum_const,
        Finset.card_univ, Fintype.card_fin, nsmul_eq_mul]
      ring
    simp only [hs, if_true, Finset.sum_const, Finset.card_univ, Fintype.card_fin, nsmul_eq_mul]
    rw [covariance_eq_sub (hP k) (hP l)]
    simp only [Pi.mul_apply]
    field_simp
    ring

/-- **C77, the error of the mean.**  The expected squared error of the sample mean against the reported mean is the
variance divided by the number of samples plus the squared bias of the sampler. -/
theorem C77_mean_error (hP : ∀ k, MemLp (fun x : ι → ℝ => x k) 2 P) (hn : 0 < n) (gpMean : ι → ℝ) (k : ι) :
    Integrable (fun s : Fin n → ι → ℝ => (sampleMean s k - gpMean k) ^ 2) (Measure.pi fun _ => P) ∧
    ∫ s : Fin n → ι → ℝ, (sampleMean s k - gpMean k) ^ 2 ∂(Measure.pi fun _ => P) =
      Var[fun x => x k; P] / n + (∫ x, x k ∂P - gpMean k) ^ 2 := by
  have hn0 : (n : ℝ) ≠ 0 := by positivity
  have hi : ∀ (i : Fin n), Integrable (fun s : Fin n → ι → ℝ => s i k) (Measure.pi fun _ => P) := fun i =>
    ((hP k).comp_measurePreserving (measurePreserving_eval (fun _ : Fin n => P) i)).integrable one_le_two
  have he : ∀ s : Fin n → ι → ℝ, (sampleMean s k - gpMean k) ^ 2 =
      (∑ i, ∑ j, s i k * s j k) / (n : ℝ) ^ 2 - 2 * gpMean k / n * ∑ i, s i k + gpMean k ^ 2 := by
    intro s
    have hd : ∑ i, ∑ j, s i k * s j k = (∑ i, s i k) * ∑ j, s j k := by rw [Finset.sum_mul_sum]
    rw [hd]
    simp only [sampleMean]
    field_simp
    ring
  have i1 : Integrable (fun s : Fin n → ι → ℝ => (∑ i, ∑ j, s i k * s j k) / (n : ℝ) ^ 2) (Measure.pi fun _ => P) :=
    (integrable_finsetSum _ fun i _ => integrable_finsetSum _ fun j _ => (integral_pair hP i j k k).1).div_const _
  have i2 : Integrable (fun s : Fin n → ι → ℝ => 2 * gpMean k / n * ∑ i, s i k) (Measure.pi fun _ => P) :=
    (integrable_finsetSum _ fun i _ => hi i).const_mul _
  simp only [he]
  refine ⟨(i1.sub i2).add (integrable_const _), ?_⟩
  have ea := integral_add (i1.sub i2) (integrable_const (μ := Measure.pi fun _ : Fin n => P) (gpMean k ^ 2))
  simp only [Pi.sub_apply] at ea
  rw [ea, integral_sub i1 i2, integral_div, integral_const_mul,
    integral_finsetSum _ fun i _ => hi i,
    integral_finsetSum _ fun i _ => integrable_finsetSum _ fun j _ => (integral_pair hP i j k k).1]
  have hm : ∀ i : Fin n, ∫ s : Fin n → ι → ℝ, s i k ∂(Measure.pi fun _ => P) = ∫ x, x k ∂P := fun i =>
    integral_comp_eval (μ := fun _ : Fin n => P) (f := fun x : ι → ℝ => x k) (hP k).aestronglyMeasurable
  simp only [fun i => integral_finsetSum Finset.univ fun j _ => (integral_pair (n := n) hP i j k k).1,
    fun i j : Fin n => (integral_pair hP i j k k).2, hm]
  have hs : ∀ i : Fin n, ∑ j : Fin n, (if i = j then ∫ x, x k * x k ∂P else (∫ x, x k ∂P) * ∫ x, x k ∂P) =
      ∫ x, x k * x k ∂P + ((n : ℝ) - 1) * ((∫ x, x k ∂P) * ∫ x, x k ∂P) := by
    intro i
    have : ∀ j : Fin n, (if i = j then ∫ x, x k * x k ∂P else (∫ x, x k ∂P) * ∫ x, x k ∂P) =
        (if i = j then ∫ x, x k * x k ∂P - (∫ x, x k ∂P) * ∫ x, x k ∂P else 0) +
          (∫ x, x k ∂P) * ∫ x, x k ∂P := fun j => by split_ifs <;> ring
    simp only [this, Finset.sum_add_distrib, Finset.sum_ite_eq, Finset.mem_univ, if_true, Finset.sum_const,
      Finset.card_univ, Fintype.card_fin, nsmul_eq_mul]
    ring
  simp only [hs, Finset.sum_const, Finset.card_univ, Fintype.card_fin, nsmul_eq_mul, integral_const, probReal_univ,
    one_smul]
  rw [← covariance_self (hP k).aestronglyMeasurable.aemeasurable, covariance_eq_sub (hP k) (hP k)]
  simp only [Pi.mul_apply]
  field_simp
  ring

end Law

/-! ### Deterministic properties of the estimators -/

theorem sampleCov_some_iff (s : Fin n → ι → ℝ) : (∃ C, sampleCov s = some C) ↔ 2 ≤ n := by
  constructor
  · rintro ⟨C, hC⟩
    by_contra h
    rw [sampleCov, if_pos (by omega)] at hC
    simp at hC
  · intro h
    obtain ⟨C, hC, -⟩ := sampleCov_spec h s
    exact ⟨C, hC⟩

variable [Fintype ι]

/-- The quadratic form of the sample covariance. -/
theorem sampleCov_quad (s : Fin n → ι → ℝ) {C} (hC : sampleCov s = some C) (v : ι → ℝ) :
    v ⬝ᵥ C *ᵥ v = (∑ i, (∑ k, (s i k - sampleMean s k) * v k) ^ 2) / ((n : ℝ) - 1) := by
  have hn := (sampleCov_some_iff s).1 ⟨C, hC⟩
  obtain ⟨C', h1, h2⟩ := sampleCov_spec hn s
  obtain rfl : C' = C := Option.some_inj.1 (h1.symm.trans hC)
  simp only [dotProduct, mulVec, h2, sq, Finset.sum_mul_sum]
  simp only [Finset.mul_sum, Finset.sum_div, Finset.sum_mul]
  symm
  rw [Finset.sum_comm]
  refine Finset.sum_congr rfl fun k _ => ?_
  rw [Finset.sum_comm]
  refine Finset.sum_congr rfl fun l _ => Finset.sum_congr rfl fun i _ => ?_
  ring

/-- **C77, the covariance passed to the divergences.**  It is symmetric and positive semidefinite for all samples; it is
positive definite exactly when no direction is constant over the samples; with at most as many samples as dimensions it
is singular. -/
theorem C77_psd (s : Fin n → ι → ℝ) {C} (hC : sampleCov s = some C) :
    C.PosSemidef ∧
    (C.PosDef ↔ ∀ v : ι → ℝ, v ≠ 0 → ∃ i j, ∑ k, s i k * v k ≠ ∑ k, s j k * v k) ∧
    (n ≤ Fintype.card ι → ∃ v : ι → ℝ, v ≠ 0 ∧ C *ᵥ v = 0) := by
  have hn := (sampleCov_some_iff s).1 ⟨C, hC⟩
  have hn1 : (0 : ℝ) < (n : ℝ) - 1 := by
    have : (2 : ℝ) ≤ n := by exact_mod_cast hn
    linarith
  have hsymm : C.IsHermitian := by
    obtain ⟨C', h1, h2⟩ := sampleCov_spec hn s
    obtain rfl : C' = C := Option.some_inj.1 (h1.symm.trans hC)
    ext k l
    simp only [conjTranspose_apply, star_trivial, h2, mul_comm]
  have hpsd : C.PosSemidef := by
    refine PosSemidef.of_dotProduct_mulVec_nonneg hsymm fun v => ?_
    simp only [star_trivial]
    rw [sampleCov_quad s hC]
    positivity
  refine ⟨hpsd, ⟨fun h v hv => ?_, fun h => ?_⟩, fun hle => ?_⟩
  · by_contra hc
    push Not at hc
    have hpos := h.dotProduct_mulVec_pos hv
    simp only [star_trivial] at hpos
    rw [sampleCov_quad s hC] at hpos
    have : ∀ i, ∑ k, (s i k - sampleMean s k) * v k = 0 := by
      intro i
      have hn0 : (n : ℝ) ≠ 0 := by positivity
      simp only [sub_mul, Finset.sum_sub_distrib]
      have : ∑ k, sampleMean s k * v k = ∑ k, s i k * v k := by
        have : ∑ k, sampleMean s k * v k = (∑ j, ∑ k, s j k * v k) / n := by
          rw [Finset.sum_comm]
          simp only [sampleMean, Finset.sum_div, Finset.sum_mul]
          exact Finset.sum_congr rfl fun k _ => Finset.sum_congr rfl fun j _ => by ring
        rw [this, Finset.sum_congr rfl fun j _ => hc j i]
        simp only [Finset.sum_const, Finset.card_univ, Fintype.card_fin, nsmul_eq_mul]
        field_simp
      rw [this, sub_self]
    simp [this] at hpos
  · refine PosDef.of_dotProduct_mulVec_pos hsymm fun v hv => ?_
    simp only [star_trivial]
    rw [sampleCov_quad s hC]
    refine div_pos ?_ hn1
    obtain ⟨i, j, hij⟩ := h v hv
    by_contra hle
    have h0 := (Finset.sum_eq_zero_iff_of_nonneg fun i _ => sq_nonneg _).1
      (le_antisymm (not_lt.1 hle) (Finset.sum_nonneg fun i _ => sq_nonneg (∑ k, (s i k - sampleMean s k) * v k)))
    have hi := pow_eq_zero_iff (two_ne_zero) |>.1 (h0 i (Finset.mem_univ _))
    have hj := pow_eq_zero_iff (two_ne_zero) |>.1 (h0 j (Finset.mem_univ _))
    simp only [sub_mul, Finset.sum_sub_distrib] at hi hj
    exact hij (by linarith)
  · -- the first `n - 1` centred samples annihilate some direction, hence so does the last one
    obtain ⟨m, rfl⟩ : ∃ m, n = m + 1 := ⟨n - 1, by omega⟩
    let X : Matrix (Fin m) ι ℝ := Matrix.of fun i k => s i.castSucc k - sampleMean s k
    obtain ⟨v, hv, hXv⟩ : ∃ v : ι → ℝ, v ≠ 0 ∧ X *ᵥ v = 0 := by
      have hlt : Module.finrank ℝ (Fin m → ℝ) < Module.finrank ℝ (ι → ℝ) := by
        rw [Module.finrank_fin_fun, Module.finrank_fintype_fun_eq_card]
        omega
      have hk := LinearMap.ker_ne_bot_of_finrank_lt (f := X.mulVecLin) hlt
      obtain ⟨v, hv, h0⟩ := (Submodule.ne_bot_iff _).1 hk
      exact ⟨v, h0, by simpa using hv⟩
    have hi : ∀ i : Fin m, ∑ k, (s i.castSucc k - sampleMean s k) * v k = 0 := fun i => congrFun hXv i
    have hl : ∑ k, (s (Fin.last m) k - sampleMean s k) * v k = 0 := by
      have h1 : ∑ i, ∑ k, (s i k - sampleMean s k) * v k = 0 := by
        rw [Finset.sum_comm]
        refine Finset.sum_eq_zero fun k _ => ?_
        rw [← Finset.sum_mul, sum_centred (by omega), zero_mul]
      rw [Fin.sum_univ_castSucc] at h1
      simpa [hi] using h1
    have hall : ∀ i, ∑ k, (s i k - sampleMean s k) * v k = 0 := fun i => Fin.lastCases hl hi i
    refine ⟨v, hv, ?_⟩
    have hq := sampleCov_quad s hC v
    simp only [hall] at hq
    have := (hpsd.dotProduct_mulVec_zero_iff v).1 (by simpa using hq)
    exact this

/-- **C77, affine maps.**  The estimators commute with affine maps of the samples and do not depend on the order of
the samples. -/
theorem C77_affine {κ : Type} (A : Matrix κ ι ℝ) (b : κ → ℝ) (s : Fin n → ι → ℝ) (hn : 2 ≤ n) {C} (hC : sampleCov s = some C)
    (σ : Equiv.Perm (Fin n)) :
    (sampleMean fun i => A *ᵥ s (σ i) + b) = A *ᵥ sampleMean s + b ∧
    (sampleCov fun i => A *ᵥ s (σ i) + b) = some (A * C * Aᵀ) := by
  have hn0 : (n : ℝ) ≠ 0 := by positivity
  have hm : (sampleMean fun i => A *ᵥ s (σ i) + b) = A *ᵥ sampleMean s + b := by
    funext k
    simp only [sampleMean, Pi.add_apply, mulVec, dotProduct]
    rw [Equiv.sum_comp σ fun i => ∑ j, A k j * s i j + b k, Finset.sum_add_distrib, Finset.sum_comm]
    simp only [Finset.sum_const, Finset.card_univ, Fintype.card_fin, nsmul_eq_mul, add_div, Finset.sum_div,
      ← Finset.mul_sum, mul_div_assoc]
    field_simp
  refine ⟨hm, ?_⟩
  obtain ⟨C', h1, h2⟩ := sampleCov_spec hn s
  obtain rfl : C' = C := Option.some_inj.1 (h1.symm.trans hC)
  obtain ⟨D, h3, h4⟩ := sampleCov_spec hn fun i => A *ᵥ s (σ i) + b
  rw [h3]
  congr 1
  ext k l
  rw [h4, hm]
  have hd : ∀ i k, (A *ᵥ s i + b) k - (A *ᵥ sampleMean s + b) k = ∑ j, A k j * (s i j - sampleMean s j) := by
    intro i k
    simp only [Pi.add_apply, mulVec, dotProduct, mul_sub, Finset.sum_sub_distrib]
    ring
  rw [Equiv.sum_comp σ fun i => ((A *ᵥ s i + b) k - (A *ᵥ sampleMean s + b) k) *
    ((A *ᵥ s i + b) l - (A *ᵥ sampleMean s + b) l)]
  simp only [hd, mul_apply, transpose_apply, h2, Finset.sum_mul, Finset.mul_sum, Finset.sum_div]
  rw [Finset.sum_comm]
  refine Finset.sum_congr rfl fun b _ => ?_
  rw [Finset.sum_comm]
  refine Finset.sum_congr rfl fun a _ => Finset.sum_congr rfl fun i _ => ?_
  ring

/-! ### The errors -/

theorem npMean_nonneg {κ : Type} [Fintype κ] {x : κ → ℝ} (h : ∀ i, 0 ≤ x i) : 0 ≤ npMean x :=
  div_nonneg (Finset.sum_nonneg fun i _ => h i) (Nat.cast_nonneg _)

theorem npMean_eq_zero {κ : Type} [Fintype κ] [Nonempty κ] {x : κ → ℝ} (h : ∀ i, 0 ≤ x i) :
    npMean x = 0 ↔ ∀ i, x i = 0 := by
  have hc : (Fintype.card κ : ℝ) ≠ 0 := Nat.cast_ne_zero.2 Fintype.card_ne_zero
  rw [npMean, div_eq_zero_iff, or_iff_left hc, Finset.sum_eq_zero_iff_of_nonneg fun i _ => h i]
  simp

theorem bures_ge_mean [DecidableEq ι] {eigh : Matrix ι ι ℝ → (ι → ℝ) × Matrix ι ι ℝ} (he : IsEigh eigh) (m0 m1 : ι → ℝ)
    {A B : Matrix ι ι ℝ} (hA : A.PosSemidef) (hB : B.PosSemidef) :
    ∑ k, (m0 k - m1 k) ^ 2 ≤ buresDist eigh m0 A m1 B := by
  obtain ⟨Y, Z, P, h, -⟩ := bures_trace he hA hB
  unfold buresDist
  simp only
  rw [h]
  linarith [(trace_tmul_nonneg Y).1, (trace_tmul_nonneg Z).1]

variable [LinearOrder ι] {eigh : Matrix ι ι ℝ → (ι → ℝ) × Matrix ι ι ℝ} {cho : Matrix ι ι ℝ → Matrix ι ι ℝ}
  {gpMean : ι → ℝ} {gpCov : Matrix ι ι ℝ}

/-- **C77, the errors vanish only for matching moments.**  All four errors are non-negative.  The mean and variance errors
vanish exactly when the means, respectively the marginal variances, agree; the Bures error, and the divergence whenever
no direction is constant over the samples, vanish exactly when both the mean and the whole covariance agree. -/
theorem C77_zero [Nonempty ι] (he : IsEigh eigh) (hc : IsChol cho) (hg : gpCov.PosDef) {s : Fin n → ι → ℝ} {e : Errors}
    (hs : errorsFlat eigh cho gpMean gpCov s = some e) :
    (0 ≤ e.m ∧ (e.m = 0 ↔ ∀ k, (∑ i, s i k) / n = gpMean k)) ∧
    (0 ≤ e.var ∧ (e.var = 0 ↔ ∀ k, (∑ i, (s i k - (∑ j, s j k) / n) ^ 2) / ((n : ℝ) - 1) = gpCov k k)) ∧
    (0 ≤ e.bures ∧ (e.bures = 0 ↔ (∀ k, (∑ i, s i k) / n = gpMean k) ∧ sampleCov s = some gpCov)) ∧
    ((∀ v : ι → ℝ, v ≠ 0 → ∃ i j, ∑ k, s i k * v k ≠ ∑ k, s j k * v k) →
      0 ≤ e.kl ∧ (e.kl = 0 ↔ (∀ k, (∑ i, s i k) / n = gpMean k) ∧ sampleCov s = some gpCov)) := by
  obtain ⟨C, hC, rfl⟩ := Option.map_eq_some_iff.1 hs
  have hn := (sampleCov_some_iff s).1 ⟨C, hC⟩
  obtain ⟨hpsd, hpd, -⟩ := C77_psd s hC
  have hm : gpMean = sampleMean s ↔ ∀ k, (∑ i, s i k) / n = gpMean k := by
    rw [eq_comm, funext_iff]; rfl
  have hcc : gpCov = C ↔ sampleCov s = some gpCov := by
    rw [hC, Option.some_inj, eq_comm]
  refine ⟨⟨npMean_nonneg fun k => abs_nonneg _, ?_⟩, ⟨npMean_nonneg fun k => abs_nonneg _, ?_⟩,
    ⟨C41_bures_nonneg he _ _ hg.posSemidef hpsd, ?_⟩, fun h => ⟨C42_nonneg hc hg (hpd.2 h), ?_⟩⟩
  · refine (npMean_eq_zero fun k => abs_nonneg _).trans (forall_congr' fun k => ?_)
    rw [abs_eq_zero, sub_eq_zero]; rfl
  · refine (npMean_eq_zero fun k => abs_nonneg _).trans (forall_congr' fun k => ?_)
    obtain ⟨C', h1, h2⟩ := sampleCov_spec hn s
    obtain rfl : C' = C := Option.some_inj.1 (h1.symm.trans hC)
    rw [abs_eq_zero, sub_eq_zero, h2]
    simp only [← sq, sampleMean]
  · rw [← hm, ← hcc]
    exact C41_bures_zero he _ _ hg.posSemidef hpsd
  · rw [← hm, ← hcc]
    exact C42_zero hc hg (hpd.2 h)

/-- **C77, the noise floor.**  For `n` independent samples of any law `P` the expected Bures error is at least the total
variance of `P` divided by `n` plus the squared bias, and the expected mean error is at most the average root of the
same quantities: even exact sampling has positive errors in the table. -/
theorem C77_floor {P : Measure (ι → ℝ)} [IsProbabilityMeasure P] (hP : ∀ k, MemLp (fun x : ι → ℝ => x k) 2 P) (hn : 2 ≤ n)
    (he : IsEigh eigh) (hg : gpCov.PosSemidef) :
    ∃ e : (Fin n → ι → ℝ) → Errors, (∀ s, errorsFlat eigh cho gpMean gpCov s = some (e s)) ∧
      ENNReal.ofReal (∑ k, (Var[fun x => x k; P] / n + (∫ x, x k ∂P - gpMean k) ^ 2)) ≤
        ∫⁻ s, ENNReal.ofReal (e s).bures ∂(Measure.pi fun _ => P) ∧
      ∫ s, (e s).m ∂(Measure.pi fun _ => P) ≤
        (∑ k, Real.sqrt (Var[fun x => x k; P] / n + (∫ x, x k ∂P - gpMean k) ^ 2)) / Fintype.card ι := by
  choose C hC using fun s : Fin n → ι → ℝ => (sampleCov_some_iff s).2 hn
  refine ⟨fun s => errors eigh cho gpMean gpCov (sampleMean s) (C s), fun s => ?_, ?_, ?_⟩
  · rw [errorsFlat, hC, Option.map_some]
  · have hk := fun k => C77_mean_error hP (n := n) (by omega) gpMean k
    simp only [← (hk _).2]
    rw [← integral_finsetSum _ fun k _ => (hk k).1, ofReal_integral_eq_lintegral_ofReal
      (integrable_finsetSum _ fun k _ => (hk k).1) (ae_of_all _ fun s => Finset.sum_nonneg fun k _ => sq_nonneg _)]
    refine lintegral_mono fun s => ENNReal.ofReal_le_ofReal ?_
    refine le_trans (le_of_eq (Finset.sum_congr rfl fun k _ => ?_)) (bures_ge_mean he gpMean (sampleMean s) hg (C77_psd s (hC s)).1)
    ring
  · have hk := fun k => C77_mean_error hP (n := n) (by omega) gpMean k
    have hsm : ∀ k, MemLp (fun s : Fin n → ι → ℝ => sampleMean s k - gpMean k) 2 (Measure.pi fun _ => P) := by
      intro k
      refine MemLp.sub ?_ (memLp_const _)
      have := memLp_finsetSum (p := 2) Finset.univ (f := fun (i : Fin n) (s : Fin n → ι → ℝ) => s i k)
        (μ := Measure.pi fun _ : Fin n => P)
        fun i _ => (hP k).comp_measurePreserving (measurePreserving_eval (fun _ : Fin n => P) i)
      simpa only [sampleMean, div_eq_inv_mul] using this.const_mul ((n : ℝ)⁻¹)
    have habs : ∀ k, MemLp (fun s : Fin n → ι → ℝ => |sampleMean s k - gpMean k|) 2 (Measure.pi fun _ => P) :=
      fun k => (hsm k).abs
    simp only [errors, npMean]
    rw [integral_div, integral_finsetSum _ fun k _ => (habs k).integrable one_le_two]
    refine div_le_div_of_nonneg_right (Finset.sum_le_sum fun k _ => ?_) (Nat.cast_nonneg _)
    rw [← (hk k).2]
    refine Real.le_sqrt_of_sq_le ?_
    have hv := variance_nonneg (fun s : Fin n → ι → ℝ => |sampleMean s k - gpMean k|) (Measure.pi fun _ => P)
    rw [variance_eq_sub (habs k)] at hv
    simp only [Pi.pow_apply, sq_abs] at hv
    linarith

/-- **C77, several chains.**  The errors reported for several chains are the averages of the errors of the chains. -/
theorem C77_chains {s : Fin nchains → Fin n → ι → ℝ} {e : Fin nchains → Errors} (hc : 0 < nchains)
    (hs : ∀ c, errorsFlat eigh cho gpMean gpCov (s c) = some (e c)) :
    errorsChains eigh cho gpMean gpCov s =
      some { m := (∑ c, (e c).m) / nchains, var := (∑ c, (e c).var) / nchains
             kl := (∑ c, (e c).kl) / nchains, bures := (∑ c, (e c).bures) / nchains } := by
  choose C hC hE using fun c => Option.map_eq_some_iff.1 (hs c)
  have hn := (sampleCov_some_iff (s ⟨0, hc⟩)).1 ⟨_, hC ⟨0, hc⟩⟩
  rw [errorsChains, if_neg (by omega)]
  simp only [hC, Option.getD_some, ← hE, errors, npMean, Fintype.card_prod, Fintype.card_fin, Fintype.sum_prod_type,
    ← Finset.sum_div, div_div, Nat.cast_mul, mul_comm (nchains : ℝ)]

/-- The overall mean of all samples of all chains. -/
noncomputable def pooledMean (s : Fin nchains → Fin n → ι → ℝ) (k : ι) : ℝ := (∑ c, ∑ i, s c i k) / (nchains * n)

omit [Fintype ι] [LinearOrder ι] in
theorem pooledMean_eq (hn : 0 < n) (s : Fin nchains → Fin n → ι → ℝ) (k : ι) :
    pooledMean s k = (∑ c, sampleMean (s c) k) / nchains := by
  have hn0 : (n : ℝ) ≠ 0 := by positivity
  simp only [pooledMean, sampleMean, ← Finset.sum_div, div_div]
  rw [mul_comm]

/-- **C77, pooling.**  The mean error reported for several chains is at least the error of the mean of all samples. -/
theorem C77_pooled {s : Fin nchains → Fin n → ι → ℝ} (hc : 0 < nchains) {e : Errors}
    (hs : errorsChains eigh cho gpMean gpCov s = some e) :
    (∑ k, |(∑ c, ∑ i, s c i k) / (nchains * n) - gpMean k|) / Fintype.card ι ≤ e.m := by
  by_cases hn : n ≤ 1
  · rw [errorsChains, if_pos hn] at hs
    simp at hs
  rw [errorsChains, if_neg hn] at hs
  have hs := Option.some_inj.1 hs
  subst hs
  have hc0 : (0 : ℝ) < nchains := by exact_mod_cast hc
  have h1 : ∀ k, |(∑ c, ∑ i, s c i k) / (nchains * n) - gpMean k| ≤ (∑ c, |sampleMean (s c) k - gpMean k|) / nchains := by
    intro k
    have := pooledMean_eq (by omega) s k
    rw [pooledMean] at this
    rw [this, le_div_iff₀ hc0, ← abs_of_pos hc0, ← abs_mul, abs_of_pos hc0]
    refine le_trans (le_of_eq ?_) (Finset.abs_sum_le_sum_abs _ _)
    congr 1
    rw [Finset.sum_sub_distrib]
    simp only [Finset.sum_const, Finset.card_univ, Fintype.card_fin, nsmul_eq_mul]
    field_simp
  simp only [npMean, Fintype.card_prod, Fintype.card_fin, Fintype.sum_prod_type, Nat.cast_mul]
  rw [← div_div _ (nchains : ℝ)]
  refine div_le_div_of_nonneg_right ?_ (Nat.cast_nonneg _)
  refine (Finset.sum_le_sum fun k _ => h1 k).trans (le_of_eq ?_)
  rw [← Finset.sum_div, Finset.sum_comm]

omit [Fintype ι] [LinearOrder ι] in
/-- **C77, the covariance of the contour figure.**  The mean drawn in the figure is the mean of all samples.  The
covariance drawn is only the part within the chains: the scatter of all samples around their mean is the figure's
covariance, scaled, plus the scatter of the means of the chains, which the figure drops. -/
theorem C77_contours (hn : 2 ≤ n) (s : Fin nchains → Fin n → ι → ℝ) (k l : ι) :
    (contourMoments s).1 k = (∑ c, ∑ i, s c i k) / (nchains * n) ∧
    ∑ c, ∑ i, (s c i k - pooledMean s k) * (s c i l - pooledMean s l) =
      nchains * ((n : ℝ) - 1) * (contourMoments s).2 k l +
        n * ∑ c, (sampleMean (s c) k - pooledMean s k) * (sampleMean (s c) l - pooledMean s l) := by
  have hn1 : (n : ℝ) - 1 ≠ 0 := by
    have : (2 : ℝ) ≤ n := by exact_mod_cast hn
    linarith
  constructor
  · have := pooledMean_eq (by omega) s k
    rw [pooledMean] at this
    rw [this]
    simp [contourMoments, npMean]
  · rcases Nat.eq_zero_or_pos nchains with rfl | hc
    · simp
    have hc0 : (nchains : ℝ) ≠ 0 := by positivity
    choose C hC hE using fun c => sampleCov_spec hn (s c)
    have h2 : nchains * ((n : ℝ) - 1) * (contourMoments s).2 k l =
        ∑ c, ∑ i, (s c i k - sampleMean (s c) k) * (s c i l - sampleMean (s c) l) := by
      simp only [contourMoments, of_apply, npMean, hC, Option.getD_some, hE, Fintype.card_fin, ← Finset.sum_div]
      field_simp
    rw [h2, Finset.mul_sum, ← Finset.sum_add_distrib]
    refine Finset.sum_congr rfl fun c _ => ?_
    have e : ∀ i, (s c i k - pooledMean s k) * (s c i l - pooledMean s l) =
        (s c i k - sampleMean (s c) k) * (s c i l - sampleMean (s c) l) +
          (sampleMean (s c) l - pooledMean s l) * (s c i k - sampleMean (s c) k) +
          (sampleMean (s c) k - pooledMean s k) * (s c i l - sampleMean (s c) l) +
          (sampleMean (s c) k - pooledMean s k) * (sampleMean (s c) l - pooledMean s l) := fun i => by ring
    simp only [e, Finset.sum_add_distrib, ← Finset.mul_sum, sum_centred (show 0 < n by omega), mul_zero, add_zero,
      Finset.sum_const, Finset.card_univ, Fintype.card_fin, nsmul_eq_mul]
    ring

/-- **C77, the printed spread.**  The printed standard deviation is the one of the runs: its square and the square of the
printed mean add up to the mean of squares, and it vanishes only if all runs have the same error. -/
theorem C77_report {runs : ℕ} (hr : 0 < runs) (errs : Fin runs → ℝ) :
    (report errs).1 = (∑ i, errs i) / runs ∧
    (report errs).2 ^ 2 + (report errs).1 ^ 2 = (∑ i, errs i ^ 2) / runs ∧
    ((report errs).2 = 0 ↔ ∀ i j, errs i = errs j) := by
  have hr0 : (runs : ℝ) ≠ 0 := by positivity
  have : Nonempty (Fin runs) := ⟨⟨0, hr⟩⟩
  have h1 : (report errs).1 = (∑ i, errs i) / runs := by simp [report, npMean]
  have hnn : 0 ≤ npMean fun i => (errs i - npMean errs) ^ 2 := npMean_nonneg fun i => sq_nonneg _
  refine ⟨h1, ?_, ?_⟩
  · rw [h1]
    simp only [report, npStd]
    rw [Real.sq_sqrt hnn]
    have e : ∀ i, (errs i - npMean errs) ^ 2 = errs i ^ 2 - 2 * npMean errs * errs i + npMean errs ^ 2 := fun i => by ring
    simp only [npMean, Fintype.card_fin] at e ⊢
    simp only [e, Finset.sum_add_distrib, Finset.sum_sub_distrib, ← Finset.mul_sum, Finset.sum_const, Finset.card_univ,
      Fintype.card_fin, nsmul_eq_mul]
    field_simp
    ring
  · simp only [report, npStd]
    rw [Real.sqrt_eq_zero hnn, npMean_eq_zero fun i => sq_nonneg _]
    constructor
    · intro h i j
      have hi := pow_eq_zero_iff two_ne_zero |>.1 (h i)
      have hj := pow_eq_zero_iff two_ne_zero |>.1 (h j)
      linarith
    · intro h i
      have : npMean errs = errs i := by
        simp only [npMean, Fintype.card_fin]
        rw [Finset.sum_congr rfl fun j _ => h j i]
        simp only [Finset.sum_const, Finset.card_univ, Fintype.card_fin, nsmul_eq_mul]
        field_simp
      rw [this, sub_self]
      norm_num

omit [Fintype ι] [LinearOrder ι] in
/-- **C77, chains that never move.**  For chains that each stay at one point the figure's covariance is zero, no matter
how far the chains are from each other. -/
theorem C77_contours_stuck (hn : 2 ≤ n) (x : Fin nchains → ι → ℝ) (k l : ι) :
    (contourMoments fun c (_ : Fin n) => x c).2 k l = 0 := by
  choose C hC hE using fun c => sampleCov_spec hn fun _ : Fin n => x c
  have hn0 : (n : ℝ) ≠ 0 := by positivity
  have hm : ∀ c, sampleMean (fun _ : Fin n => x c) = x c := by
    intro c
    funext k
    simp only [sampleMean, Finset.sum_const, Finset.card_univ, Fintype.card_fin, nsmul_eq_mul]
    field_simp
  simp [contourMoments, npMean, hC, hE, hm]

/-! ### The hypotheses are satisfiable -/

/-- Two independent Gaussian variables with different means and variances. -/
noncomputable def exLaw : Measure (Fin 2 → ℝ) := Measure.pi fun k => gaussianReal (k : ℕ) (if k = 0 then 1 else 4)

instance : IsProbabilityMeasure exLaw := by unfold exLaw; infer_instance

theorem exLaw_memLp (k : Fin 2) : MemLp (fun x : Fin 2 → ℝ => x k) 2 exLaw :=
  (memLp_id_gaussianReal' 2 (by simp)).comp_measurePreserving
    (measurePreserving_eval (fun k : Fin 2 => gaussianReal (k : ℕ) (if k = 0 then 1 else 4)) k)

example : ∃ C : (Fin 10 → Fin 2 → ℝ) → Matrix (Fin 2) (Fin 2) ℝ, (∀ s, sampleCov s = some (C s)) ∧
    ∀ k l, ∫ s, C s k l ∂(Measure.pi fun _ => exLaw) = cov[fun x => x k, fun x => x l; exLaw] :=
  (C77_unbiased exLaw_memLp (by norm_num)).2

example : ∫ s : Fin 10 → Fin 2 → ℝ, (sampleMean s 1 - 0) ^ 2 ∂(Measure.pi fun _ => exLaw) =
    Var[fun x => x 1; exLaw] / 10 + (∫ x, x 1 ∂exLaw - 0) ^ 2 := by
  simpa using (C77_mean_error (n := 10) exLaw_memLp (by norm_num) (fun _ => 0) 1).2

example : ∃ (eigh : Matrix (Fin 2) (Fin 2) ℝ → (Fin 2 → ℝ) × Matrix (Fin 2) (Fin 2) ℝ) (e : (Fin 10 → Fin 2 → ℝ) → Errors),
    (∀ s, errorsFlat eigh id 0 1 s = some (e s)) ∧ ENNReal.ofReal (∑ k, (Var[fun x => x k; exLaw] / (10 : ℕ) + (∫ x, x k ∂exLaw - 0) ^ 2)) ≤
      ∫⁻ s, ENNReal.ofReal (e s).bures ∂(Measure.pi fun _ => exLaw) := by
  obtain ⟨eigh, he⟩ := exists_isEigh (n := Fin 2)
  obtain ⟨e, h', h, -⟩ := C77_floor (n := 10) (cho := id) (gpMean := 0) (gpCov := 1) exLaw_memLp (by norm_num) he
    PosSemidef.one
  exact ⟨eigh, e, h', h⟩

/-- Two samples of a single variable: the covariance is positive definite and matches the law with mean 1, variance 2. -/
example : ∃ (eigh : Matrix (Fin 1) (Fin 1) ℝ → (Fin 1 → ℝ) × Matrix (Fin 1) (Fin 1) ℝ)
    (cho : Matrix (Fin 1) (Fin 1) ℝ → Matrix (Fin 1) (Fin 1) ℝ) (e : Errors),
    errorsFlat eigh cho (fun _ => 1) (2 • 1) (![![0], ![2]] : Fin 2 → Fin 1 → ℝ) = some e ∧ e.m = 0 ∧ e.var = 0 := by
  obtain ⟨eigh, he⟩ := exists_isEigh (n := Fin 1)
  obtain ⟨cho, hc⟩ := exists_isChol 1
  obtain ⟨C, hC, hC'⟩ := sampleCov_spec le_rfl (![![0], ![2]] : Fin 2 → Fin 1 → ℝ)
  have hg : ((2 : ℕ) • (1 : Matrix (Fin 1) (Fin 1) ℝ)).PosDef := by
    rw [two_smul]
    exact PosDef.one.add PosDef.one
  have hs : errorsFlat eigh cho (fun _ => 1) (2 • 1) (![![0], ![2]] : Fin 2 → Fin 1 → ℝ) = some _ :=
    congrArg (Option.map _) hC
  obtain ⟨⟨-, h1⟩, ⟨-, h2⟩, -, -⟩ := C77_zero he hc hg hs
  refine ⟨eigh, cho, _, hs, h1.2 fun k => ?_, h2.2 fun k => ?_⟩
  · simp
  · simp [two_smul]
    norm_num

/-- Two samples in two dimensions are on a line. -/
example : ∃ C : Matrix (Fin 2) (Fin 2) ℝ, sampleCov (![![0, 1], ![2, 5]] : Fin 2 → Fin 2 → ℝ) = some C ∧
    ∃ v : Fin 2 → ℝ, v ≠ 0 ∧ C *ᵥ v = 0 := by
  obtain ⟨C, hC⟩ := (sampleCov_some_iff (![![0, 1], ![2, 5]] : Fin 2 → Fin 2 → ℝ)).2 le_rfl
  exact ⟨C, hC, (C77_psd _ hC).2.2 (by simp)⟩

example : ∃ (e : Errors), errorsChains (fun _ => (0, 1)) id (fun _ => 0) 1
      (![![![0], ![2]], ![![1], ![1]]] : Fin 2 → Fin 2 → Fin 1 → ℝ) = some e ∧ 1 ≤ e.m := by
  have h : ∃ e, errorsChains (fun _ => (0, 1)) id (fun _ => 0) 1
      (![![![0], ![2]], ![![1], ![1]]] : Fin 2 → Fin 2 → Fin 1 → ℝ) = some e := ⟨_, if_neg (by norm_num)⟩
  obtain ⟨e, he⟩ := h
  refine ⟨e, he, ?_⟩
  have := C77_pooled (by norm_num) he
  simp at this
  norm_num at this
  exact this

end Props
end Fbs
