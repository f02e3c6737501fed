import Verif.Props.Utils
import Verif.Lemmas.Mvn

/-!
# Matrix facts behind the Bures distance

The largest trace of a cross covariance, and a pair of factors where it is reached.
-/

namespace Fbs
namespace BuresOt

open Matrix Utils Spec Props

variable {n k : Type} [Fintype n] [DecidableEq n] [Fintype k] {eigh : Matrix n n ℝ → (n → ℝ) × Matrix n n ℝ}

omit [DecidableEq n] in
/-- `tr (Y Yᵀ)` is a sum of squares. -/
theorem trace_mul_transpose_self (Y : Matrix n k ℝ) : (Y * Yᵀ).trace = ∑ i, ∑ j, Y i j ^ 2 := by
  simp only [trace, diag_apply, mul_apply, transpose_apply, sq]

omit [DecidableEq n] in
theorem trace_mt_nonneg (Y : Matrix n k ℝ) : 0 ≤ (Y * Yᵀ).trace := by
  rw [trace_mul_transpose_self]
  exact Finset.sum_nonneg fun i _ => Finset.sum_nonneg fun j _ => sq_nonneg _

/-- Weights `Q` for which the two quadratic forms are nearly as small as possible. -/
theorem exists_weights (he : IsEigh eigh) {A B : Matrix n n ℝ} (hA : A.PosSemidef) (hB : B.PosSemidef) {η : ℝ} (hη : 0 < η) :
    ∃ Q : Matrix n n ℝ, Q.PosDef ∧
      (Q⁻¹ * A).trace + (Q * B).trace ≤ 2 * (sqrtm eigh (sqrtm eigh A * B * sqrtm eigh A)).trace + η := by
  obtain ⟨a1, a2, a3⟩ := C41_sqrtm he hA
  have hM := conj_posSemidef a2 hB
  obtain ⟨s1, s2, s3⟩ := C41_sqrtm he hM
  set a := sqrtm eigh A
  set S := sqrtm eigh (a * B * a)
  have htB : 0 ≤ B.trace := hB.trace_nonneg
  obtain ⟨ε, hε, hεη⟩ : ∃ ε : ℝ, 0 < ε ∧ ε * (Fintype.card n + B.trace) ≤ η := by
    refine ⟨η / (Fintype.card n + B.trace + 1), by positivity, ?_⟩
    rw [div_mul_eq_mul_div, div_le_iff₀ (by positivity)]
    nlinarith
  have hT : (S + ε • (1 : Matrix n n ℝ)).PosDef := PosDef.posSemidef_add s2 (PosDef.one.smul hε)
  obtain ⟨t1, t2, t3⟩ := C41_sqrtm he hT.posSemidef
  set T := S + ε • (1 : Matrix n n ℝ) with hTdef
  set t := sqrtm eigh T
  have htu : IsUnit t.det := by
    have h := hT.det_pos
    rw [← t3, det_mul] at h
    exact isUnit_iff_ne_zero.2 fun h0 => by rw [h0, zero_mul] at h; exact lt_irrefl _ h
  obtain ⟨r, hr⟩ : ∃ r, r = t⁻¹ := ⟨_, rfl⟩
  have rt : r * t = 1 := by rw [hr]; exact nonsing_inv_mul t htu
  have tr' : t * r = 1 := by rw [hr]; exact mul_nonsing_inv t htu
  have r1 : rᵀ = r := by rw [hr, transpose_nonsing_inv, t1]
  obtain ⟨X, hX⟩ : ∃ X, X = r * a := ⟨_, rfl⟩
  have hXt : Xᵀ = a * r := by rw [hX, transpose_mul, a1, r1]
  have hQ : (Xᵀ * X + ε • (1 : Matrix n n ℝ)).PosDef := by
    have h := posSemidef_conjTranspose_mul_self X
    rw [conjTranspose_eq_transpose_of_trivial] at h
    exact PosDef.posSemidef_add h (PosDef.one.smul hε)
  refine ⟨Xᵀ * X + ε • (1 : Matrix n n ℝ), hQ, ?_⟩
  obtain ⟨Q, hQd⟩ : ∃ Q, Q = Xᵀ * X + ε • (1 : Matrix n n ℝ) := ⟨_, rfl⟩
  rw [← hQd] at hQ ⊢
  have hQu : IsUnit Q.det := isUnit_iff_ne_zero.2 hQ.det_pos.ne'
  obtain ⟨W, hW⟩ : ∃ W, W = Q⁻¹ := ⟨_, rfl⟩
  have WQ : W * Q = 1 := by rw [hW]; exact nonsing_inv_mul Q hQu
  have Q1 : Qᵀ = Q := (isSymm_of_posSemidef hQ.posSemidef).eq
  have W1 : Wᵀ = W := by rw [hW, transpose_nonsing_inv, Q1]
  rw [← hW]
  -- the first form is at most the trace of `T`
  have first : (W * A).trace ≤ T.trace := by
    obtain ⟨N, hN⟩ : ∃ N, N = X * W * Xᵀ := ⟨_, rfl⟩
    have N1 : Nᵀ = N := by rw [hN]; simp only [transpose_mul, transpose_transpose, W1, Matrix.mul_assoc]
    have hXX : Xᵀ * X = Q - ε • (1 : Matrix n n ℝ) := by rw [hQd, add_sub_cancel_right]
    have NN : N * N = N - ε • (X * W * (W * Xᵀ)) := by
      have e : N * N = X * (W * (Xᵀ * X)) * (W * Xᵀ) := by rw [hN]; simp only [Matrix.mul_assoc]
      rw [e, hXX, Matrix.mul_sub, WQ, Matrix.mul_smul, Matrix.mul_one, Matrix.mul_sub, Matrix.mul_one, Matrix.sub_mul,
        Matrix.mul_smul, Matrix.smul_mul, hN]
      simp only [Matrix.mul_assoc]
    have e1 : (W * A).trace = (t * N * t).trace := by
      have : t * N * t = a * W * a := by
        rw [hN, hXt, hX]
        calc t * (r * a * W * (a * r)) * t = (t * r) * a * W * a * (r * t) := by simp only [Matrix.mul_assoc]
          _ = a * W * a := by rw [tr', rt, Matrix.one_mul, Matrix.mul_one]
      rw [this, ← a3, ← Matrix.mul_assoc, trace_mul_comm, ← Matrix.mul_assoc]
    have e2 : T.trace - (t * N * t).trace = ((t * (1 - N)) * (t * (1 - N))ᵀ).trace + ε * ((t * X * W) * (t * X * W)ᵀ).trace := by
      rw [← trace_sub, ← smul_eq_mul ε, ← trace_smul, ← trace_add]
      congr 1
      have : (1 - N) * (1 - N) = 1 - N - ε • (X * W * (W * Xᵀ)) := by
        rw [Matrix.sub_mul, Matrix.mul_sub, Matrix.mul_sub, Matrix.one_mul, Matrix.one_mul, Matrix.mul_one, NN]
        abel
      have e3 : t * (1 - N) * (t * (1 - N))ᵀ = t * ((1 - N) * (1 - N)) * t := by
        rw [transpose_mul, transpose_sub, transpose_one, N1, t1]; simp only [Matrix.mul_assoc]
      have e4 : t * X * W * (t * X * W)ᵀ = t * (X * W * (W * Xᵀ)) * t := by
        simp only [transpose_mul, W1, t1, Matrix.mul_assoc]
      rw [e3, e4, this, Matrix.mul_sub, Matrix.mul_sub, Matrix.sub_mul, Matrix.sub_mul, Matrix.mul_smul, Matrix.smul_mul, Matrix.mul_one,
        t3]
      abel
    have h1 := trace_mt_nonneg (t * (1 - N))
    have h2 := trace_mt_nonneg (t * X * W)
    rw [e1]
    nlinarith [mul_nonneg hε.le h2]
  -- the second form is at most the trace of `S`, up to `ε`
  have second : (Q * B).trace ≤ S.trace + ε * B.trace := by
    have e1 : (Q * B).trace = (r * (a * B * a) * r).trace + ε * B.trace := by
      rw [hQd, Matrix.add_mul, trace_add, Matrix.smul_mul, Matrix.one_mul, trace_smul, smul_eq_mul, hXt, hX]
      congr 1
      calc (a * r * (r * a) * B).trace = ((a * r) * (r * a * B)).trace := by simp only [Matrix.mul_assoc]
        _ = ((r * a * B) * (a * r)).trace := trace_mul_comm _ _
        _ = _ := by simp only [Matrix.mul_assoc]
    have e2 : r * (a * B * a) * r = r * S * S * r := by rw [← s3]; simp only [Matrix.mul_assoc]
    have e3 : S = t * t - ε • (1 : Matrix n n ℝ) := by rw [t3, hTdef, add_sub_cancel_right]
    have e4 : (r * S * S * r).trace = S.trace - ε * (r * S * r).trace := by
      have : r * S * S * r = r * S * t * (t * r) - ε • (r * S * r) := by
        conv_lhs => rw [Matrix.mul_assoc (r * S), show S * r = t * (t * r) - ε • r from by
          conv_lhs => rw [e3]
          rw [Matrix.sub_mul, Matrix.smul_mul, Matrix.one_mul, Matrix.mul_assoc]]
        rw [Matrix.mul_sub, Matrix.mul_smul]
        simp only [Matrix.mul_assoc]
      rw [this, tr', Matrix.mul_one, trace_sub, trace_smul, smul_eq_mul]
      congr 1
      rw [trace_mul_comm, ← Matrix.mul_assoc, tr', Matrix.one_mul]
    have h5 : 0 ≤ (r * S * r).trace := (by
      have := posSemidef_mul_transpose r s2
      rw [r1] at this
      exact this.trace_nonneg)
    rw [e1, e2, e4]
    nlinarith [mul_nonneg hε.le h5]
  have hTt : T.trace = S.trace + ε * Fintype.card n := by
    rw [hTdef, trace_add, trace_smul, trace_one, smul_eq_mul]
  linarith

/-- A matrix that is bounded like a cross covariance has a trace of at most `tr S`. -/
theorem trace_le (he : IsEigh eigh) {A B : Matrix n n ℝ} (hA : A.PosSemidef) (hB : B.PosSemidef) {c : ℝ}
    (h : ∀ Q : Matrix n n ℝ, Q.PosDef → 2 * c ≤ (Q⁻¹ * A).trace + (Q * B).trace) :
    c ≤ (sqrtm eigh (sqrtm eigh A * B * sqrtm eigh A)).trace := by
  refine le_of_forall_pos_le_add fun η hη => ?_
  obtain ⟨Q, hQ, hle⟩ := exists_weights he hA hB (by linarith : (0 : ℝ) < 2 * η)
  linarith [h Q hQ]

theorem young {Q : Matrix n n ℝ} (hQ : Q.PosDef) (x y : n → ℝ) :
    2 * (x ⬝ᵥ y) ≤ x ⬝ᵥ Q⁻¹ *ᵥ x + y ⬝ᵥ Q *ᵥ y := by
  have hQu : IsUnit Q.det := isUnit_iff_ne_zero.2 hQ.det_pos.ne'
  have hs : Qᵀ = Q := (isSymm_of_posSemidef hQ.posSemidef).eq
  have h := hQ.posSemidef.dotProduct_mulVec_nonneg (y - Q⁻¹ *ᵥ x)
  rw [star_trivial, mulVec_sub, mulVec_mulVec, mul_nonsing_inv Q hQu, one_mulVec, sub_dotProduct, dotProduct_sub, dotProduct_sub] at h
  have e : (Q⁻¹ *ᵥ x) ⬝ᵥ Q *ᵥ y = x ⬝ᵥ y := by
    rw [dotProduct_mulVec, ← mulVec_transpose, hs, mulVec_mulVec, mul_nonsing_inv Q hQu, one_mulVec]
  rw [e, dotProduct_comm y x, dotProduct_comm (Q⁻¹ *ᵥ x) x] at h
  linarith

/-- The cross product of two factors. -/
theorem factors_le (he : IsEigh eigh) {A B : Matrix n n ℝ} {G H : Matrix n k ℝ} (hG : G * Gᵀ = A) (hH : H * Hᵀ = B) :
    (G * Hᵀ).trace ≤ (sqrtm eigh (sqrtm eigh A * B * sqrtm eigh A)).trace := by
  have psd : ∀ Y : Matrix n k ℝ, (Y * Yᵀ).PosSemidef := fun Y => by
    have := posSemidef_self_mul_conjTranspose Y
    rwa [conjTranspose_eq_transpose_of_trivial] at this
  refine trace_le he (hG ▸ psd G) (hH ▸ psd H) fun Q hQ => ?_
  have e : ∀ (M : Matrix n n ℝ) (Y : Matrix n k ℝ), (M * (Y * Yᵀ)).trace = ∑ j, (fun i => Y i j) ⬝ᵥ M *ᵥ (fun i => Y i j) := by
    intro M Y
    rw [← Matrix.mul_assoc, trace_mul_comm]
    simp only [trace, diag_apply, mul_apply, transpose_apply, dotProduct, mulVec]
  have e' : (G * Hᵀ).trace = ∑ j, (fun i => G i j) ⬝ᵥ (fun i => H i j) := by
    simp only [trace, diag_apply, mul_apply, transpose_apply, dotProduct]
    exact Finset.sum_comm
  rw [← hG, ← hH, e, e, e', Finset.mul_sum, ← Finset.sum_add_distrib]
  exact Finset.sum_le_sum fun j _ => young hQ _ _

/-- Factors of the two matrices, the first one the root of the first matrix, for which the cross product is as large as possible. -/
theorem exists_factors (he : IsEigh eigh) {A B : Matrix n n ℝ} (hA : A.PosSemidef) (hB : B.PosSemidef) :
    ∃ H K : Matrix n n ℝ, H * Hᵀ + K * Kᵀ = B ∧
      (sqrtm eigh A * Hᵀ).trace = (sqrtm eigh (sqrtm eigh A * B * sqrtm eigh A)).trace := by
  obtain ⟨a1, a2, a3⟩ := C41_sqrtm he hA
  obtain ⟨b1, b2, b3⟩ := C41_sqrtm he hB
  have hM := conj_posSemidef a2 hB
  obtain ⟨v1, v2, v3⟩ := eigh_spec he (isSymm_of_posSemidef hM)
  have hl := eigh_nonneg he hM
  set a := sqrtm eigh A
  set b := sqrtm eigh B
  set lam := (eigh (a * B * a)).1
  set V := (eigh (a * B * a)).2
  have hS : (sqrtm eigh (a * B * a)).trace = ∑ i, Real.sqrt (lam i) := by
    unfold sqrtm
    simp only
    rw [trace_mul_comm, ← Matrix.mul_assoc]
    refine (congrArg (fun X => trace (X * _)) v1).trans ?_
    rw [Matrix.one_mul, trace_diagonal]
  obtain ⟨μ, hμ⟩ : ∃ μ : n → ℝ, μ = fun i => (Real.sqrt (lam i))⁻¹ := ⟨_, rfl⟩
  obtain ⟨W, hW⟩ : ∃ W, W = b * a * V * diagonal μ := ⟨_, rfl⟩
  have hWt : Wᵀ = diagonal μ * Vᵀ * a * b := by
    rw [hW]; simp only [transpose_mul, diagonal_transpose, a1, b1, Matrix.mul_assoc]
  have hVaab : Vᵀ * a * b * (b * a * V) = diagonal lam := by
    rw [← v3, ← b3]; simp only [Matrix.mul_assoc]
  have hWW : Wᵀ * W = diagonal fun i => μ i * lam i * μ i := by
    have : Wᵀ * W = diagonal μ * (Vᵀ * a * b * (b * a * V)) * diagonal μ := by
      rw [hWt, hW]; simp only [Matrix.mul_assoc]
    rw [this, hVaab, diagonal_mul_diagonal, diagonal_mul_diagonal]
  have hWb : Wᵀ * (b * a * V) = diagonal fun i => Real.sqrt (lam i) := by
    have : Wᵀ * (b * a * V) = diagonal μ * (Vᵀ * a * b * (b * a * V)) := by
      rw [hWt]; simp only [Matrix.mul_assoc]
    rw [this, hVaab, diagonal_mul_diagonal]
    congr 1
    funext i
    simp only [hμ]
    rw [← div_eq_inv_mul]
    exact Real.div_sqrt
  obtain ⟨P, hP⟩ : ∃ P, P = W * Wᵀ := ⟨_, rfl⟩
  have hPP : P * P = P := by
    have : P * P = W * (Wᵀ * W) * Wᵀ := by rw [hP]; simp only [Matrix.mul_assoc]
    rw [this, hWW, hP]
    congr 1
    rw [hW, Matrix.mul_assoc _ (diagonal μ), diagonal_mul_diagonal]
    congr 2
    funext i
    simp only [hμ]
    by_cases h0 : Real.sqrt (lam i) = 0
    · simp [h0]
    · have := Real.mul_self_sqrt (hl i)
      change Real.sqrt (lam i) * Real.sqrt (lam i) = lam i at this
      generalize Real.sqrt (lam i) = r at *
      rw [← this]
      field_simp
  have hPt : Pᵀ = P := by rw [hP]; simp
  refine ⟨b * W * Vᵀ, b * (1 - P), ?_, ?_⟩
  · have e1 : b * W * Vᵀ * (b * W * Vᵀ)ᵀ = b * P * b := by
      calc b * W * Vᵀ * (b * W * Vᵀ)ᵀ = b * W * (Vᵀ * V) * Wᵀ * b := by
            simp only [transpose_mul, transpose_transpose, b1, Matrix.mul_assoc]
        _ = _ := by rw [v1, Matrix.mul_one, hP]; simp only [Matrix.mul_assoc]
    have e2 : b * (1 - P) * (b * (1 - P))ᵀ = b * b - b * P * b := by
      calc b * (1 - P) * (b * (1 - P))ᵀ = b * ((1 - P) * (1 - P)) * b := by
            rw [transpose_mul, transpose_sub, transpose_one, hPt, b1]; simp only [Matrix.mul_assoc]
        _ = _ := by
            have h1 : (1 - P) * (1 - P) = 1 - P := by
              rw [Matrix.sub_mul (1 : Matrix n n ℝ) P (1 - P), Matrix.one_mul, Matrix.mul_sub P 1 P, Matrix.mul_one, hPP, sub_self, sub_zero]
            rw [h1, Matrix.mul_sub, Matrix.sub_mul, Matrix.mul_one]
    rw [e1, e2, b3]
    abel
  · have e1 : a * (b * W * Vᵀ)ᵀ = a * V * (Wᵀ * b) := by
      simp only [transpose_mul, transpose_transpose, b1, Matrix.mul_assoc]
    have e2 : Wᵀ * b * (a * V) = Wᵀ * (b * a * V) := by simp only [Matrix.mul_assoc]
    rw [e1, trace_mul_comm, e2, hWb, trace_diagonal, hS]

end BuresOt
end Fbs
