import Verif.Model.Utils
import Verif.Lemmas.MatDeriv
import Mathlib.Analysis.Matrix.Spectrum
import Mathlib.LinearAlgebra.Matrix.Charpoly.Basic
import Mathlib.Analysis.Calculus.Deriv.MeanValue
import Mathlib.Algebra.Order.Star.Real

/-!
# C40, C41: LTI discretisation, matrix square root, Bures distance
-/

open Matrix

namespace Fbs
namespace Spec

variable {n : Type} [Fintype n] [DecidableEq n]

/-- The documented contract of `jnp.linalg.eigh` on symmetric matrices: orthogonal eigenvectors that diagonalise. -/
def IsEigh (eigh : Matrix n n ℝ → (n → ℝ) × Matrix n n ℝ) : Prop :=
  ∀ M : Matrix n n ℝ, M.IsSymm →
    (eigh M).2ᵀ * (eigh M).2 = 1 ∧ M = (eigh M).2 * diagonal (eigh M).1 * (eigh M).2ᵀ

end Spec

namespace Props

open Utils Spec

variable {n : Type} [Fintype n] [DecidableEq n]

/-! ### C40 -/

section LTI
variable (A gamma : Matrix n n ℝ)

/-- The upper right and lower right blocks of `exp(t Φ)`. -/
theorem exp_phi_blocks (t : ℝ) :
    NormedSpace.exp (t • fromBlocks A gamma 0 (-Aᵀ)) * (fromRows 0 1 : Matrix (n ⊕ n) n ℝ) =
      fromRows (NormedSpace.exp (t • fromBlocks A gamma 0 (-Aᵀ)) * (fromRows 0 1 : Matrix (n ⊕ n) n ℝ)).toRows₁
        (NormedSpace.exp (t • -Aᵀ)) := by
  set Φ := fromBlocks A gamma 0 (-Aᵀ)
  set R : Matrix (n ⊕ n) n ℝ := fromRows 0 1
  have hY : ∀ t, MDeriv (fun t => NormedSpace.exp (t • Φ) * R) (Φ * (NormedSpace.exp (t • Φ) * R)) t := fun t =>
    MatDeriv.congr (MatDeriv.mul_const (MatDeriv.exp Φ t) R) (Matrix.mul_assoc _ _ _)
  have hH : ∀ t, MDeriv (fun t => (NormedSpace.exp (t • Φ) * R).toRows₂)
      (-Aᵀ * (NormedSpace.exp (t • Φ) * R).toRows₂) t := by
    intro t i j
    have := hY t (Sum.inr i) j
    refine this.congr_deriv ?_
    conv_lhs => rw [← fromRows_toRows (NormedSpace.exp (t • Φ) * R)]
    rw [fromBlocks_mul_fromRows, Matrix.zero_mul, zero_add]
    rfl
  have hK : ∀ t, MDeriv (fun t => NormedSpace.exp (t • Aᵀ) * (NormedSpace.exp (t • Φ) * R).toRows₂) 0 t := by
    intro t
    refine MatDeriv.congr (MatDeriv.mul (MatDeriv.exp Aᵀ t) (hH t)) ?_
    rw [MatDeriv.exp_comm, Matrix.mul_assoc, ← Matrix.mul_add, Matrix.neg_mul, add_neg_cancel, Matrix.mul_zero]
  have h0 : (NormedSpace.exp ((0 : ℝ) • Φ) * R).toRows₂ = 1 := by
    simp [R, NormedSpace.exp_zero]
  have h1 := MatDeriv.eq_of_zero hK t 0
  rw [h0, zero_smul, NormedSpace.exp_zero, Matrix.mul_one] at h1
  have h2 : (NormedSpace.exp (t • Φ) * R).toRows₂ = NormedSpace.exp (t • -Aᵀ) := by
    have := congrArg (NormedSpace.exp (t • -Aᵀ) * ·) h1
    simp only [← Matrix.mul_assoc, MatDeriv.exp_neg_mul, Matrix.mul_one, Matrix.one_mul] at this
    simpa only [Matrix.mul_assoc] using this
  rw [← h2, fromRows_toRows]

/-- **C40.**  `F` is the matrix exponential; both outputs start at `(1, 0)`. -/
theorem C40_start (dt : ℝ) : (discretiseLtiSde A gamma dt).1 = NormedSpace.exp (dt • A) ∧
    discretiseLtiSde A gamma 0 = (1, 0) := by
  refine ⟨rfl, ?_⟩
  simp [discretiseLtiSde, NormedSpace.exp_zero]

/-- **C40, mean.** -/
theorem C40_mean_ode (t : ℝ) : MDeriv (fun t => (discretiseLtiSde A gamma t).1)
    (A * (discretiseLtiSde A gamma t).1) t := MatDeriv.exp A t

/-- **C40, covariance.**  `dS/dt = A S + S Aᵀ + gamma`. -/
theorem C40_cov_ode (t : ℝ) : MDeriv (fun t => (discretiseLtiSde A gamma t).2)
    (A * (discretiseLtiSde A gamma t).2 + (discretiseLtiSde A gamma t).2 * Aᵀ + gamma) t := by
  simp only [discretiseLtiSde]
  set Φ := fromBlocks A gamma 0 (-Aᵀ) with hΦ
  set R : Matrix (n ⊕ n) n ℝ := fromRows 0 1 with hR
  have hG : MDeriv (fun t => (NormedSpace.exp (t • Φ) * R).toRows₁)
      (A * (NormedSpace.exp (t • Φ) * R).toRows₁ + gamma * NormedSpace.exp (t • -Aᵀ)) t := by
    intro i j
    have := MatDeriv.congr (MatDeriv.mul_const (MatDeriv.exp Φ t) R) (Matrix.mul_assoc _ _ _) (Sum.inl i) j
    refine this.congr_deriv ?_
    conv_lhs => rw [hΦ, hR, exp_phi_blocks A gamma t, ← hΦ, ← hR]
    rw [hΦ, fromBlocks_mul_fromRows]
    rfl
  refine MatDeriv.congr (MatDeriv.mul hG (MatDeriv.transpose (MatDeriv.exp A t))) ?_
  have e : (NormedSpace.exp (t • A))ᵀ = NormedSpace.exp (t • Aᵀ) := by
    rw [← Matrix.exp_transpose, transpose_smul]
  rw [transpose_mul, e, Matrix.add_mul, Matrix.mul_assoc gamma, MatDeriv.exp_neg_mul, Matrix.mul_one]
  simp only [Matrix.mul_assoc]
  abel

/-- **C40, uniqueness.**  The two equations determine the output. -/
theorem C40_unique {S : ℝ → Matrix n n ℝ} (h0 : S 0 = 0)
    (hS : ∀ t, MDeriv S (A * S t + S t * Aᵀ + gamma) t) (t : ℝ) : S t = (discretiseLtiSde A gamma t).2 := by
  set D := fun t => S t - (discretiseLtiSde A gamma t).2 with hD
  have hd : ∀ t, MDeriv D (A * D t + D t * Aᵀ) t := fun t =>
    MatDeriv.congr (MatDeriv.sub (hS t) (C40_cov_ode A gamma t)) (by
      simp only [hD, Matrix.mul_sub, Matrix.sub_mul]; abel)
  have hK : ∀ t, MDeriv (fun t => NormedSpace.exp (t • -A) * D t * NormedSpace.exp (t • -Aᵀ)) 0 t := by
    intro t
    refine MatDeriv.congr (MatDeriv.mul (MatDeriv.mul (MatDeriv.exp (-A) t) (hd t)) (MatDeriv.exp (-Aᵀ) t)) ?_
    rw [MatDeriv.exp_comm (-A)]
    simp only [Matrix.mul_add, Matrix.add_mul, Matrix.neg_mul, Matrix.mul_neg, Matrix.mul_assoc]
    abel
  have h1 := MatDeriv.eq_of_zero hK t 0
  have hD0 : D 0 = 0 := by simp [hD, h0, (C40_start A gamma 0).2]
  simp only [hD0, Matrix.mul_zero, Matrix.zero_mul] at h1
  have e : ∀ M : Matrix n n ℝ, NormedSpace.exp (t • -M) * NormedSpace.exp (t • M) = 1 := fun M =>
    MatDeriv.exp_neg_mul M t
  have h2 : D t = NormedSpace.exp (t • A) * (NormedSpace.exp (t • -A) * D t * NormedSpace.exp (t • -Aᵀ)) *
      NormedSpace.exp (t • Aᵀ) := by
    have e1 := MatDeriv.exp_neg_mul (-A) t
    rw [neg_neg] at e1
    rw [Matrix.mul_assoc, Matrix.mul_assoc _ _ (NormedSpace.exp (t • Aᵀ)), e, Matrix.mul_one, ← Matrix.mul_assoc, e1,
      Matrix.one_mul]
  rw [h1, Matrix.mul_zero, Matrix.zero_mul] at h2
  exact sub_eq_zero.1 h2

/-- **C40, symmetry.** -/
theorem C40_symm (hg : gamma.IsSymm) (t : ℝ) : (discretiseLtiSde A gamma t).2.IsSymm := by
  refine C40_unique A gamma (S := fun t => (discretiseLtiSde A gamma t).2ᵀ) ?_ (fun t => ?_) t
  · simp [(C40_start A gamma 0).2]
  · refine MatDeriv.congr (MatDeriv.transpose (C40_cov_ode A gamma t)) ?_
    simp only [transpose_add, transpose_mul, transpose_transpose, hg.eq]
    abel

/-- **C40, composition.** -/
theorem C40_compose (s t : ℝ) :
    (discretiseLtiSde A gamma (s + t)).1 = (discretiseLtiSde A gamma t).1 * (discretiseLtiSde A gamma s).1 ∧
    (discretiseLtiSde A gamma (s + t)).2 = (discretiseLtiSde A gamma t).1 * (discretiseLtiSde A gamma s).2 *
      (discretiseLtiSde A gamma t).1ᵀ + (discretiseLtiSde A gamma t).2 := by
  refine ⟨?_, ?_⟩
  · rw [add_comm]; exact MatDeriv.exp_add_smul A t s
  · -- the right-hand side solves the same equation in `t`, up to the initial value
    set G : ℝ → Matrix n n ℝ := fun t => (discretiseLtiSde A gamma t).1 with hG
    set S : ℝ → Matrix n n ℝ := fun t => (discretiseLtiSde A gamma t).2 with hS
    have hode := fun t => C40_cov_ode A gamma t
    have key := C40_unique A gamma (S := fun u => S (s + u) - G u * S s * (G u)ᵀ) (by
      simp [hG, (C40_start A gamma 0).2]) (fun u => ?_) t
    · exact (sub_eq_iff_eq_add'.1 key)
    · have h1 : MDeriv (fun u => S (s + u)) (A * S (s + u) + S (s + u) * Aᵀ + gamma) u := by
        have := MatDeriv.comp (X := S) (f := fun u => s + u) (f' := 1) (t := u) (hode (s + u))
          (by simpa using (hasDerivAt_id u).const_add s)
        simpa using this
      have hGu : MDeriv G (A * G u) u := C40_mean_ode A gamma u
      refine MatDeriv.congr (MatDeriv.sub h1 (MatDeriv.mul (MatDeriv.mul_const hGu (S s)) (MatDeriv.transpose hGu))) ?_
      simp only [transpose_mul, Matrix.mul_sub, Matrix.sub_mul, Matrix.mul_assoc]
      abel

/-- **C40, positivity.**  A positive semidefinite diffusion gives a positive semidefinite covariance. -/
theorem C40_posSemidef (hg : gamma.PosSemidef) {t : ℝ} (ht : 0 ≤ t) : (discretiseLtiSde A gamma t).2.PosSemidef := by
  refine .of_dotProduct_mulVec_nonneg (by
    have := C40_symm A gamma (by simpa using hg.isHermitian) t
    simpa [IsHermitian, IsSymm] using this) fun x => ?_
  set G : ℝ → Matrix n n ℝ := fun t => (discretiseLtiSde A gamma t).1 with hG
  set S : ℝ → Matrix n n ℝ := fun t => (discretiseLtiSde A gamma t).2 with hS
  -- `φ(s) = xᵀ F(t-s) S(s) F(t-s)ᵀ x` increases
  let X : Matrix n Unit ℝ := of fun i _ => x i
  have hφ : ∀ s, MDeriv (fun s => Xᵀ * (G (t - s) * S s * (G (t - s))ᵀ) * X)
      (Xᵀ * (G (t - s) * gamma * (G (t - s))ᵀ) * X) s := by
    intro s
    have h1 : MDeriv (fun s => G (t - s)) (-(G (t - s) * A)) s := by
      have := MatDeriv.comp (X := G) (f := fun s => t - s) (f' := -1) (t := s) (C40_mean_ode A gamma (t - s))
        (by simpa using (hasDerivAt_id s).const_sub t)
      refine MatDeriv.congr this ?_
      rw [neg_one_smul]
      exact congrArg _ (MatDeriv.exp_comm A (t - s))
    refine MatDeriv.congr (MatDeriv.mul_const (MatDeriv.const_mul Xᵀ (MatDeriv.mul (MatDeriv.mul h1
      (C40_cov_ode A gamma s)) (MatDeriv.transpose h1))) X) ?_
    congr 2
    simp only [transpose_neg, transpose_mul, Matrix.mul_add, Matrix.add_mul, Matrix.neg_mul, Matrix.mul_neg,
      Matrix.mul_assoc]
    abel
  have hmono : MonotoneOn (fun s => (Xᵀ * (G (t - s) * S s * (G (t - s))ᵀ) * X) () ()) (Set.Icc 0 t) := by
    refine monotoneOn_of_deriv_nonneg (convex_Icc 0 t) (fun s _ => (hφ s () ()).continuousAt.continuousWithinAt)
      (fun s _ => (hφ s () ()).differentiableAt.differentiableWithinAt) fun s _ => ?_
    rw [(hφ s () ()).deriv]
    have := (hg.mul_mul_conjTranspose_same (Xᵀ * G (t - s))).diag_nonneg (i := ())
    simpa [conjTranspose_eq_transpose_of_trivial, Matrix.mul_assoc] using this
  have h := hmono (Set.left_mem_Icc.2 ht) (Set.right_mem_Icc.2 ht) ht
  have h0 : S 0 = 0 := by simp [hS, (C40_start A gamma 0).2]
  have hG0 : G 0 = 1 := by simp [hG, (C40_start A gamma 0).2]
  simp only [h0, sub_self, hG0, Matrix.mul_zero, Matrix.zero_mul, transpose_one, Matrix.mul_one, Matrix.one_mul,
    Matrix.zero_apply] at h
  refine h.trans (le_of_eq ?_)
  simp [X, Matrix.mul_apply, dotProduct, mulVec, Finset.sum_mul, Finset.mul_sum, mul_assoc]
  rw [Finset.sum_comm]

end LTI

/-! ### C41 -/

section Sqrt
variable {eigh : Matrix n n ℝ → (n → ℝ) × Matrix n n ℝ}

omit [Fintype n] [DecidableEq n] in
theorem isSymm_of_posSemidef {M : Matrix n n ℝ} (h : M.PosSemidef) : M.IsSymm := by
  simpa [IsHermitian, IsSymm] using h.isHermitian

omit [DecidableEq n] in
theorem posSemidef_mul_transpose (B : Matrix n n ℝ) {M : Matrix n n ℝ} (h : M.PosSemidef) :
    (B * M * Bᵀ).PosSemidef := by
  simpa [conjTranspose_eq_transpose_of_trivial] using h.mul_mul_conjTranspose_same B

theorem eigh_spec (he : IsEigh eigh) {M : Matrix n n ℝ} (h : M.IsSymm) :
    (eigh M).2ᵀ * (eigh M).2 = 1 ∧ (eigh M).2 * (eigh M).2ᵀ = 1 ∧
      (eigh M).2ᵀ * M * (eigh M).2 = diagonal (eigh M).1 := by
  obtain ⟨h1, h2⟩ := he M h
  refine ⟨h1, mul_eq_one_comm.1 h1, ?_⟩
  generalize (eigh M).2 = V at *
  generalize (eigh M).1 = d at *
  subst h2
  have : Vᵀ * (V * diagonal d * Vᵀ) * V = (Vᵀ * V) * diagonal d * (Vᵀ * V) := by
    simp only [Matrix.mul_assoc]
  rw [this, h1, Matrix.one_mul, Matrix.mul_one]

theorem eigh_nonneg (he : IsEigh eigh) {M : Matrix n n ℝ} (h : M.PosSemidef) (i : n) : 0 ≤ (eigh M).1 i := by
  have h1 := posSemidef_mul_transpose (eigh M).2ᵀ h
  rw [transpose_transpose, (eigh_spec he (isSymm_of_posSemidef h)).2.2] at h1
  simpa using h1.diag_nonneg (i := i)

/-- **C41.**  `sqrtm` of a positive semidefinite matrix is positive semidefinite (so symmetric) and squares back. -/
theorem C41_sqrtm (he : IsEigh eigh) {M : Matrix n n ℝ} (h : M.PosSemidef) :
    (sqrtm eigh M)ᵀ = sqrtm eigh M ∧ (sqrtm eigh M).PosSemidef ∧ sqrtm eigh M * sqrtm eigh M = M := by
  have hs := isSymm_of_posSemidef h
  have hp : (sqrtm eigh M).PosSemidef :=
    posSemidef_mul_transpose _ (PosSemidef.diagonal fun i => Real.sqrt_nonneg _)
  refine ⟨(isSymm_of_posSemidef hp).eq, hp, ?_⟩
  obtain ⟨h1, -⟩ := he M hs
  refine Eq.trans ?_ (he M hs).2.symm
  unfold sqrtm
  have : ∀ V D : Matrix n n ℝ, V * D * Vᵀ * (V * D * Vᵀ) = V * (D * (Vᵀ * V) * D) * Vᵀ := by
    intro V D; simp only [Matrix.mul_assoc]
  simp only
  rw [this, h1, Matrix.mul_one, diagonal_mul_diagonal]
  congr 3
  funext i
  exact Real.mul_self_sqrt (eigh_nonneg he h i)

/-- Positive semidefinite square roots are unique. -/
theorem sqrt_unique (he : IsEigh eigh) {A B : Matrix n n ℝ} (hA : A.PosSemidef) (hB : B.PosSemidef)
    (h : A * A = B * B) : A = B := by
  obtain ⟨a1, a2, a3⟩ := eigh_spec he (isSymm_of_posSemidef hA)
  obtain ⟨b1, b2, b3⟩ := eigh_spec he (isSymm_of_posSemidef hB)
  have hA' := (he A (isSymm_of_posSemidef hA)).2
  have hB' := (he B (isSymm_of_posSemidef hB)).2
  have na := eigh_nonneg he hA
  have nb := eigh_nonneg he hB
  set V := (eigh A).2
  set W := (eigh B).2
  set a := (eigh A).1
  set b := (eigh B).1
  have e1 : diagonal a * diagonal a * (Vᵀ * W) = (Vᵀ * W) * (diagonal b * diagonal b) := by
    rw [← a3, ← b3]
    have l : Vᵀ * A * V * (Vᵀ * A * V) * (Vᵀ * W) = Vᵀ * A * (V * Vᵀ) * A * (V * Vᵀ) * W := by
      simp only [Matrix.mul_assoc]
    have r : Vᵀ * W * (Wᵀ * B * W * (Wᵀ * B * W)) = Vᵀ * (W * Wᵀ) * B * (W * Wᵀ) * B * W := by
      simp only [Matrix.mul_assoc]
    rw [l, r, a2, b2]
    simp only [Matrix.mul_one]
    rw [Matrix.mul_assoc Vᵀ A A, h]
    simp only [Matrix.mul_assoc]
  have e2 : diagonal a * (Vᵀ * W) = (Vᵀ * W) * diagonal b := by
    ext i j
    have := congrFun (congrFun e1 i) j
    rw [diagonal_mul_diagonal, diagonal_mul_diagonal, diagonal_mul, mul_diagonal] at this
    rw [diagonal_mul, mul_diagonal]
    by_cases hz : (Vᵀ * W) i j = 0
    · simp [hz]
    · have h2 : a i * a i = b j * b j := mul_right_cancel₀ hz (by rw [this]; ring)
      have h3 : a i = b j := by
        have := (mul_self_inj (na i) (nb j)).1 h2
        exact this
      rw [h3]; ring
  calc A = V * (diagonal a * (Vᵀ * W)) * Wᵀ := by
        conv_lhs => rw [hA']
        have : V * (diagonal a * (Vᵀ * W)) * Wᵀ = V * diagonal a * Vᵀ * (W * Wᵀ) := by simp only [Matrix.mul_assoc]
        rw [this, b2, Matrix.mul_one]
    _ = B := by
        rw [e2]
        have : V * (Vᵀ * W * diagonal b) * Wᵀ = (V * Vᵀ) * (W * diagonal b * Wᵀ) := by simp only [Matrix.mul_assoc]
        rw [this, a2, Matrix.one_mul, ← hB']

/-- **C41.**  It is the only positive semidefinite square root; in particular the choice of eigenvectors is
irrelevant. -/
theorem C41_sqrtm_unique (he : IsEigh eigh) {M X : Matrix n n ℝ} (hX : X.PosSemidef) (h : X * X = M) :
    sqrtm eigh M = X := by
  have hM : M.PosSemidef := by
    rw [← h]
    have := posSemidef_mul_transpose X (PosSemidef.one (n := n) (R := ℝ))
    rwa [Matrix.mul_one, (isSymm_of_posSemidef hX).eq] at this
  obtain ⟨-, h2, h3⟩ := C41_sqrtm he hM
  exact sqrt_unique he h2 hX (h3.trans h.symm)

theorem trace_sqrtm (he : IsEigh eigh) {M : Matrix n n ℝ} (h : M.IsSymm) :
    (sqrtm eigh M).trace = (M.charpoly.roots.map Real.sqrt).sum := by
  obtain ⟨h1, h2, h3⟩ := eigh_spec he h
  have hM := (he M h).2
  have hc : M.charpoly = ∏ i, (Polynomial.X - Polynomial.C ((eigh M).1 i)) := by
    refine (congrArg charpoly hM).trans ?_
    rw [charpoly_mul_comm, ← Matrix.mul_assoc, h1, Matrix.one_mul, charpoly_diagonal]
  have hr : (∏ i, (Polynomial.X - Polynomial.C ((eigh M).1 i))).roots = Finset.univ.val.map (eigh M).1 := by
    rw [← Polynomial.roots_multiset_prod_X_sub_C (Finset.univ.val.map (eigh M).1), Multiset.map_map]
    rfl
  rw [hc, hr, Multiset.map_map]
  unfold sqrtm
  simp only
  rw [trace_mul_comm, ← Matrix.mul_assoc, h1, Matrix.one_mul, trace_diagonal]
  rfl

omit [DecidableEq n] in
theorem conj_posSemidef {A B : Matrix n n ℝ} (hA : A.PosSemidef) (hB : B.PosSemidef) : (A * B * A).PosSemidef := by
  have := posSemidef_mul_transpose A hB
  rwa [(isSymm_of_posSemidef hA).eq] at this

/-- **C41.**  The Bures distance is symmetric. -/
theorem C41_bures_symm (he : IsEigh eigh) (m0 m1 : n → ℝ) {A B : Matrix n n ℝ} (hA : A.PosSemidef)
    (hB : B.PosSemidef) : buresDist eigh m0 A m1 B = buresDist eigh m1 B m0 A := by
  obtain ⟨a1, a2, a3⟩ := C41_sqrtm he hA
  obtain ⟨b1, b2, b3⟩ := C41_sqrtm he hB
  have ht : (sqrtm eigh (sqrtm eigh A * B * sqrtm eigh A)).trace =
      (sqrtm eigh (sqrtm eigh B * A * sqrtm eigh B)).trace := by
    rw [trace_sqrtm he (isSymm_of_posSemidef (conj_posSemidef a2 hB)),
      trace_sqrtm he (isSymm_of_posSemidef (conj_posSemidef b2 hA))]
    have l : sqrtm eigh A * B * sqrtm eigh A = (sqrtm eigh A * sqrtm eigh B) * (sqrtm eigh B * sqrtm eigh A) := by
      conv_lhs => rw [← b3]
      simp only [Matrix.mul_assoc]
    have r : sqrtm eigh B * A * sqrtm eigh B = (sqrtm eigh B * sqrtm eigh A) * (sqrtm eigh A * sqrtm eigh B) := by
      conv_lhs => rw [← a3]
      simp only [Matrix.mul_assoc]
    rw [l, r, charpoly_mul_comm]
  unfold buresDist
  simp only [trace_sub, trace_add, trace_smul, ht]
  have hs : ∑ i, (m0 i - m1 i) ^ 2 = ∑ i, (m1 i - m0 i) ^ 2 := Finset.sum_congr rfl fun i _ => by ring
  rw [hs]; ring

theorem bures_core {A B a b V : Matrix n n ℝ} {lam : n → ℝ} (a1 : aᵀ = a) (a3 : a * a = A) (b1 : bᵀ = b)
    (b3 : b * b = B) (v2 : V * Vᵀ = 1) (v3 : Vᵀ * (a * B * a) * V = diagonal lam) (hl : ∀ i, 0 ≤ lam i) :
    ∃ Y Z P : Matrix n n ℝ, A.trace + B.trace - 2 * ∑ i, Real.sqrt (lam i) =
      (Yᵀ * Y).trace + (Zᵀ * Z).trace ∧ (Y = 0 → A = b * P * b) ∧ (Z = 0 → b * P * b = B) := by
  -- reciprocal roots of the non-zero eigenvalues
  obtain ⟨μ, hμ⟩ : ∃ μ : n → ℝ, μ = fun i => (Real.sqrt (lam i))⁻¹ := ⟨_, rfl⟩
  obtain ⟨W, hW⟩ : ∃ W, W = b * a * V * diagonal μ := ⟨_, rfl⟩
  have hWt : Wᵀ = diagonal μ * Vᵀ * a * b := by
    rw [hW]; simp only [transpose_mul, diagonal_transpose, a1, b1, Matrix.mul_assoc]
  have hVaab : Vᵀ * a * b * (b * a * V) = diagonal lam := by
    rw [← v3, ← b3]; simp only [Matrix.mul_assoc]
  have hWW : Wᵀ * W = diagonal fun i => μ i * lam i * μ i := by
    have : Wᵀ * W = diagonal μ * (Vᵀ * a * b * (b * a * V)) * diagonal μ := by
      rw [hWt, hW]; simp only [Matrix.mul_assoc]
    rw [this, hVaab, diagonal_mul_diagonal, diagonal_mul_diagonal]
  have hWb : Wᵀ * (b * a * V) = diagonal fun i => Real.sqrt (lam i) := by
    have : Wᵀ * (b * a * V) = diagonal μ * (Vᵀ * a * b * (b * a * V)) := by
      rw [hWt]; simp only [Matrix.mul_assoc]
    rw [this, hVaab, diagonal_mul_diagonal]
    congr 1
    funext i
    simp only [hμ]
    rw [← div_eq_inv_mul]
    exact Real.div_sqrt
  obtain ⟨P, hP⟩ : ∃ P, P = W * Wᵀ := ⟨_, rfl⟩
  have hPP : P * P = P := by
    have : P * P = W * (Wᵀ * W) * Wᵀ := by rw [hP]; simp only [Matrix.mul_assoc]
    rw [this, hWW, hP]
    congr 1
    rw [hW, Matrix.mul_assoc _ (diagonal μ), diagonal_mul_diagonal]
    congr 2
    funext i
    simp only [hμ]
    by_cases h0 : Real.sqrt (lam i) = 0
    · simp [h0]
    · have := Real.mul_self_sqrt (hl i)
      generalize Real.sqrt (lam i) = r at *
      rw [← this]
      field_simp
  have hPt : Pᵀ = P := by rw [hP]; simp
  refine ⟨b * W - a * V, (1 - P) * b, P, ?_, ?_, ?_⟩
  · have hY : ((b * W - a * V)ᵀ * (b * W - a * V)).trace =
        (b * P * b).trace - 2 * ∑ i, Real.sqrt (lam i) + A.trace := by
      have e : (b * W - a * V)ᵀ * (b * W - a * V) = Wᵀ * b * b * W - Wᵀ * (b * a * V) - (Wᵀ * (b * a * V))ᵀ
          + Vᵀ * (a * a) * V := by
        simp only [transpose_sub, transpose_mul, a1, b1, transpose_transpose, Matrix.sub_mul, Matrix.mul_sub,
          Matrix.mul_assoc]
        abel
      rw [e, hWb, a3, diagonal_transpose, trace_add, trace_sub, trace_sub, trace_diagonal]
      have t1 : (Wᵀ * b * b * W).trace = (b * P * b).trace := by
        rw [Matrix.mul_assoc, trace_mul_comm, Matrix.mul_assoc, hP, ← Matrix.mul_assoc, ← Matrix.mul_assoc,
          Matrix.mul_assoc b W, ← Matrix.mul_assoc]
      have t2 : (Vᵀ * A * V).trace = A.trace := by
        rw [trace_mul_comm, ← Matrix.mul_assoc, v2, Matrix.one_mul]
      rw [t1, t2]; ring
    have hZ : (((1 - P) * b)ᵀ * ((1 - P) * b)).trace = B.trace - (b * P * b).trace := by
      have e : ((1 - P) * b)ᵀ * ((1 - P) * b) = b * b - b * P * b - b * P * b + b * (P * P) * b := by
        simp only [transpose_sub, transpose_mul, hPt, b1, Matrix.sub_mul, Matrix.mul_sub,
          Matrix.mul_assoc, Matrix.one_mul]
        abel
      rw [e, hPP, b3, sub_add_cancel, trace_sub]
    rw [hY, hZ]; ring
  · intro hY
    have h1 : a * V = b * W := (sub_eq_zero.1 hY).symm
    calc A = (a * V) * (a * V)ᵀ := by
          rw [transpose_mul, a1, Matrix.mul_assoc, ← Matrix.mul_assoc V, v2, Matrix.one_mul, a3]
      _ = b * P * b := by
          rw [h1, transpose_mul, b1, hP]; simp only [Matrix.mul_assoc]
  · intro hZ
    have h1 : b = P * b := by
      rw [Matrix.sub_mul, Matrix.one_mul] at hZ
      exact sub_eq_zero.1 hZ
    rw [Matrix.mul_assoc, ← h1, b3]

/-- The trace part of the Bures distance, as a sum of two non-negative traces. -/
theorem bures_trace (he : IsEigh eigh) {A B : Matrix n n ℝ} (hA : A.PosSemidef) (hB : B.PosSemidef) :
    ∃ Y Z P : Matrix n n ℝ, (A + B - (2 : ℝ) • sqrtm eigh (sqrtm eigh A * B * sqrtm eigh A)).trace =
      (Yᵀ * Y).trace + (Zᵀ * Z).trace ∧
      (Y = 0 → A = sqrtm eigh B * P * sqrtm eigh B) ∧ (Z = 0 → sqrtm eigh B * P * sqrtm eigh B = B) := by
  obtain ⟨a1, a2, a3⟩ := C41_sqrtm he hA
  obtain ⟨b1, b2, b3⟩ := C41_sqrtm he hB
  have hM := conj_posSemidef a2 hB
  obtain ⟨v1, v2, v3⟩ := eigh_spec he (isSymm_of_posSemidef hM)
  have hl := eigh_nonneg he hM
  obtain ⟨Y, Z, P, h1, h2⟩ := bures_core a1 a3 b1 b3 v2 v3 hl
  refine ⟨Y, Z, P, ?_, h2⟩
  rw [← h1, trace_sub, trace_add, trace_smul, smul_eq_mul]
  congr 2
  unfold sqrtm
  simp only
  rw [trace_mul_comm, ← Matrix.mul_assoc]
  refine (congrArg (fun X => trace (X * _)) v1).trans ?_
  rw [Matrix.one_mul, trace_diagonal]

omit [DecidableEq n] in
theorem trace_tmul_nonneg (Y : Matrix n n ℝ) : 0 ≤ (Yᵀ * Y).trace ∧ ((Yᵀ * Y).trace = 0 → Y = 0) := by
  rw [← conjTranspose_eq_transpose_of_trivial]
  exact ⟨(posSemidef_conjTranspose_mul_self Y).trace_nonneg, trace_conjTranspose_mul_self_eq_zero_iff.1⟩

/-- **C41.**  The Bures distance is non-negative. -/
theorem C41_bures_nonneg (he : IsEigh eigh) (m0 m1 : n → ℝ) {A B : Matrix n n ℝ} (hA : A.PosSemidef)
    (hB : B.PosSemidef) : 0 ≤ buresDist eigh m0 A m1 B := by
  obtain ⟨Y, Z, P, h, -⟩ := bures_trace he hA hB
  unfold buresDist
  simp only
  rw [h]
  exact add_nonneg (Finset.sum_nonneg fun i _ => sq_nonneg _)
    (add_nonneg (trace_tmul_nonneg Y).1 (trace_tmul_nonneg Z).1)

/-- **C41.**  The Bures distance vanishes exactly on equal arguments. -/
theorem C41_bures_zero (he : IsEigh eigh) (m0 m1 : n → ℝ) {A B : Matrix n n ℝ} (hA : A.PosSemidef)
    (hB : B.PosSemidef) : buresDist eigh m0 A m1 B = 0 ↔ m0 = m1 ∧ A = B := by
  constructor
  · intro h0
    obtain ⟨Y, Z, P, h, hY, hZ⟩ := bures_trace he hA hB
    unfold buresDist at h0
    simp only at h0
    rw [h] at h0
    have n1 : 0 ≤ ∑ i, (m0 i - m1 i) ^ 2 := Finset.sum_nonneg fun i _ => sq_nonneg _
    have n2 := trace_tmul_nonneg Y
    have n3 := trace_tmul_nonneg Z
    have z1 : ∑ i, (m0 i - m1 i) ^ 2 = 0 := by linarith [n2.1, n3.1]
    have z2 := n2.2 (by linarith [n2.1, n3.1])
    have z3 := n3.2 (by linarith [n2.1, n3.1])
    refine ⟨?_, (hY z2).trans (hZ z3)⟩
    funext i
    have := (Finset.sum_eq_zero_iff_of_nonneg fun i _ => sq_nonneg _).1 z1 i (Finset.mem_univ i)
    exact sub_eq_zero.1 (pow_eq_zero_iff two_ne_zero |>.1 this)
  · rintro ⟨rfl, rfl⟩
    obtain ⟨a1, a2, a3⟩ := C41_sqrtm he hA
    unfold buresDist
    simp only
    have : sqrtm eigh (sqrtm eigh A * A * sqrtm eigh A) = A := by
      refine C41_sqrtm_unique he hA ?_
      generalize sqrtm eigh A = a at *
      subst a3
      simp only [Matrix.mul_assoc]
    rw [this, two_smul]
    simp

/-- The contract of `eigh` can be met in every dimension. -/
theorem exists_isEigh : ∃ eigh : Matrix n n ℝ → (n → ℝ) × Matrix n n ℝ, IsEigh eigh := by
  classical
  have : ∀ M : Matrix n n ℝ, ∃ r : (n → ℝ) × Matrix n n ℝ, M.IsSymm →
      r.2ᵀ * r.2 = 1 ∧ M = r.2 * diagonal r.1 * r.2ᵀ := by
    intro M
    by_cases h : M.IsSymm
    · have hh : M.IsHermitian := by simpa [IsHermitian, IsSymm] using h
      refine ⟨(hh.eigenvalues, hh.eigenvectorUnitary), fun _ => ⟨?_, ?_⟩⟩
      · have := hh.eigenvectorUnitary.2.1
        simpa [star_eq_conjTranspose, conjTranspose_eq_transpose_of_trivial] using this
      · have := hh.spectral_theorem
        simpa [Unitary.conjStarAlgAut_apply, star_eq_conjTranspose, conjTranspose_eq_transpose_of_trivial,
          Function.comp_def] using this
    · exact ⟨(0, 0), fun h' => absurd h' h⟩
  choose f hf using this
  exact ⟨f, hf⟩

end Sqrt

end Props
end Fbs
