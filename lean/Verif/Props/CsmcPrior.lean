import Verif.Props.CsmcTest
import Verif.Props.Utils
import Verif.Props.Gp
import Verif.Lemmas.Mvn

/-!
# C111: the prior of the conditional SMC tests
-/

open MeasureTheory ProbabilityTheory Matrix
open scoped ENNReal

namespace Fbs
namespace Props

open Jax Spec Csmc Gibbs CsmcTest Utils Mvn

/-! ### The discretisation -/

/-- **C111, transitions.** -/
theorem C111_discretisation (sigma : ℝ) {ell : ℝ} (hl : 0 < ell) (dt : ℝ) :
    transFQ sigma ell dt = (Real.exp (-dt / ell), sigma ^ 2 * (1 - Real.exp (-dt / ell) ^ 2)) := by
  have hb : (Real.sqrt (2 / ell) * sigma) ^ 2 = 2 / ell * sigma ^ 2 := by
    rw [mul_pow, Real.sq_sqrt (by positivity)]
  have hF : ∀ (c : ℝ), (NormedSpace.exp (c • (1 : Matrix (Fin 1) (Fin 1) ℝ)) : Matrix (Fin 1) (Fin 1) ℝ) 0 0 = Real.exp c := by
    intro c
    rw [smul_one_eq_diagonal, Matrix.exp_diagonal, diagonal_apply_eq, Pi.exp_def, Real.exp_eq_exp_ℝ]
  refine Prod.ext ?_ ?_
  · show (NormedSpace.exp (dt • ((-1 / ell) • (1 : Matrix (Fin 1) (Fin 1) ℝ))) : Matrix (Fin 1) (Fin 1) ℝ) 0 0 = _
    rw [smul_smul, hF]
    congr 1
    ring
  · have h := C40_unique ((-1 / ell) • (1 : Matrix (Fin 1) (Fin 1) ℝ))
      ((Real.sqrt (2 / ell) * sigma) ^ 2 • (1 : Matrix (Fin 1) (Fin 1) ℝ))
      (S := fun t => (sigma ^ 2 * (1 - Real.exp (-t / ell) ^ 2)) • (1 : Matrix (Fin 1) (Fin 1) ℝ)) (by simp) (fun t i j => ?_) dt
    · have h2 := congrFun (congrFun h 0) 0
      simp only [Matrix.smul_apply, one_apply_eq, smul_eq_mul, mul_one] at h2
      exact h2.symm
    · obtain rfl := Subsingleton.elim i 0
      obtain rfl := Subsingleton.elim j 0
      have h1 : HasDerivAt (fun t : ℝ => -t / ell) (-1 / ell) t := ((hasDerivAt_id t).neg).div_const ell
      have h2 := (((h1.exp).pow 2).const_sub 1).const_mul (sigma ^ 2)
      have h3 : (fun t : ℝ => ((sigma ^ 2 * (1 - Real.exp (-t / ell) ^ 2)) • (1 : Matrix (Fin 1) (Fin 1) ℝ)) 0 0)
          = fun t => sigma ^ 2 * (1 - ((fun x => Real.exp (-x / ell)) ^ 2) t) := funext fun t => by
        simp only [Matrix.smul_apply, one_apply_eq, smul_eq_mul, mul_one, Pi.pow_apply]
      rw [h3]
      refine h2.congr_deriv ?_
      simp only [hb, Matrix.add_apply, transpose_smul, transpose_one, Matrix.mul_smul,
        Matrix.smul_apply, one_apply_eq, smul_eq_mul, mul_one]
      field_simp
      ring

/-! ### The chain as a linear image of independent normals -/

section Chain

variable {K : ℕ}

/-- Row `i`, column `j`: how the `i`-th state depends on the `j`-th draw. -/
def chainMat (K : ℕ) (s q F : ℝ) : Matrix (Fin (K + 1)) (Fin (K + 1)) ℝ :=
  Matrix.of fun i j => if (j : ℕ) ≤ i then (if (j : ℕ) = 0 then s else q) * F ^ ((i : ℕ) - j) else 0

theorem chain_sum {s q F : ℝ} (h : s ^ 2 * F ^ 2 + q ^ 2 = s ^ 2) (i : ℕ) :
    ∑ k ∈ Finset.range (i + 1), (if k = 0 then s else q) ^ 2 * (F ^ (i - k)) ^ 2 = s ^ 2 := by
  induction i with
  | zero => simp
  | succ i ih =>
    rw [Finset.sum_range_succ]
    have e : ∑ k ∈ Finset.range (i + 1), (if k = 0 then s else q) ^ 2 * (F ^ (i + 1 - k)) ^ 2
        = (∑ k ∈ Finset.range (i + 1), (if k = 0 then s else q) ^ 2 * (F ^ (i - k)) ^ 2) * F ^ 2 := by
      rw [Finset.sum_mul]
      refine Finset.sum_congr rfl fun k hk => ?_
      have : i + 1 - k = (i - k) + 1 := by have := Finset.mem_range.1 hk; omega
      rw [this, pow_succ]
      ring
    rw [e, ih]
    simp [h]

theorem chainMat_le {s q F : ℝ} (h : s ^ 2 * F ^ 2 + q ^ 2 = s ^ 2) {i j : Fin (K + 1)} (hij : (i : ℕ) ≤ j) :
    (chainMat K s q F * (chainMat K s q F)ᵀ) i j = s ^ 2 * F ^ ((j : ℕ) - i) := by
  rw [mul_apply]
  simp only [transpose_apply, chainMat, of_apply]
  rw [Fin.sum_univ_eq_sum_range (fun k => (if k ≤ (i : ℕ) then (if k = 0 then s else q) * F ^ ((i : ℕ) - k) else 0) *
    (if k ≤ (j : ℕ) then (if k = 0 then s else q) * F ^ ((j : ℕ) - k) else 0))]
  rw [← chain_sum h i, Finset.sum_mul]
  symm
  have hsub : Finset.range ((i : ℕ) + 1) ⊆ Finset.range (K + 1) := Finset.range_mono (by omega)
  refine Finset.sum_subset_zero_on_sdiff hsub (fun k hk => ?_) fun k hk => ?_
  · have : ¬ k ≤ (i : ℕ) := by
      have := (Finset.mem_sdiff.1 hk).2
      rw [Finset.mem_range] at this
      omega
    rw [if_neg this, zero_mul]
  · have h1 : k ≤ (i : ℕ) := by have := Finset.mem_range.1 hk; omega
    have h2 : (j : ℕ) - k = ((j : ℕ) - i) + ((i : ℕ) - k) := by omega
    rw [if_pos h1, if_pos (h1.trans hij), h2, pow_add]
    ring

/-- The covariance of the chain is the one of the Gaussian process on an equispaced grid. -/
theorem chainMat_cov (sigma : ℝ) {ell dt : ℝ} (hd : 0 ≤ dt) {q : ℝ}
    (hq : q ^ 2 = sigma ^ 2 * (1 - Real.exp (-dt / ell) ^ 2)) :
    chainMat K sigma q (Real.exp (-dt / ell)) * (chainMat K sigma q (Real.exp (-dt / ell)))ᵀ
      = gpCov sigma ell (fun i : Fin (K + 1) => dt * i) (fun i : Fin (K + 1) => dt * i) := by
  have h : sigma ^ 2 * Real.exp (-dt / ell) ^ 2 + q ^ 2 = sigma ^ 2 := by rw [hq]; ring
  have key : ∀ i j : Fin (K + 1), (i : ℕ) ≤ j → sigma ^ 2 * Real.exp (-dt / ell) ^ ((j : ℕ) - i)
      = sigma ^ 2 * Real.exp (-|dt * j - dt * i| / ell) := fun i j hij => by
    have hc : (i : ℝ) ≤ j := by exact_mod_cast hij
    rw [← Real.exp_nat_mul, Nat.cast_sub hij, ← mul_sub, abs_of_nonneg (mul_nonneg hd (sub_nonneg.2 hc))]
    congr 2
    ring
  ext i j
  rcases le_total (i : ℕ) j with hij | hij
  · rw [chainMat_le h hij, key i j hij]
    rfl
  · have hs : ∀ M : Matrix (Fin (K + 1)) (Fin (K + 1)) ℝ, (M * Mᵀ) i j = (M * Mᵀ) j i := fun M => by
      rw [← transpose_apply (M * Mᵀ), transpose_mul, transpose_transpose]
    rw [hs, chainMat_le h hij, key j i hij, abs_sub_comm]
    rfl

theorem chainMat_det {s q : ℝ} (hs : s ≠ 0) (hq : q ≠ 0) (F : ℝ) : (chainMat K s q F).det ≠ 0 := by
  rw [det_of_isLowerTriangular]
  · refine Finset.prod_ne_zero_iff.2 fun i _ => ?_
    simp only [chainMat, of_apply, le_refl, if_true, Nat.sub_self, pow_zero, mul_one]
    split_ifs <;> assumption
  · intro i j hij
    have : ¬ (j : ℕ) ≤ i := by simpa using hij
    simp only [chainMat, of_apply, if_neg this]

/-- The covariance matrix handed to `cholesky` is positive definite. -/
theorem C111_posDef {sigma ell dt : ℝ} (hsig : sigma ≠ 0) (hl : 0 < ell) (hd : 0 < dt) :
    (gpCov sigma ell (fun i : Fin (K + 1) => dt * i) (fun i : Fin (K + 1) => dt * i)).PosDef := by
  have hlt : Real.exp (-dt / ell) < 1 := Real.exp_lt_one_iff.2 (div_neg_of_neg_of_pos (neg_neg_of_pos hd) hl)
  have h1 : 0 < sigma ^ 2 * (1 - Real.exp (-dt / ell) ^ 2) := by
    have := Real.exp_pos (-dt / ell)
    have h2 : 0 < sigma ^ 2 := by positivity
    have : Real.exp (-dt / ell) ^ 2 < 1 := by nlinarith
    exact mul_pos h2 (by linarith)
  rw [← chainMat_cov sigma hd.le (Real.sq_sqrt h1.le)]
  have hd0 := chainMat_det (K := K) hsig (Real.sqrt_pos.2 h1).ne' (Real.exp (-dt / ell))
  have hinj : Function.Injective (chainMat K sigma (Real.sqrt (sigma ^ 2 * (1 - Real.exp (-dt / ell) ^ 2))) (Real.exp (-dt / ell))).vecMul :=
    Matrix.vecMul_injective_iff_isUnit.2 ((isUnit_iff_isUnit_det _).2 (isUnit_iff_ne_zero.2 hd0))
  have := Matrix.PosDef.mul_conjTranspose_self _ hinj
  rwa [conjTranspose_eq_transpose_of_trivial] at this

/-- The states after the first one, from a state `u` and the draws `z`. -/
def chainSteps (F q u : ℝ) : {k : ℕ} → (Fin k → ℝ) → List ℝ
  | 0, _ => []
  | _ + 1, z => (u * F + q * z 0) :: chainSteps F q (u * F + q * z 0) (Fin.tail z)

theorem chainSteps_eq (F q : ℝ) : ∀ {k : ℕ} (u : ℝ) (z : Fin k → ℝ), chainSteps F q u z
    = List.ofFn fun i : Fin k => F ^ ((i : ℕ) + 1) * u + ∑ j : Fin k, if (j : ℕ) ≤ i then q * F ^ ((i : ℕ) - j) * z j else 0
  | 0, u, z => rfl
  | k + 1, u, z => by
    rw [chainSteps, chainSteps_eq, List.ofFn_succ]
    congr 1
    · rw [Fin.sum_univ_succ]
      simp
      ring
    · congr 1
      funext i
      rw [Fin.sum_univ_succ]
      simp only [Fin.val_succ, Fin.val_zero, Nat.zero_le, if_true, Nat.sub_zero, Nat.add_le_add_iff_right, Nat.add_sub_add_right,
        Fin.tail]
      ring

theorem measurable_chainSteps (F q : ℝ) {k : ℕ} {φ : List ℝ → ℝ≥0∞} (hφ : MeasList (k + 1) φ) :
    Measurable fun p : ℝ × (Fin k → ℝ) => φ (p.1 :: chainSteps F q p.1 p.2) := by
  have hm : Measurable fun p : ℝ × (Fin k → ℝ) => (Fin.cons p.1 fun i : Fin k => F ^ ((i : ℕ) + 1) * p.1 +
      ∑ j : Fin k, if (j : ℕ) ≤ i then q * F ^ ((i : ℕ) - j) * p.2 j else 0 : Fin (k + 1) → ℝ) := by
    refine measurable_pi_iff.2 fun i => ?_
    induction i using Fin.cases with
    | zero => exact measurable_fst
    | succ i =>
      simp only [Fin.cons_succ]
      refine (by fun_prop : Measurable fun p : ℝ × (Fin k → ℝ) => F ^ ((i : ℕ) + 1) * p.1).add
        (Finset.measurable_sum _ fun j _ => ?_)
      split_ifs
      · fun_prop
      · exact measurable_const
  have h := hφ.comp hm
  simp only [Function.comp_def, List.ofFn_cons] at h
  simpa only [chainSteps_eq] using h

theorem measList_cons {k : ℕ} {φ : List ℝ → ℝ≥0∞} (hφ : MeasList (k + 1) φ) (x : ℝ) : MeasList k fun l => φ (x :: l) := by
  have hm : Measurable fun w : Fin k → ℝ => (Fin.cons x w : Fin (k + 1) → ℝ) := by
    refine measurable_pi_iff.2 fun i => ?_
    induction i using Fin.cases with
    | zero => exact measurable_const
    | succ i => exact measurable_pi_apply i
  have h := hφ.comp hm
  simp only [Function.comp_def, List.ofFn_cons] at h
  exact h

theorem lintegral_testStep (F : ℝ) {Q : ℝ} (hQ : 0 ≤ Q) (u : ℝ) {g : ℝ → ℝ≥0∞} (hg : Measurable g) :
    ∫⁻ x, g x ∂(testStep F Q u) = ∫⁻ z, g (u * F + Real.sqrt Q * z) ∂(gaussianReal 0 1) := by
  have h := gaussianReal_map_const_mul (μ := 0) (v := 1) (Real.sqrt Q)
  have e : gaussianReal (u * F) Q.toNNReal = ((gaussianReal 0 1).map (Real.sqrt Q * ·)).map (u * F + ·) := by
    rw [h, gaussianReal_map_const_add]
    congr 1
    · ring
    · exact NNReal.eq (by simp [Real.sq_sqrt hQ, hQ])
  rw [testStep_eq F hQ, e, lintegral_map hg (by fun_prop),
    lintegral_map (f := fun x => g (u * F + x)) (hg.comp (by fun_prop)) (by fun_prop)]

theorem walk_test (F statVar : ℝ) {Q R : ℝ} (hQ : 0 ≤ Q) (hR : 0 < R) : ∀ {k : ℕ} (ts : List ℝ), ts.length = k →
    ∀ (u : ℝ) {φ : List ℝ → ℝ≥0∞}, MeasList k φ → (testH F Q statVar hR).walk ts u φ
      = ∫⁻ z, φ (chainSteps F (Real.sqrt Q) u z) ∂(Jax.stdNormal (Fin k))
  | 0, [], _, u, φ, _ => by simp [Hmm.walk, chainSteps]
  | k + 1, t :: ts, h, u, φ, hφ => by
    have hj := measurable_chainSteps F (Real.sqrt Q) hφ
    have hg : Measurable fun x => ∫⁻ z, φ (x :: chainSteps F (Real.sqrt Q) x z) ∂(Jax.stdNormal (Fin k)) :=
      hj.lintegral_prod_right'
    have hc : Measurable fun z : Fin (k + 1) → ℝ => φ (chainSteps F (Real.sqrt Q) u z) := by
      have hp : Measurable fun z : Fin (k + 1) → ℝ => (u * F + Real.sqrt Q * z 0, (Fin.tail z : Fin k → ℝ)) := by
        unfold Fin.tail
        fun_prop
      exact hj.comp hp
    unfold Jax.stdNormal at hg ⊢
    rw [lintegral_rows _ _ hc]
    show ∫⁻ x, (testH F Q statVar hR).walk ts x (fun l => φ (x :: l)) ∂(testStep F Q u) = _
    rw [lintegral_congr fun x => walk_test F statVar hQ hR ts (by simpa using h) x (measList_cons hφ x)]
    exact lintegral_testStep F hQ u hg
  | 0, _ :: _, h, _, _, _ => by simp at h
  | _ + 1, [], h, _, _, _ => by simp at h

theorem chainMat_mulVec (s q F : ℝ) (z : Fin (K + 1) → ℝ) :
    arr (chainMat K s q F *ᵥ z) = (s * z 0, chainSteps F q (s * z 0) (Fin.tail z)) := by
  refine Prod.ext ?_ ?_
  · show (chainMat K s q F *ᵥ z) 0 = _
    rw [mulVec, dotProduct, Fin.sum_univ_succ]
    simp [chainMat]
  · show (List.ofFn fun j : Fin K => (chainMat K s q F *ᵥ z) j.succ) = _
    rw [chainSteps_eq]
    congr 1
    funext i
    rw [mulVec, dotProduct, Fin.sum_univ_succ]
    simp only [chainMat, of_apply, Fin.val_succ, Fin.val_zero, Nat.zero_le, if_true, Nat.sub_zero, Nat.add_le_add_iff_right,
      Nat.add_sub_add_right, Fin.tail, Nat.add_one_ne_zero, if_false]
    congr 1
    · ring
    · exact Finset.sum_congr rfl fun j _ => by split_ifs <;> ring

/-- The chain of the test is a linear image of independent normals. -/
theorem prior_test (F : ℝ) {Q R : ℝ} (s : ℝ) (hQ : 0 ≤ Q) (hR : 0 < R) {ts : Arr1 ℝ} (ht : ts.2.length = K)
    {f : Arr1 ℝ → ℝ≥0∞} (hf : Measurable fun q : Fin (K + 1) → ℝ => f (arr q)) :
    (testH F Q (s ^ 2) hR).prior ts f
      = ∫⁻ x, f (arr x) ∂(mvn 0 (chainMat K s (Real.sqrt Q) F * (chainMat K s (Real.sqrt Q) F)ᵀ)) := by
  set A := chainMat K s (Real.sqrt Q) F with hA
  have hφ : MeasList (K + 1) fun l => f (l.headD 0, l.tail) := by
    unfold MeasList
    simp only [List.ofFn_succ]
    exact hf
  have hj := measurable_chainSteps F (Real.sqrt Q) hφ
  have hlen : ts.init.length = K := by simp [Arr1.init, ht]
  have hg : Measurable fun x => ∫⁻ z, f (x, chainSteps F (Real.sqrt Q) x z) ∂(Jax.stdNormal (Fin K)) :=
    hj.lintegral_prod_right'
  have h0 := stdNormal_affine (0 : Fin (K + 1) → ℝ) A
  have hAm : Measurable fun z : Fin (K + 1) → ℝ => 0 + A *ᵥ z := measurable_affine 0 A
  rw [← h0, lintegral_map hf hAm]
  simp only [zero_add]
  unfold Jax.stdNormal
  have hfm : Measurable fun z : Fin (K + 1) → ℝ => f (arr (A *ᵥ z)) := by
    have := hf.comp hAm
    simpa only [zero_add, Function.comp_def] using this
  rw [lintegral_rows _ _ hfm]
  have e1 : gaussianReal 0 (s ^ 2).toNNReal = (gaussianReal 0 1).map (s * ·) := by
    rw [gaussianReal_map_const_mul]
    congr 1
    · ring
    · exact NNReal.eq (by simp [sq_nonneg])
  show ∫⁻ u, (testH F Q (s ^ 2) hR).walk ts.init u (fun l => f (u, l)) ∂(gaussianReal 0 (s ^ 2).toNNReal) = _
  have hw : ∀ u, (testH F Q (s ^ 2) hR).walk ts.init u (fun l => f (u, l))
      = ∫⁻ z, f (u, chainSteps F (Real.sqrt Q) u z) ∂(Jax.stdNormal (Fin K)) := fun u =>
    walk_test F (s ^ 2) hQ hR ts.init hlen u (measList_cons hφ u)
  rw [lintegral_congr hw, e1, lintegral_map hg (by fun_prop)]
  refine lintegral_congr fun z => lintegral_congr fun w => ?_
  rw [hA, chainMat_mulVec]
  rfl

/-- **C111.**  On an equispaced grid `gp_sampler` draws a trajectory of the chain whose initial law and transitions are those
of `init_sampler` and `transition_sampler`. -/
theorem C111_prior {cholesky : Matrix (Fin (K + 1)) (Fin (K + 1)) ℝ → Matrix (Fin (K + 1)) (Fin (K + 1)) ℝ}
    (hL : IsCholesky cholesky) {sigma ell dt R : ℝ} (hsig : sigma ≠ 0) (hl : 0 < ell) (hd : 0 < dt) (hR : 0 < R) (key : Key)
    {ts : Arr1 ℝ} (ht : ts.2.length = K) {f : Arr1 ℝ → ℝ≥0∞} (hf : Measurable fun q : Fin (K + 1) → ℝ => f (arr q)) :
    (gpSampler cholesky sigma ell key fun i : Fin (K + 1) => dt * i).E (fun x => f (arr x))
        = (testH (transFQ sigma ell dt).1 (transFQ sigma ell dt).2 (sigma ^ 2) hR).prior ts f ∧
      (gpSampler cholesky sigma ell key fun i : Fin (K + 1) => dt * i).E (fun x => f (arr x))
        = ∫⁻ x, f (arr x) ∂(mvn 0 (gpCov sigma ell (fun i : Fin (K + 1) => dt * i) fun i : Fin (K + 1) => dt * i)) := by
  have hQ : 0 ≤ sigma ^ 2 * (1 - Real.exp (-dt / ell) ^ 2) := by
    have h1 : Real.exp (-dt / ell) ≤ 1 := Real.exp_le_one_iff.2 (div_neg_of_neg_of_pos (neg_neg_of_pos hd) hl).le
    have h2 := Real.exp_pos (-dt / ell)
    exact mul_nonneg (sq_nonneg _) (by nlinarith)
  have hc := (hL _ (C111_posDef (K := K) hsig hl hd)).2.2
  have h2 : (gpSampler cholesky sigma ell key fun i : Fin (K + 1) => dt * i).E (fun x => f (arr x))
      = ∫⁻ x, f (arr x) ∂(mvn 0 (gpCov sigma ell (fun i : Fin (K + 1) => dt * i) fun i : Fin (K + 1) => dt * i)) := by
    have h0 := stdNormal_affine (0 : Fin (K + 1) → ℝ)
      (cholesky (gpCov sigma ell (fun i : Fin (K + 1) => dt * i) fun i : Fin (K + 1) => dt * i))
    rw [hc] at h0
    rw [← h0, lintegral_map hf (measurable_affine _ _)]
    simp only [zero_add]
    rfl
  refine ⟨?_, h2⟩
  rw [h2, C111_discretisation sigma hl, prior_test _ sigma hQ hR ht hf, chainMat_cov sigma hd.le (Real.sq_sqrt hQ)]

/-- **C111, the loop of the test with observations one step late.**  Start at `gp_sampler(key, ts)` and run any number of
rounds with the functions of the test; if `sampler_ys_cond_xs` is called on the trajectory shifted by one step, then the
trajectory has mean zero and covariance `gp_cov(ts, ts)` (it is normal with these), as the test asserts. -/
theorem C111_gibbs {N : ℕ} [NeZero N] {cholesky : Matrix (Fin (K + 1)) (Fin (K + 1)) ℝ → Matrix (Fin (K + 1)) (Fin (K + 1)) ℝ}
    (hL : IsCholesky cholesky) {sigma ell dt R : ℝ} (hsig : sigma ≠ 0) (hl : 0 < ell) (hd : 0 < dt) (hR : 0 < R)
    (key key' : Key) (n k : ℕ) {ts : Arr1 ℝ} (ht : ts.2.length = K) (bs : Arr1 (Fin N)) (hb : bs.2.length = K)
    {f : Arr1 ℝ → ℝ≥0∞} (hf : Measurable fun q : Fin (K + 1) → ℝ => f (arr q)) :
    (gpSampler cholesky sigma ell key fun i : Fin (K + 1) => dt * i).E (fun x =>
      (csmcGibbs (funs N (transFQ sigma ell dt).1 (transFQ sigma ell dt).2 R (sigma ^ 2)) CsmcResampling.killing n
        (samplerYsAt (K := K) lag R) ts k key' (arr x) bs).E fun s => f s.1)
      = ∫⁻ x, f (arr x) ∂(mvn 0 (gpCov sigma ell (fun i : Fin (K + 1) => dt * i) fun i : Fin (K + 1) => dt * i)) := by
  have hQ : 0 ≤ (transFQ sigma ell dt).2 := by
    rw [C111_discretisation sigma hl]
    have h1 : Real.exp (-dt / ell) ≤ 1 := Real.exp_le_one_iff.2 (div_neg_of_neg_of_pos (neg_neg_of_pos hd) hl).le
    have h2 := Real.exp_pos (-dt / ell)
    exact mul_nonneg (sq_nonneg _) (by nlinarith)
  have hm := (C110_test_functions (N := N) (K := K) (transFQ sigma ell dt).1 hQ (sq_nonneg sigma) hR).1
  have he := emits_samplerYsAt (K := K) lag (transFQ sigma ell dt).1 (transFQ sigma ell dt).2 (sigma ^ 2) hR
  have hF : Measurable fun q : Fin (K + 1) → ℝ =>
      (csmcGibbs (funs N (transFQ sigma ell dt).1 (transFQ sigma ell dt).2 R (sigma ^ 2)) CsmcResampling.killing n
        (samplerYsAt (K := K) lag R) ts k key' (arr q) bs).E fun s => f s.1 := by
    have e : ∀ q : Fin (K + 1) → ℝ, _ := fun q =>
      csmcGibbs_eq hm (Or.inl rfl) n he ht hf k key' (arr q) bs (by simp [arr]) hb
    simp only [e, rowsOf_arr]
    exact measurable_roundsInt hm (Or.inl rfl) n lag ht hf k
  rw [(C111_prior hL hsig hl hd hR key ht (f := fun us => (csmcGibbs (funs N (transFQ sigma ell dt).1 (transFQ sigma ell dt).2 R
    (sigma ^ 2)) CsmcResampling.killing n (samplerYsAt (K := K) lag R) ts k key' us bs).E fun s => f s.1) hF).1,
    C110_test_shifted (K := K) _ hQ (sq_nonneg sigma) hR ht n k key' bs hb hf, ← (C111_prior hL hsig hl hd hR key ht hf).1,
    (C111_prior hL hsig hl hd hR key ht hf).2]

/-- The constants of `/repo/tests/test_csmc.py:34-48`. -/
example : ∃ cholesky : Matrix (Fin 11) (Fin 11) ℝ → Matrix (Fin 11) (Fin 11) ℝ, IsCholesky cholesky ∧ ∀ (key key' : Key) (k : ℕ),
    (gpSampler cholesky 1 1 key fun i : Fin 11 => 1 * (i : ℝ)).E (fun x =>
      (csmcGibbs (funs 11 (transFQ 1 1 1).1 (transFQ 1 1 1).2 1 (1 ^ 2)) CsmcResampling.killing 10
        (samplerYsAt (K := 10) lag 1) (0, [1, 2, 3, 4, 5, 6, 7, 8, 9, 10]) k key' (arr x) (0, List.replicate 10 0)).E
          fun s => ENNReal.ofReal (s.1.1 ^ 2))
      = ∫⁻ x, ENNReal.ofReal (x 0 ^ 2) ∂(mvn 0 (gpCov 1 1 (fun i : Fin 11 => 1 * (i : ℝ)) fun i : Fin 11 => 1 * (i : ℝ))) := by
  obtain ⟨c, hc⟩ := exists_isCholesky 11
  exact ⟨c, hc, fun key key' k => C111_gibbs (K := 10) hc one_ne_zero one_pos one_pos one_pos key key' 10 k rfl _ rfl
    (f := fun us => ENNReal.ofReal (us.1 ^ 2)) (by unfold arr; fun_prop)⟩

end Chain

end Props
end Fbs
