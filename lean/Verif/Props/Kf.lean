import Verif.Model.Kf
import Verif.Lemmas.GaussLin
import Verif.Props.Gp
import Verif.Props.LossesAgree
import Mathlib.Analysis.Complex.ExponentialBounds

/-!
# C67: the Kalman filter experiment
-/

open MeasureTheory ProbabilityTheory Matrix
open scoped ENNReal NNReal MatrixOrder

namespace Fbs

namespace Spec

open Toy Mvn GaussKl

/-- Unnormalised filter of the Euler-Maruyama chain of the reverse process: the integral of `f` over the last state of
the first part, weighted by the densities of the given states of the second part.  Both parts move together from `(u, v)`;
the noises are independent with variance `dt * disp t ^ 2`. -/
noncomputable def emFilter {ι κ ζ : Type} [Fintype ι] [DecidableEq ι] [Fintype κ] [DecidableEq κ] (e : ι ⊕ κ ≃ ζ)
    (drift : (ζ → ℝ) → ℝ → (ζ → ℝ)) (disp : ℝ → ℝ) (dt : ℝ) (f : (ι → ℝ) → ℝ≥0∞) :
    (κ → ℝ) → List ((κ → ℝ) × ℝ) → (ι → ℝ) → ℝ≥0∞
  | _, [], u => f u
  | v, (v', t) :: rest, u =>
    ENNReal.ofReal (Real.exp (logDens (v + dt • unpackV e (drift (concat e u v) t)) ((dt * disp t ^ 2) • 1) v')) *
      ∫⁻ u', emFilter e drift disp dt f v' rest u' ∂(mvn (u + dt • unpackU e (drift (concat e u v) t)) ((dt * disp t ^ 2) • 1))

end Spec

namespace Props

open Spec Jax Toy Gp Kf Mvn GaussKl GaussCond GaussLin

variable {d q : ℕ}

theorem jac_affine {m n : Type} [Fintype n] [DecidableEq n] {f : (n → ℝ) → (m → ℝ)} (c : m → ℝ) (R : Matrix m n ℝ)
    (hf : ∀ x, f x = c + R *ᵥ x) (x : n → ℝ) : jac f x = R := by
  ext i j
  rw [jac, of_apply]
  have h1 : HasDerivAt (fun y => f (Function.update x j y) i) (0 + ∑ k, R i k * (if k = j then 1 else 0)) (x j) := by
    simp only [hf, Pi.add_apply, mulVec, dotProduct]
    refine (hasDerivAt_const _ _).add (HasDerivAt.fun_sum fun k _ => HasDerivAt.const_mul _ ?_)
    by_cases h : k = j
    · subst h
      simp only [Function.update_self, if_true]
      exact hasDerivAt_id _
    · simp only [Function.update_of_ne h, if_neg h]
      exact hasDerivAt_const _ _
  rw [h1.deriv]
  simp

/-- The blocks of an affine drift. -/
theorem blocks_mulVec (e : Fin d ⊕ Fin d ≃ Fin q) (A : Matrix (Fin q) (Fin q) ℝ) (u v : Fin d → ℝ) :
    unpackU e (A *ᵥ concat e u v) = blockUU e A *ᵥ u + blockUV e A *ᵥ v ∧
      unpackV e (A *ᵥ concat e u v) = blockVU e A *ᵥ u + blockVV e A *ᵥ v := by
  constructor
  all_goals
    funext i
    simp only [unpackU, unpackV, mulVec, dotProduct, Pi.add_apply, blockUU, blockUV, blockVU, blockVV, submatrix_apply,
      Function.comp_apply]
    rw [← Equiv.sum_comp e, Fintype.sum_sum_type]
    simp [concat]

section Affine

variable {e : Fin d ⊕ Fin d ≃ Fin q} {drift : (Fin q → ℝ) → ℝ → (Fin q → ℝ)} {A : Matrix (Fin q) (Fin q) ℝ}
  {c : Fin q → ℝ} {t : ℝ}

theorem condStateMean_eq (hA : ∀ z, drift z t = A *ᵥ z + c) (dt : ℝ) (u v : Fin d → ℝ) :
    condStateMean e drift dt u v t = dt • (blockUV e A *ᵥ v + unpackU e c) + (1 + dt • blockUU e A) *ᵥ u := by
  have h := (blocks_mulVec e A u v).1
  funext i
  have hi := congrFun h i
  simp only [condStateMean, driftU, hA, unpackU, Pi.add_apply, add_mulVec, one_mulVec, smul_mulVec, Pi.smul_apply,
    smul_eq_mul] at hi ⊢
  rw [hi]
  ring

theorem condObsMean_eq (hA : ∀ z, drift z t = A *ᵥ z + c) (dt : ℝ) (u v : Fin d → ℝ) :
    condObsMean e drift dt u v t = dt • (blockVU e A *ᵥ u + unpackV e c) + (1 + dt • blockVV e A) *ᵥ v := by
  have h := (blocks_mulVec e A u v).2
  funext i
  have hi := congrFun h i
  simp only [condObsMean, driftV, hA, unpackV, Pi.add_apply, add_mulVec, one_mulVec, smul_mulVec, Pi.smul_apply,
    smul_eq_mul] at hi ⊢
  rw [hi]
  ring

/-- One step of the filter in closed form. -/
theorem scanBody_eq {cho : Matrix (Fin d) (Fin d) ℝ → Matrix (Fin d) (Fin d) ℝ} (hc : IsChol cho)
    (hA : ∀ z, drift z t = A *ᵥ z + c) {disp : ℝ → ℝ} {dt : ℝ} (hr : 0 < Real.sqrt dt * disp t) {mf : Fin d → ℝ}
    {vf : Matrix (Fin d) (Fin d) ℝ} (hvf : vf.PosDef) (v vPrev : Fin d → ℝ) :
    let F : Matrix (Fin d) (Fin d) ℝ := 1 + dt • blockUU e A
    let H : Matrix (Fin d) (Fin d) ℝ := 1 + dt • blockVV e A
    let R : Matrix (Fin d) (Fin d) ℝ := (Real.sqrt dt * disp t) • 1
    let mp := condStateMean e drift dt mf vPrev t
    let vp := F * vf * Fᵀ + R
    vp.PosDef ∧ (H * vp * Hᵀ + R).PosDef ∧
    scanBody cho e drift disp dt (mf, vf) (v, vPrev, t) =
      (mp + (vp * Hᵀ) *ᵥ ((H * vp * Hᵀ + R)⁻¹ *ᵥ (v - condObsMean e drift dt mp vPrev t)),
        vp - vp * Hᵀ * (H * vp * Hᵀ + R)⁻¹ * (vp * Hᵀ)ᵀ) := by
  intro F H R mp vp
  have hR : R.PosDef := PosDef.one.smul hr
  have hvp : vp.PosDef := by
    refine PosDef.posSemidef_add ?_ hR
    simpa using hvf.posSemidef.mul_mul_conjTranspose_same F
  have hS : (H * vp * Hᵀ + R).PosDef := by
    refine PosDef.posSemidef_add ?_ hR
    simpa using hvp.posSemidef.mul_mul_conjTranspose_same H
  refine ⟨hvp, hS, ?_⟩
  have hSt : (H * vp * Hᵀ + R)ᵀ = H * vp * Hᵀ + R := by simpa using hS.1.eq
  have hvt : vpᵀ = vp := by simpa using hvp.1.eq
  have hSu : IsUnit (H * vp * Hᵀ + R).det := hS.det_pos.ne'.isUnit
  have jF : jac (fun u => condStateMean e drift dt u vPrev t) mf = F :=
    jac_affine _ _ (fun u => condStateMean_eq hA dt u vPrev) mf
  have jH : jac (fun v => condObsMean e drift dt mp v t) vPrev = H :=
    jac_affine _ _ (fun v => condObsMean_eq hA dt mp v) vPrev
  simp only [scanBody, jF]
  rw [show condStateMean e drift dt mf vPrev t = mp from rfl, jH,
    show F * vf * Fᵀ + condStateCov disp dt t = vp from rfl, show condObsCov disp dt t = R from rfl, choSolve_eq hc hS]
  set S := H * vp * Hᵀ + R with hSdef
  have hK : vp * (S⁻¹ * H)ᵀ = vp * Hᵀ * S⁻¹ := by
    rw [transpose_mul, transpose_nonsing_inv, hSt, Matrix.mul_assoc]
  rw [hK]
  refine Prod.ext ?_ ?_
  · show mp + (vp * Hᵀ * S⁻¹) *ᵥ _ = mp + _
    rw [mulVec_mulVec]
  · show vp - vp * Hᵀ * S⁻¹ * S * (vp * Hᵀ * S⁻¹)ᵀ = vp - vp * Hᵀ * S⁻¹ * (vp * Hᵀ)ᵀ
    rw [nonsing_inv_mul_cancel_right _ _ hSu, transpose_mul, transpose_nonsing_inv, hSt, ← Matrix.mul_assoc]

/-- **C67, what one step of `adhoc_kf` does.**  It is the exact Bayes update of a linear Gaussian model, but of a different
one: the noise variance is `sqrt(dt) * dispersion` instead of `dt * dispersion ** 2`, and `v` is taken to be observed from
the new state `u'` with the matrix `H` that is the derivative of the mean of `v` with respect to the previous `v`.
Missing for the claim of the script: see `C67_not_exact`. -/
theorem C67_step_partial {cho : Matrix (Fin d) (Fin d) ℝ → Matrix (Fin d) (Fin d) ℝ} (hc : IsChol cho)
    (hA : ∀ z, drift z t = A *ᵥ z + c) {disp : ℝ → ℝ} {dt : ℝ} (hr : 0 < Real.sqrt dt * disp t) (mf : Fin d → ℝ)
    {vf : Matrix (Fin d) (Fin d) ℝ} (hvf : vf.PosDef) (vPrev : Fin d → ℝ) {f : (Fin d → ℝ) → (Fin d → ℝ) → ℝ≥0∞}
    (hf : Measurable fun q : (Fin d → ℝ) × (Fin d → ℝ) => f q.1 q.2) :
    let H : Matrix (Fin d) (Fin d) ℝ := 1 + dt • blockVV e A
    let R : Matrix (Fin d) (Fin d) ℝ := (Real.sqrt dt * disp t) • 1
    let mp := condStateMean e drift dt mf vPrev t
    (∀ v, (scanBody cho e drift disp dt (mf, vf) (v, vPrev, t)).2.PosDef) ∧
    ∃ S : Matrix (Fin d) (Fin d) ℝ, S.PosDef ∧
    ∫⁻ u, ∫⁻ u', ∫⁻ v, f u' v ∂(mvn (condObsMean e drift dt mp vPrev t + H *ᵥ (u' - mp)) R)
        ∂(mvn (condStateMean e drift dt u vPrev t) R) ∂(mvn mf vf) =
      ∫⁻ v, ∫⁻ u', f u' v ∂(mvn (scanBody cho e drift disp dt (mf, vf) (v, vPrev, t)).1
        (scanBody cho e drift disp dt (mf, vf) (v, vPrev, t)).2) ∂(mvn (condObsMean e drift dt mp vPrev t) S) := by
  intro H R mp
  have hR : R.PosDef := PosDef.one.smul hr
  have hs := fun v => scanBody_eq (e := e) hc hA hr (mf := mf) hvf v vPrev
  have hvp := (hs 0).1
  have hS := (hs 0).2.1
  set F : Matrix (Fin d) (Fin d) ℝ := 1 + dt • blockUU e A
  set vp := F * vf * Fᵀ + R
  have hm : ∀ u', condObsMean e drift dt mp vPrev t + H *ᵥ (u' - mp) =
      condObsMean e drift dt mp vPrev t - H *ᵥ mp + H *ᵥ u' := fun u' => by rw [mulVec_sub]; abel
  obtain ⟨h1, h2⟩ := lintegral_bayes hvp hR mp (condObsMean e drift dt mp vPrev t - H *ᵥ mp) H hf
  refine ⟨fun v => by rw [(hs v).2.2]; exact h1, _, hS, ?_⟩
  have hmean : condObsMean e drift dt mp vPrev t - H *ᵥ mp + H *ᵥ mp = condObsMean e drift dt mp vPrev t := by abel
  rw [hmean] at h2
  simp only [fun v => (hs v).2.2]
  rw [← h2]
  simp only [hm]
  have hmeas : Measurable fun u' => ∫⁻ v, f u' v ∂(mvn (condObsMean e drift dt mp vPrev t - H *ᵥ mp + H *ᵥ u') R) :=
    measurable_lintegral_mvn hR.posSemidef (measurable_affine _ _) hf
  have h3 := lintegral_pred hvf.posSemidef hR.posSemidef mf (dt • (blockUV e A *ᵥ vPrev + unpackU e c)) F hmeas
  simp only [condStateMean_eq hA]
  rw [h3]
  congr 2
  exact (condStateMean_eq hA dt mf vPrev).symm

/-- **C67, a correct step.**  The filter of the Euler-Maruyama chain is Gaussian: condition the previous state on the new
`v` through the derivative `dt * A_vu` of its mean with respect to the previous `u`, then predict. -/
theorem C67_exact_step (hA : ∀ z, drift z t = A *ᵥ z + c) {disp : ℝ → ℝ} {dt : ℝ} (hr : 0 < dt * disp t ^ 2)
    (mf : Fin d → ℝ) {vf : Matrix (Fin d) (Fin d) ℝ} (hvf : vf.PosDef) (vPrev : Fin d → ℝ)
    {f : (Fin d → ℝ) → (Fin d → ℝ) → ℝ≥0∞} (hf : Measurable fun q : (Fin d → ℝ) × (Fin d → ℝ) => f q.1 q.2) :
    let G : Matrix (Fin d) (Fin d) ℝ := dt • blockVU e A
    let F : Matrix (Fin d) (Fin d) ℝ := 1 + dt • blockUU e A
    let R : Matrix (Fin d) (Fin d) ℝ := (dt * disp t ^ 2) • 1
    let S := G * vf * Gᵀ + R
    let m := fun v => mf + (vf * Gᵀ) *ᵥ (S⁻¹ *ᵥ (v - condObsMean e drift dt mf vPrev t))
    let P := vf - vf * Gᵀ * S⁻¹ * (vf * Gᵀ)ᵀ
    P.PosDef ∧
    ∫⁻ u, ∫⁻ v, ∫⁻ u', f u' v ∂(mvn (condStateMean e drift dt u vPrev t) R) ∂(mvn (condObsMean e drift dt u vPrev t) R)
        ∂(mvn mf vf) =
      ∫⁻ v, ∫⁻ u', f u' v ∂(mvn (condStateMean e drift dt (m v) vPrev t) (F * P * Fᵀ + R))
        ∂(mvn (condObsMean e drift dt mf vPrev t) S) := by
  intro G F R S m P
  have hR : R.PosDef := PosDef.one.smul hr
  have hobs : ∀ u, condObsMean e drift dt u vPrev t =
      dt • unpackV e c + (1 + dt • blockVV e A) *ᵥ vPrev + G *ᵥ u := fun u => by
    rw [condObsMean_eq hA, smul_add, smul_mulVec]
    abel
  have hmeas : Measurable fun p : (Fin d → ℝ) × (Fin d → ℝ) =>
      ∫⁻ u', f u' p.2 ∂(mvn (condStateMean e drift dt p.1 vPrev t) R) := by
    simp only [condStateMean_eq hA]
    exact measurable_lintegral_mvn hR.posSemidef ((measurable_affine _ _).comp measurable_fst)
      (f := fun q : ((Fin d → ℝ) × (Fin d → ℝ)) × (Fin d → ℝ) => f q.2 q.1.2)
      (hf.comp (measurable_snd.prodMk (measurable_snd.comp measurable_fst)))
  obtain ⟨h1, h2⟩ := lintegral_bayes hvf hR mf (dt • unpackV e c + (1 + dt • blockVV e A) *ᵥ vPrev) G
    (f := fun u v => ∫⁻ u', f u' v ∂(mvn (condStateMean e drift dt u vPrev t) R)) hmeas
  refine ⟨h1, ?_⟩
  simp only [← hobs] at h2
  rw [h2]
  refine lintegral_congr fun v => ?_
  have h3 := lintegral_pred h1.posSemidef hR.posSemidef (m v) (dt • (blockUV e A *ᵥ vPrev + unpackU e c)) F
    (f := fun u' => f u' v) (hf.comp (measurable_id.prodMk measurable_const))
  simp only [condStateMean_eq hA]
  exact h3

end Affine

/-! ### The program for one observation -/

theorem inv_one_one (M : Matrix (Fin 1) (Fin 1) ℝ) : M⁻¹ 0 0 = (M 0 0)⁻¹ := by
  rw [inv_def, det_fin_one, adjugate_fin_one]
  simp

/-- The joint covariance of the script for `d = 1`. -/
noncomputable abbrev jc1 : Matrix (Fin 2) (Fin 2) ℝ :=
  jointCov (finSumFinEquiv (m := 1) (n := 1)) (covFn 1 1 (fun _ : Fin 1 => 0) fun _ : Fin 1 => 0) 1

/-- The reverse drift of the script for `d = 1`, `T = 1` and the default SDE. -/
noncomputable abbrev drift1 (choJ : Matrix (Fin 2) (Fin 2) ℝ → Matrix (Fin 2) (Fin 2) ℝ) : (Fin 2 → ℝ) → ℝ → (Fin 2 → ℝ) :=
  reverseDrift choJ (.const (-0.5) 1) 0 1 0 jc1

theorem forwardCov_one (t : ℝ) : (forwardMCov (.const (-0.5) 1) 0 (0 : Fin 2 → ℝ) jc1 t).2 =
    !![1, Real.exp (-t); Real.exp (-t), 1 + Real.exp (-t)] := by
  have h1 : Real.exp (-0.5 * (t - 0)) ^ 2 = Real.exp (-t) := by
    rw [← Real.exp_nat_mul]; congr 1; push_cast; ring
  have h2 : (1 : ℝ) ^ 2 / (2 * -0.5) * (Real.exp (2 * -0.5 * (t - 0)) - 1) = 1 - Real.exp (-t) := by
    rw [show (2 : ℝ) * -0.5 * (t - 0) = -t by ring]; ring
  simp only [forwardMCov, Linear.discretise, h1, h2]
  have e0 : (finSumFinEquiv (m := 1) (n := 1)).symm 0 = Sum.inl 0 := rfl
  have e1 : (finSumFinEquiv (m := 1) (n := 1)).symm 1 = Sum.inr 0 := rfl
  ext i j
  fin_cases i <;> fin_cases j <;>
    simp [jointCov, covFn, e0, e1, Matrix.add_apply, Matrix.smul_apply, submatrix_apply]
  ring

theorem drift_one {choJ : Matrix (Fin 2) (Fin 2) ℝ → Matrix (Fin 2) (Fin 2) ℝ} (hJ : IsChol choJ) {t : ℝ} (ht : t ≤ 1) :
    let x := Real.exp (-(1 - t))
    ∀ z, drift1 choJ z t = !![1 / 2 - (1 + x) / (1 + x - x ^ 2), x / (1 + x - x ^ 2);
      x / (1 + x - x ^ 2), 1 / 2 - 1 / (1 + x - x ^ 2)] *ᵥ z + 0 := by
  intro x z
  have hx0 : 0 < x := Real.exp_pos _
  have hx1 : x ≤ 1 := Real.exp_le_one_iff.2 (by linarith)
  have hD : 0 < 1 + x - x ^ 2 := by nlinarith
  have hP : (forwardMCov (.const (-0.5) 1) 0 (0 : Fin 2 → ℝ) jc1 (1 - t)).2.PosDef := by
    refine forwardCov_posDef ?_ 0 (jointCov_posDef _ ?_ one_pos)
    · have : (Linear.discretise (.const (-0.5) 1) (1 - t) 0).2 = 1 - x := by
        simp only [Linear.discretise]
        rw [show (2 : ℝ) * -0.5 * (1 - t - 0) = -(1 - t) by ring]
        show _ * (x - 1) = _
        ring
      rw [this]; linarith
    · exact C60_kernel_posDef one_ne_zero one_pos (fun i j h => absurd h (by omega))
  have hinv : (!![1, x; x, 1 + x] : Matrix (Fin 2) (Fin 2) ℝ)⁻¹ =
      !![(1 + x) / (1 + x - x ^ 2), -x / (1 + x - x ^ 2); -x / (1 + x - x ^ 2), 1 / (1 + x - x ^ 2)] := by
    rw [inv_def, det_fin_two_of, adjugate_fin_two_of, Ring.inverse_eq_inv']
    ext i j
    fin_cases i <;> fin_cases j <;> simp <;> field_simp
  funext k
  simp only [reverseDrift, score, Linear.drift, Linear.dispersion]
  rw [choSolveVec_eq hJ hP, forwardCov_one, hinv]
  have hm : (forwardMCov (.const (-0.5) 1) 0 (0 : Fin 2 → ℝ) jc1 (1 - t)).1 = 0 := by simp [forwardMCov]
  rw [hm]
  fin_cases k <;> simp [dotProduct, Fin.sum_univ_two] <;> ring

/-- One step of the filter for `d = 1`. -/
theorem scanBody_one {cho : Matrix (Fin 1) (Fin 1) ℝ → Matrix (Fin 1) (Fin 1) ℝ} (hc : IsChol cho)
    {choJ : Matrix (Fin 2) (Fin 2) ℝ → Matrix (Fin 2) (Fin 2) ℝ} (hJ : IsChol choJ) {t : ℝ} (ht : t ≤ 1)
    (mf : Fin 1 → ℝ) {vf : Matrix (Fin 1) (Fin 1) ℝ} (hvf : vf.PosDef) (v vPrev : Fin 1 → ℝ) :
    let x := Real.exp (-(1 - t))
    let F := 1 + 1 / 2 * (1 / 2 - (1 + x) / (1 + x - x ^ 2))
    let H := 1 + 1 / 2 * (1 / 2 - 1 / (1 + x - x ^ 2))
    let R := Real.sqrt (1 / 2)
    let vp := F ^ 2 * vf 0 0 + R
    (scanBody cho (finSumFinEquiv (m := 1) (n := 1)) (drift1 choJ) (reverseDispersion (.const (-0.5) 1) 1) (1 / 2) (mf, vf)
      (v, vPrev, t)).2.PosDef ∧
    (scanBody cho (finSumFinEquiv (m := 1) (n := 1)) (drift1 choJ) (reverseDispersion (.const (-0.5) 1) 1) (1 / 2) (mf, vf)
      (v, vPrev, t)).2 0 0 = vp * R / (H ^ 2 * vp + R) := by
  intro x F H R vp
  have hR0 : 0 < R := Real.sqrt_pos.2 (by norm_num)
  have hr : 0 < Real.sqrt (1 / 2) * reverseDispersion (.const (-0.5) 1) 1 t := by
    simp [reverseDispersion, Linear.dispersion]
  have h := (scanBody_eq (e := finSumFinEquiv (m := 1) (n := 1)) hc (drift_one hJ ht) hr (mf := mf) hvf v vPrev).2.2
  refine ⟨(C67_step_partial (e := finSumFinEquiv (m := 1) (n := 1)) hc (drift_one hJ ht) hr mf hvf vPrev
    (f := fun _ _ => 0) measurable_const).1 v, ?_⟩
  rw [h]
  have hvf0 : 0 < vf 0 0 := hvf.diag_pos
  have hvp : 0 < vp := by positivity
  have hS : 0 < H ^ 2 * vp + R := by positivity
  have e0 : finSumFinEquiv (m := 1) (n := 1) (Sum.inl 0) = 0 := rfl
  have e1 : finSumFinEquiv (m := 1) (n := 1) (Sum.inr 0) = 1 := rfl
  have hd : reverseDispersion (.const (-0.5) 1) 1 t = 1 := rfl
  simp only [Matrix.sub_apply, Matrix.mul_apply, Fin.sum_univ_one, inv_one_one, Matrix.add_apply, Matrix.smul_apply,
    transpose_apply, blockUU, blockVV, submatrix_apply, Function.comp_apply, e0, e1, hd, one_apply_eq, smul_eq_mul, mul_one,
    of_apply, cons_val_zero, cons_val_one]
  have k1 : (1 + 1 / 2 * (1 / 2 - (1 + x) / (1 + x - x ^ 2))) = F := rfl
  have k2 : (1 + 1 / 2 * (1 / 2 - 1 / (1 + x - x ^ 2))) = H := rfl
  have k3 : F * vf 0 0 * F + Real.sqrt (1 / 2) = vp := by show _ = F ^ 2 * vf 0 0 + R; ring
  simp only [show Real.exp (-(1 - t)) = x from rfl, k1, k2, k3]
  rw [show Real.sqrt (1 / 2) = R from rfl, show H * vp * H + R = H ^ 2 * vp + R by ring]
  field_simp
  ring

theorem kf_sqrt : 0.707 < Real.sqrt (1 / 2) ∧ Real.sqrt (1 / 2) < 0.7072 := by
  constructor
  · exact Real.lt_sqrt_of_sq_lt (by norm_num)
  · rw [Real.sqrt_lt' (by norm_num)]; norm_num

theorem kf_bound {x : ℝ} (ha : 0.36 < x) (hb : x < 0.61) : (0.84 : ℝ) ≤ 1 + 1 / 2 * (1 / 2 - 1 / (1 + x - x ^ 2)) := by
  have hD : 1.23 ≤ 1 + x - x ^ 2 := by nlinarith
  have : 1 / (1 + x - x ^ 2) ≤ 1 / 1.23 := one_div_le_one_div_of_le (by norm_num) hD
  norm_num at this ⊢
  linarith

theorem kf_step {v vp R H c : ℝ} (h1 : 0 < vp) (h2 : vp ≤ v) (h3 : 0.707 < R) (h4 : R < 0.7072) (h5 : 0.84 ≤ H) (h6 : 0 ≤ c)
    (h7 : c ≤ 1) (h8 : v * (0.7072 - 0.7 * c) < c * 0.707) : vp * R / (H ^ 2 * vp + R) < c := by
  have hH : 0.7 ≤ H ^ 2 := by nlinarith
  have hR : 0 < R := by linarith
  have hS : 0 < H ^ 2 * vp + R := by positivity
  rw [div_lt_iff₀ hS]
  have a1 : vp * (0.7072 - 0.7 * c) ≤ v * (0.7072 - 0.7 * c) := mul_le_mul_of_nonneg_right h2 (by linarith)
  have a2 : c * (0.7 * vp) ≤ c * (H ^ 2 * vp) := mul_le_mul_of_nonneg_left (mul_le_mul_of_nonneg_right hH h1.le) h6
  have a3 : vp * R ≤ vp * 0.7072 := mul_le_mul_of_nonneg_left h4.le h1.le
  have a4 : c * 0.707 ≤ c * R := mul_le_mul_of_nonneg_left h3.le h6
  linarith

theorem kf_num {x p a b f v c : ℝ} (x1 : 0.36 < x) (x2 : x < 0.61) (hp : 0 < p) {p1 : ℝ} (hp1 : p ≤ p1)
    (hFa : a ≤ (1 + x) / (1 + x - x ^ 2)) (hFb : (1 + x) / (1 + x - x ^ 2) ≤ b) (ha : (1 + 1 / 2 * (1 / 2 - a)) = f)
    (hb : 0 ≤ 1 + 1 / 2 * (1 / 2 - b)) (hv : f ^ 2 * p1 + 0.7072 ≤ v) (h6 : 0 ≤ c) (h7 : c ≤ 1)
    (h8 : v * (0.7072 - 0.7 * c) < c * 0.707) :
    ((1 + 1 / 2 * (1 / 2 - (1 + x) / (1 + x - x ^ 2))) ^ 2 * p + Real.sqrt (1 / 2)) * Real.sqrt (1 / 2) /
      ((1 + 1 / 2 * (1 / 2 - 1 / (1 + x - x ^ 2))) ^ 2 *
        ((1 + 1 / 2 * (1 / 2 - (1 + x) / (1 + x - x ^ 2))) ^ 2 * p + Real.sqrt (1 / 2)) + Real.sqrt (1 / 2)) < c := by
  obtain ⟨r1, r2⟩ := kf_sqrt
  have hF : (1 + 1 / 2 * (1 / 2 - (1 + x) / (1 + x - x ^ 2))) ^ 2 ≤ f ^ 2 :=
    pow_le_pow_left₀ (by linarith) (by linarith) 2
  refine kf_step (v := v) ?_ ?_ r1 r2 (kf_bound x1 x2) h6 h7 h8
  · have := mul_nonneg (sq_nonneg (1 + 1 / 2 * (1 / 2 - (1 + x) / (1 + x - x ^ 2)))) hp.le
    linarith
  · have := mul_le_mul hF hp1 hp.le (sq_nonneg f)
    linarith

theorem kf_num1 {p : ℝ} (hp : 0 < p) (hp1 : p ≤ 1) :
    ((1 + 1 / 2 * (1 / 2 - (1 + Real.exp (-1)) / (1 + Real.exp (-1) - Real.exp (-1) ^ 2))) ^ 2 * p + Real.sqrt (1 / 2)) *
      Real.sqrt (1 / 2) / ((1 + 1 / 2 * (1 / 2 - 1 / (1 + Real.exp (-1) - Real.exp (-1) ^ 2))) ^ 2 *
        ((1 + 1 / 2 * (1 / 2 - (1 + Real.exp (-1)) / (1 + Real.exp (-1) - Real.exp (-1) ^ 2))) ^ 2 * p + Real.sqrt (1 / 2)) +
          Real.sqrt (1 / 2)) < 0.56 := by
  have x1 : 0.3678 < Real.exp (-1) := lt_trans (by norm_num) Real.exp_neg_one_gt_d9
  have x2 : Real.exp (-1) < 0.3679 := lt_trans Real.exp_neg_one_lt_d9 (by norm_num)
  generalize Real.exp (-1) = x at x1 x2 ⊢
  have hD : 0 < 1 + x - x ^ 2 := by nlinarith
  exact kf_num (a := 1.1) (b := 1.2) (f := 0.7) (v := 1.1972) (by linarith) (by linarith) hp hp1
    (by rw [le_div_iff₀ hD]; nlinarith) (by rw [div_le_iff₀ hD]; nlinarith) (by norm_num) (by norm_num) (by norm_num)
    (by norm_num) (by norm_num) (by norm_num)

theorem kf_num2 {p : ℝ} (hp : 0 < p) (hp1 : p < 0.56) :
    ((1 + 1 / 2 * (1 / 2 - (1 + Real.exp (-(1 / 2))) / (1 + Real.exp (-(1 / 2)) - Real.exp (-(1 / 2)) ^ 2))) ^ 2 * p +
      Real.sqrt (1 / 2)) * Real.sqrt (1 / 2) /
      ((1 + 1 / 2 * (1 / 2 - 1 / (1 + Real.exp (-(1 / 2)) - Real.exp (-(1 / 2)) ^ 2))) ^ 2 *
        ((1 + 1 / 2 * (1 / 2 - (1 + Real.exp (-(1 / 2))) / (1 + Real.exp (-(1 / 2)) - Real.exp (-(1 / 2)) ^ 2))) ^ 2 * p +
          Real.sqrt (1 / 2)) + Real.sqrt (1 / 2)) < 1 / 2 := by
  have y1 : 0.3678 < Real.exp (-1) := lt_trans (by norm_num) Real.exp_neg_one_gt_d9
  have y2 : Real.exp (-1) < 0.3679 := lt_trans Real.exp_neg_one_lt_d9 (by norm_num)
  have hsq : Real.exp (-(1 / 2)) ^ 2 = Real.exp (-1) := by rw [← Real.exp_nat_mul]; norm_num
  have hpos := Real.exp_pos (-(1 / 2))
  have x1 : 0.606 < Real.exp (-(1 / 2)) := by nlinarith
  have x2 : Real.exp (-(1 / 2)) < 0.607 := by nlinarith
  clear hsq
  generalize Real.exp (-(1 / 2)) = x at x1 x2 ⊢
  have hD : 0 < 1 + x - x ^ 2 := by nlinarith
  exact kf_num (a := 1.28) (b := 1.4) (f := 0.61) (v := 0.92) (by linarith) (by linarith) hp hp1.le
    (by rw [le_div_iff₀ hD]; nlinarith) (by rw [div_le_iff₀ hD]; nlinarith) (by norm_num) (by norm_num) (by norm_num)
    (by norm_num) (by norm_num) (by norm_num)

/-- **C67, the computed variance** of the program for one observation is below the noise variance of one Euler-Maruyama
step, whatever the path of the data. -/
theorem C67_variance {cho : Matrix (Fin 1) (Fin 1) ℝ → Matrix (Fin 1) (Fin 1) ℝ} (hc : IsChol cho)
    {choJ : Matrix (Fin 2) (Fin 2) ℝ → Matrix (Fin 2) (Fin 2) ℝ} (hJ : IsChol choJ) (v0 v1 v2 : Fin 1 → ℝ) :
    let e := finSumFinEquiv (m := 1) (n := 1)
    let ref := forwardMCov (.const (-0.5) 1) 0 (0 : Fin 2 → ℝ) jc1 1
    let P := (adhocKf cho e (drift1 choJ) (reverseDispersion (.const (-0.5) 1) 1) (1 / 2) (refMean cho e ref.1 ref.2 v0)
      (refCov cho e ref.2) [v0, v1, v2] [0, 1 / 2, 1]).2
    P.PosDef ∧ P 0 0 < 1 / 2 := by
  intro e ref P
  have hQ : 0 ≤ (Linear.discretise (.const (-0.5) 1) 1 0).2 := by
    simp only [Linear.discretise]
    have : Real.exp (2 * -0.5 * (1 - 0)) ≤ 1 := Real.exp_le_one_iff.2 (by norm_num)
    rw [show (1 : ℝ) ^ 2 / (2 * -0.5) = -1 by norm_num]
    linarith
  have hrefP : ref.2.PosDef := forwardCov_posDef hQ 0 (jointCov_posDef _
    (C60_kernel_posDef one_ne_zero one_pos (fun i j h => absurd h (by omega))) one_pos)
  have hP0 := (C62_conditional e hc ref.1 hrefP (f := fun _ => 0) measurable_const).1
  have hP0v : refCov cho e ref.2 0 0 ≤ 1 := by
    have hVV := posDef_blockVV e hrefP
    rw [refCov, choSolve_eq hc hVV]
    simp only [Matrix.sub_apply, Matrix.mul_apply, Fin.sum_univ_one, inv_one_one]
    have h1 : blockUU e ref.2 0 0 = 1 := by
      show ref.2 0 0 = 1
      rw [show ref.2 = _ from forwardCov_one 1]; rfl
    have h2 : blockUV e ref.2 0 0 = blockVU e ref.2 0 0 := by
      show ref.2 0 1 = ref.2 1 0
      rw [show ref.2 = _ from forwardCov_one 1]; rfl
    have h3 : 0 < (blockVV e ref.2 0 0)⁻¹ := inv_pos.2 hVV.diag_pos
    rw [h1, h2]
    nlinarith [mul_nonneg h3.le (mul_self_nonneg (blockVU e ref.2 0 0))]
  have hP00 : 0 < refCov cho e ref.2 0 0 := hP0.diag_pos
  set m0 := refMean cho e ref.1 ref.2 v0
  obtain ⟨h1p, h1⟩ := scanBody_one hc hJ (t := 0) (by norm_num) m0 hP0 v1 v0
  set s1 := scanBody cho e (drift1 choJ) (reverseDispersion (.const (-0.5) 1) 1) (1 / 2) (m0, refCov cho e ref.2) (v1, v0, 0)
  obtain ⟨h2p, h2⟩ := scanBody_one hc hJ (t := 1 / 2) (by norm_num) s1.1 h1p v2 v1
  have hP : P = (scanBody cho e (drift1 choJ) (reverseDispersion (.const (-0.5) 1) 1) (1 / 2) (s1.1, s1.2) (v2, v1, 1 / 2)).2 :=
    rfl
  rw [hP]
  refine ⟨h2p, ?_⟩
  rw [h2]
  have hxa : Real.exp (-(1 - 0 : ℝ)) = Real.exp (-1) := by norm_num
  have hxb : Real.exp (-(1 - 1 / 2 : ℝ)) = Real.exp (-(1 / 2)) := by norm_num
  rw [hxa] at h1
  rw [hxb]
  exact kf_num2 h1p.diag_pos (h1 ▸ kf_num1 hP00 hP0v)

/-! ### The exact filter -/

theorem le_lintegral_sq {v : ℝ≥0} (μ a : ℝ) : (v : ℝ≥0∞) ≤ ∫⁻ x, ENNReal.ofReal ((x - a) ^ 2) ∂(gaussianReal μ v) := by
  have hm : ∀ b : ℝ, Measurable fun x : ℝ => ENNReal.ofReal ((x + b) ^ 2) := fun b => by fun_prop
  have h1 : ∫⁻ x, ENNReal.ofReal ((x - a) ^ 2) ∂(gaussianReal μ v) =
      ∫⁻ x, ENNReal.ofReal ((x + (μ - a)) ^ 2) ∂(gaussianReal 0 v) := by
    have h2 : (gaussianReal 0 v).map (fun x => x + μ) = gaussianReal μ v := by
      rw [gaussianReal_map_add_const, zero_add]
    have hm' : Measurable fun x : ℝ => ENNReal.ofReal ((x - a) ^ 2) := by fun_prop
    rw [← h2, lintegral_map hm' (by fun_prop)]
    refine lintegral_congr fun x => ?_
    rw [add_sub_assoc]
  set b := μ - a
  have h3 : ∫⁻ x, ENNReal.ofReal ((x + b) ^ 2) ∂(gaussianReal 0 v) = ∫⁻ x, ENNReal.ofReal ((-x + b) ^ 2) ∂(gaussianReal 0 v) := by
    have h4 : (gaussianReal 0 v).map (fun x => -x) = gaussianReal 0 v := by rw [gaussianReal_map_neg, neg_zero]
    conv_lhs => rw [← h4, lintegral_map (hm b) (by fun_prop)]
  rw [h1]
  have h5 : 2 * (v : ℝ≥0∞) ≤ 2 * ∫⁻ x, ENNReal.ofReal ((x + b) ^ 2) ∂(gaussianReal 0 v) := by
    calc 2 * (v : ℝ≥0∞) = ∫⁻ x, 2 * ENNReal.ofReal (x ^ 2) ∂(gaussianReal 0 v) := by
          rw [lintegral_const_mul _ (by fun_prop), lintegral_sq_gaussian]
      _ ≤ ∫⁻ x, (ENNReal.ofReal ((x + b) ^ 2) + ENNReal.ofReal ((-x + b) ^ 2)) ∂(gaussianReal 0 v) := by
          refine lintegral_mono fun x => ?_
          rw [← ENNReal.ofReal_add (sq_nonneg _) (sq_nonneg _), show (2 : ℝ≥0∞) = ENNReal.ofReal 2 by simp,
            ← ENNReal.ofReal_mul (by norm_num)]
          exact ENNReal.ofReal_le_ofReal (by nlinarith [sq_nonneg b])
      _ = 2 * ∫⁻ x, ENNReal.ofReal ((x + b) ^ 2) ∂(gaussianReal 0 v) := by
          rw [lintegral_add_left (hm b), ← h3, two_mul]
  exact (ENNReal.mul_le_mul_iff_right (by norm_num) (by norm_num)).1 h5

theorem lintegral_mvn_coord (m : Fin d → ℝ) {s : ℝ} (hs : 0 ≤ s) (i : Fin d) {f : ℝ → ℝ≥0∞} (hf : Measurable f) :
    ∫⁻ x, f (x i) ∂(mvn m (s • 1)) = ∫⁻ y, f y ∂(gaussianReal (m i) s.toNNReal) := by
  have h := gaussProd_eq_mvn m s.toNNReal
  rw [Real.coe_toNNReal s hs] at h
  rw [← h]
  have h2 := measurePreserving_eval (fun i => gaussianReal (m i) s.toNNReal) i
  exact h2.lintegral_comp hf

/-- The filter spreads at least as much as the noise of the last step. -/
theorem emFilter_sq (e : Fin d ⊕ Fin d ≃ Fin q) (drift : (Fin q → ℝ) → ℝ → (Fin q → ℝ)) (disp : ℝ → ℝ) (dt s : ℝ) (hs : 0 ≤ s)
    (i : Fin d) (a : ℝ) : ∀ (vs : List ((Fin d → ℝ) × ℝ)) (v u : Fin d → ℝ), vs ≠ [] → (∀ p ∈ vs, dt * disp p.2 ^ 2 = s) →
      ENNReal.ofReal s * emFilter e drift disp dt (fun _ => 1) v vs u ≤
        emFilter e drift disp dt (fun u => ENNReal.ofReal ((u i - a) ^ 2)) v vs u
  | [], _, _, h, _ => absurd rfl h
  | [(v', t)], v, u, _, hd => by
    have hm : Measurable fun y : ℝ => ENNReal.ofReal ((y - a) ^ 2) := by fun_prop
    simp only [emFilter]
    rw [hd _ (List.mem_singleton_self _), lintegral_mvn_coord _ hs i hm, lintegral_one, measure_univ, mul_one, mul_comm]
    exact mul_le_mul_right (le_lintegral_sq _ _) _
  | (v', t) :: p :: vs, v, u, _, hd => by
    rw [emFilter, emFilter.eq_2 (f := fun u => ENNReal.ofReal ((u i - a) ^ 2)), mul_left_comm,
      ← lintegral_const_mul' _ _ ENNReal.ofReal_ne_top]
    refine mul_le_mul_right (lintegral_mono fun u' => ?_) _
    exact emFilter_sq e drift disp dt s hs i a (p :: vs) v' u' (by simp) fun p hp => hd p (List.mem_cons_of_mem _ hp)

theorem emFilter_meas (e : Fin d ⊕ Fin d ≃ Fin q) {drift : (Fin q → ℝ) → ℝ → (Fin q → ℝ)} (hd : ∀ t, Measurable fun z => drift z t)
    (disp : ℝ → ℝ) {dt : ℝ} (hdt : 0 ≤ dt) {f : (Fin d → ℝ) → ℝ≥0∞} (hf : Measurable f) :
    ∀ (vs : List ((Fin d → ℝ) × ℝ)) (v : Fin d → ℝ), Measurable (emFilter e drift disp dt f v vs)
  | [], _ => hf
  | (v', t) :: vs, v => by
    have hdr : Measurable fun u : Fin d → ℝ => drift (concat e u v) t :=
      (hd t).comp ((measurable_concat e).comp (measurable_id.prodMk measurable_const))
    have hV : Measurable fun u : Fin d → ℝ => v + dt • unpackV e (drift (concat e u v) t) :=
      measurable_pi_iff.2 fun i => measurable_const.add (((measurable_pi_apply _).comp hdr).const_mul dt)
    have hU : Measurable fun u : Fin d → ℝ => u + dt • unpackU e (drift (concat e u v) t) :=
      measurable_pi_iff.2 fun i => (measurable_pi_apply i).add (((measurable_pi_apply _).comp hdr).const_mul dt)
    have hld : Measurable fun m : Fin d → ℝ => logDens m ((dt * disp t ^ 2) • 1) v' := by
      unfold logDens quad mulVec dotProduct
      fun_prop
    have ih := emFilter_meas e hd disp hdt hf vs v'
    exact ((hld.comp hV).exp.ennreal_ofReal).mul (measurable_lintegral_mvn
      (PosSemidef.one.smul (mul_nonneg hdt (sq_nonneg _))) hU (f := fun p => emFilter e drift disp dt f v' vs p.2)
      (ih.comp measurable_snd))

theorem emFilter_pos (e : Fin d ⊕ Fin d ≃ Fin q) {drift : (Fin q → ℝ) → ℝ → (Fin q → ℝ)} (hd : ∀ t, Measurable fun z => drift z t)
    (disp : ℝ → ℝ) {dt : ℝ} (hdt : 0 ≤ dt) : ∀ (vs : List ((Fin d → ℝ) × ℝ)) (v u : Fin d → ℝ),
      0 < emFilter e drift disp dt (fun _ => 1) v vs u
  | [], _, _ => one_pos
  | (v', t) :: vs, v, u => by
    refine ENNReal.mul_pos (ENNReal.ofReal_pos.2 (Real.exp_pos _)).ne' (ne_of_gt ?_)
    rw [lintegral_pos_iff_support (emFilter_meas e hd disp hdt measurable_const vs v')]
    have : Function.support (emFilter e drift disp dt (fun _ => 1) v' vs) = Set.univ :=
      Set.eq_univ_of_forall fun u' => (emFilter_pos e hd disp hdt vs v' u').ne'
    rw [this, measure_univ]
    exact one_pos

theorem emFilter_bdd (e : Fin d ⊕ Fin d ≃ Fin q) (drift : (Fin q → ℝ) → ℝ → (Fin q → ℝ)) (disp : ℝ → ℝ) {dt : ℝ} (hdt : 0 < dt) :
    ∀ (vs : List ((Fin d → ℝ) × ℝ)), (∀ p ∈ vs, disp p.2 ≠ 0) → ∃ B : ℝ≥0∞, B ≠ ⊤ ∧
      ∀ v u : Fin d → ℝ, emFilter e drift disp dt (fun _ => 1) v vs u ≤ B
  | [], _ => ⟨1, ENNReal.one_ne_top, fun _ _ => le_rfl⟩
  | (v', t) :: vs, h => by
    obtain ⟨B, hB, hb⟩ := emFilter_bdd e drift disp hdt vs fun p hp => h p (List.mem_cons_of_mem _ hp)
    have hS : ((dt * disp t ^ 2) • (1 : Matrix (Fin d) (Fin d) ℝ)).PosDef :=
      PosDef.one.smul (mul_pos hdt (by have := h _ List.mem_cons_self; positivity))
    set S := (dt * disp t ^ 2) • (1 : Matrix (Fin d) (Fin d) ℝ)
    refine ⟨ENNReal.ofReal (Real.exp (-(1 / 2) * (Fintype.card (Fin d) * Real.log (2 * Real.pi) + Real.log S.det))) * B,
      ENNReal.mul_ne_top ENNReal.ofReal_ne_top hB, fun v u => ?_⟩
    refine mul_le_mul' (ENNReal.ofReal_le_ofReal (Real.exp_le_exp.2 ?_)) ?_
    · have := hS.inv.posSemidef.dotProduct_mulVec_nonneg (v' - (v + dt • unpackV e (drift (concat e u v) t)))
      rw [star_trivial] at this
      unfold logDens quad
      linarith
    · refine (lintegral_mono fun u' => hb v' u').trans ?_
      rw [lintegral_const, measure_univ, mul_one]

/-- **C67, `adhoc_kf` is not exact.**  The script says that this method need not be compared "since it should be exact".
For one observation (`d = 1`) and the default settings (`T = 1`, two steps, the default SDE), and for every path of the
data, the law it computes is not the law of the last state given the path under the Euler-Maruyama chain. -/
theorem C67_not_exact {cho : Matrix (Fin 1) (Fin 1) ℝ → Matrix (Fin 1) (Fin 1) ℝ} (hc : IsChol cho)
    {choJ : Matrix (Fin 2) (Fin 2) ℝ → Matrix (Fin 2) (Fin 2) ℝ} (hJ : IsChol choJ) (v0 v1 v2 : Fin 1 → ℝ) :
    let e := finSumFinEquiv (m := 1) (n := 1)
    let sde := Linear.SDE.const (-0.5) 1
    let joint := jointCov e (covFn 1 1 (fun _ : Fin 1 => 0) fun _ : Fin 1 => 0) 1
    let drift := reverseDrift choJ sde 0 1 0 joint
    let ref := forwardMCov sde 0 0 joint 1
    let kf := adhocKf cho e drift (reverseDispersion sde 1) (1 / 2) (refMean cho e ref.1 ref.2 v0) (refCov cho e ref.2)
      [v0, v1, v2] [0, 1 / 2, 1]
    let exact := fun f => ∫⁻ u, emFilter e drift (reverseDispersion sde 1) (1 / 2) f v0 [(v1, 0), (v2, 1 / 2)] u
      ∂(mvn (refMean cho e ref.1 ref.2 v0) (refCov cho e ref.2))
    exact (fun _ => 1) ≠ 0 ∧ exact (fun _ => 1) ≠ ⊤ ∧
      ¬ ∀ f : (Fin 1 → ℝ) → ℝ≥0∞, Measurable f → exact f = exact (fun _ => 1) * ∫⁻ u, f u ∂(mvn kf.1 kf.2) := by
  intro e sde joint drift ref kf exact
  have hd : ∀ t, Measurable fun z => drift z t := fun t => measurable_reverseDrift _ _ _ _ _ _ t
  have hdisp : ∀ t, reverseDispersion sde 1 t = 1 := fun _ => rfl
  have hpos : exact (fun _ => 1) ≠ 0 := by
    refine ne_of_gt ?_
    show 0 < ∫⁻ u, _ ∂_
    rw [lintegral_pos_iff_support (emFilter_meas e hd _ (by norm_num) measurable_const _ _)]
    have : Function.support (emFilter e drift (reverseDispersion sde 1) (1 / 2) (fun _ => 1) v0 [(v1, 0), (v2, 1 / 2)]) =
        Set.univ := Set.eq_univ_of_forall fun u' => (emFilter_pos e hd _ (by norm_num) _ v0 u').ne'
    rw [this, measure_univ]
    exact one_pos
  have hfin : exact (fun _ => 1) ≠ ⊤ := by
    obtain ⟨B, hB, hb⟩ := emFilter_bdd e drift (reverseDispersion sde 1) (dt := 1 / 2) (by norm_num)
      [(v1, 0), (v2, 1 / 2)] (fun p _ => by rw [hdisp]; exact one_ne_zero)
    refine ne_top_of_le_ne_top hB ((lintegral_mono fun u => hb v0 u).trans ?_)
    rw [lintegral_const, measure_univ, mul_one]
  refine ⟨hpos, hfin, fun hall => ?_⟩
  obtain ⟨hP, hlt⟩ := C67_variance hc hJ v0 v1 v2
  have hP1 : kf.2 = kf.2 0 0 • 1 := by
    ext i j
    rw [Subsingleton.elim i 0, Subsingleton.elim j 0]
    simp
  have hP0 : 0 ≤ kf.2 0 0 := hP.diag_pos.le
  have hsq : Measurable fun y : ℝ => ENNReal.ofReal ((y - kf.1 0) ^ 2) := by fun_prop
  have h1 := hall (fun u => ENNReal.ofReal ((u 0 - kf.1 0) ^ 2)) (hsq.comp (measurable_pi_apply 0))
  have h2 : ENNReal.ofReal (1 / 2) * exact (fun _ => 1) ≤ exact (fun u => ENNReal.ofReal ((u 0 - kf.1 0) ^ 2)) := by
    show _ * ∫⁻ u, _ ∂_ ≤ ∫⁻ u, _ ∂_
    rw [← lintegral_const_mul' _ _ ENNReal.ofReal_ne_top]
    refine lintegral_mono fun u => emFilter_sq e drift _ (1 / 2) (1 / 2) (by norm_num) 0 _ _ v0 u (by simp) fun p _ => ?_
    rw [hdisp]; norm_num
  have h3 : ∫⁻ u, ENNReal.ofReal ((u 0 - kf.1 0) ^ 2) ∂(mvn kf.1 kf.2) = ENNReal.ofReal (kf.2 0 0) := by
    rw [hP1, lintegral_mvn_coord _ hP0 0 hsq]
    have h4 : (gaussianReal 0 (kf.2 0 0).toNNReal).map (fun x => x + kf.1 0) = gaussianReal (kf.1 0) (kf.2 0 0).toNNReal := by
      rw [gaussianReal_map_add_const, zero_add]
    rw [← h4, lintegral_map hsq (by fun_prop)]
    simp only [add_sub_cancel_right, lintegral_sq_gaussian]
    simp [ENNReal.ofReal]
  rw [h1, h3, mul_comm] at h2
  have h5 := (ENNReal.mul_le_mul_iff_right hpos hfin).1 h2
  rw [ENNReal.ofReal_le_ofReal_iff hP0] at h5
  exact absurd h5 (not_le.2 hlt)

/-- **C67, the sampler.**  Given the noised data the draw is Gaussian around the filter mean; the covariance is that of
the filter only up to the order of the Cholesky factors (see C62). -/
theorem C67_sampler (cho cholesky : Matrix (Fin d) (Fin d) ℝ → Matrix (Fin d) (Fin d) ℝ) (e : Fin d ⊕ Fin d ≃ Fin q)
    (drift : (Fin q → ℝ) → ℝ → (Fin q → ℝ)) (disp : ℝ → ℝ) (dt : ℝ) (mRef : Fin q → ℝ) (covRef : Matrix (Fin q) (Fin q) ℝ)
    (sde : Linear.SDE) (ts : Arr1 ℝ) (y0 : Fin d → ℝ) (key : Key) {f : (Fin d → ℝ) → ℝ≥0∞} (hf : Measurable f) :
    (conditionalSampler cho cholesky e drift disp dt mRef covRef sde ts y0 key).E f =
      (Linear.simulatePath sde (split key 3 0) y0 ts).E fun path =>
        let kf := adhocKf cho e drift disp dt (refMean cho e mRef covRef path.reverse.head!) (refCov cho e covRef) path.reverse
          ts.toList
        ∫⁻ x, f x ∂(mvn kf.1 ((cholesky kf.2)ᵀ * cholesky kf.2)) := by
  simp only [conditionalSampler, Rand.E_bind]
  congr 1
  funext path
  set kf := adhocKf cho e drift disp dt (refMean cho e mRef covRef path.reverse.head!) (refCov cho e covRef) path.reverse
    ts.toList
  have h := stdNormal_affine kf.1 (cholesky kf.2)ᵀ
  rw [transpose_transpose] at h
  rw [← h, lintegral_map hf (measurable_affine _ _)]
  simp only [rowSampler, normal, Rand.E_bind, Rand.E_sample, Rand.pure_eq, Rand.E_ret, mulVec_transpose]

/-- Cholesky factorisations exist, and with them the program misses the exact law at the path `1, 2, 3`. -/
example : ∃ (cho : Matrix (Fin 1) (Fin 1) ℝ → Matrix (Fin 1) (Fin 1) ℝ) (choJ : Matrix (Fin 2) (Fin 2) ℝ → Matrix (Fin 2) (Fin 2) ℝ),
    IsChol cho ∧ IsChol choJ ∧
    let e := finSumFinEquiv (m := 1) (n := 1)
    let ref := forwardMCov (.const (-0.5) 1) 0 (0 : Fin 2 → ℝ) jc1 1
    (adhocKf cho e (drift1 choJ) (reverseDispersion (.const (-0.5) 1) 1) (1 / 2) (refMean cho e ref.1 ref.2 fun _ => 1)
      (refCov cho e ref.2) [fun _ => 1, fun _ => 2, fun _ => 3] [0, 1 / 2, 1]).2 0 0 < 1 / 2 := by
  obtain ⟨cho, hc⟩ := exists_isChol 1
  obtain ⟨choJ, hJ⟩ := exists_isChol 2
  exact ⟨cho, choJ, hc, hJ, (C67_variance hc hJ _ _ _).2⟩

/-- The drift of the script is affine, so that a step of the filter is a Bayes update; two observations, unit covariance. -/
example : ∃ (cho : Matrix (Fin 2) (Fin 2) ℝ → Matrix (Fin 2) (Fin 2) ℝ) (choJ : Matrix (Fin 4) (Fin 4) ℝ → Matrix (Fin 4) (Fin 4) ℝ),
    ∀ v vPrev : Fin 2 → ℝ, (scanBody cho (finSumFinEquiv (m := 2) (n := 2)) (reverseDrift choJ (.const (-0.5) 1) 0 1 0 1)
      (reverseDispersion (.const (-0.5) 1) 1) (1 / 2) (fun _ => 1, 1) (v, vPrev, 1 / 2)).2.PosDef := by
  obtain ⟨cho, hc⟩ := exists_isChol 2
  obtain ⟨choJ, hJ⟩ := exists_isChol 4
  have hQ : 0 ≤ (Linear.discretise (.const (-0.5) 1) (1 - 1 / 2) 0).2 := by
    simp only [Linear.discretise]
    have : Real.exp (2 * -0.5 * (1 - 1 / 2 - 0)) ≤ 1 := Real.exp_le_one_iff.2 (by norm_num)
    rw [show (1 : ℝ) ^ 2 / (2 * -0.5) = -1 by norm_num]
    linarith
  obtain ⟨A, c, hA, -⟩ := C61_reverse (t0 := 0) (T := 1) (t := 1 / 2) hJ (sde := .const (-0.5) 1) (by norm_num [Defined]) trivial hQ 0
    PosDef.one
  refine ⟨cho, choJ, fun v vPrev => ?_⟩
  exact (C67_step_partial (e := finSumFinEquiv (m := 2) (n := 2)) (disp := reverseDispersion (.const (-0.5) 1) 1) hc hA
    (by simp [reverseDispersion, Linear.dispersion]) _ PosDef.one vPrev (f := fun _ _ => 0) measurable_const).1 v

end Props
end Fbs
