import Verif.Lemmas.EulerOde
import Verif.Props.Simulators

/-!
# `euler_maruyama` with an affine drift: moments and their limits
-/

open MeasureTheory ProbabilityTheory Matrix Filter Set Topology
open scoped ENNReal NNReal BoundedContinuousFunction

namespace Fbs

namespace Spec

/-- The moments of Euler-Maruyama with step `h` from time `0`: the mean after `k` steps. -/
noncomputable def emMean {n : Type} (drift : (n → ℝ) → ℝ → (n → ℝ)) (h : ℝ) (m0 : n → ℝ) : ℕ → n → ℝ
  | 0 => m0
  | k + 1 => fun i => emMean drift h m0 k i + h * drift (emMean drift h m0 k) (k * h) i

/-- The covariance after `k` steps; `A t` is the linear part of the drift at `t`. -/
noncomputable def emCov {n : Type} [Fintype n] [DecidableEq n] (A : ℝ → Matrix n n ℝ) (disp : ℝ → ℝ) (h : ℝ)
    (P0 : Matrix n n ℝ) : ℕ → Matrix n n ℝ
  | 0 => P0
  | k + 1 => (1 + h • A (k * h)) * emCov A disp h P0 k * (1 + h • A (k * h))ᵀ + (h * disp (k * h) ^ 2) • 1

end Spec

namespace Props

open Jax Simulators Spec Mvn

variable {n : Type} [Fintype n] [DecidableEq n]

omit [Fintype n] [DecidableEq n] in
theorem emStep_unit (drift : (n → ℝ) → ℝ → (n → ℝ)) (disp : ℝ → ℝ) (x : n → ℝ) (t t' : ℝ)
    (w : Fin 1 → n → ℝ) : Simulators.emStep drift disp 1 x t t' (List.ofFn w) =
      fun k => x k + drift x t k * |t' - t| + disp t * Real.sqrt |t' - t| * w 0 k := by
  simp [Simulators.emStep, Simulators.substepTimes, Simulators.linspace, Simulators.emInner, Jax.scan]

theorem emCov_posSemidef (A : ℝ → Matrix n n ℝ) (disp : ℝ → ℝ) {h : ℝ} (hh : 0 ≤ h) {P0 : Matrix n n ℝ}
    (hP : P0.PosSemidef) : ∀ k, (emCov A disp h P0 k).PosSemidef
  | 0 => hP
  | k + 1 => by
    have h1 := (emCov_posSemidef A disp hh hP k).mul_mul_conjTranspose_same (1 + h • A (k * h))
    rw [conjTranspose_eq_transpose_of_trivial] at h1
    exact h1.add (PosSemidef.one.smul (mul_nonneg hh (sq_nonneg _)))

/-- One step maps a normal law to a normal law. -/
theorem emE_step_mvn {drift : (n → ℝ) → ℝ → (n → ℝ)} (disp : ℝ → ℝ) {t h : ℝ} (hh : 0 ≤ h) {A : Matrix n n ℝ} {c : n → ℝ}
    (hd : ∀ z, drift z t = A *ᵥ z + c) (m : n → ℝ) {P : Matrix n n ℝ} (hP : P.PosSemidef) {t' : ℝ} (ht : t' - t = h)
    {f : (n → ℝ) → ℝ≥0∞} (hf : Measurable f) :
    ∫⁻ x, emE drift disp 1 [(t, t')] x f ∂(mvn m P) =
      ∫⁻ x, f x ∂(mvn (fun i => m i + h * drift m t i)
        ((1 + h • A) * P * (1 + h • A)ᵀ + (h * disp t ^ 2) • 1)) := by
  have hmp : MeasurePreserving (fun w : Fin 1 → n → ℝ => w 0) (Measure.pi fun _ : Fin 1 => stdNormal n) (stdNormal n) :=
    measurePreserving_eval (fun _ : Fin 1 => stdNormal n) 0
  set s := disp t * Real.sqrt h with hs
  set a : n → ℝ := h • c with ha
  set R := 1 + h • A with hR
  have h1 : ∀ x, emE drift disp 1 [(t, t')] x f = ∫⁻ y, f ((a + R *ᵥ x) + y) ∂(mvn 0 ((h * disp t ^ 2) • 1)) := by
    intro x
    have e2 : (s • (1 : Matrix n n ℝ)) * (s • (1 : Matrix n n ℝ))ᵀ = (h * disp t ^ 2) • 1 := by
      rw [transpose_smul, transpose_one, smul_mul_smul, one_mul, hs]
      congr 1
      calc _ = disp t ^ 2 * (Real.sqrt h * Real.sqrt h) := by ring
        _ = _ := by rw [Real.mul_self_sqrt hh]; ring
    have hm0 : Measurable fun y => f ((a + R *ᵥ x) + y) := hf.comp (measurable_const.add measurable_id)
    rw [← e2, ← stdNormal_affine, lintegral_map hm0 (measurable_affine _ _)]
    have e3 : ∀ w : Fin 1 → n → ℝ, emE drift disp 1 [] (emStep drift disp 1 x t t' (List.ofFn w)) f =
        (fun z : n → ℝ => f ((a + R *ᵥ x) + (0 + (s • (1 : Matrix n n ℝ)) *ᵥ z))) (w 0) := by
      intro w
      rw [emStep_unit, ht, abs_of_nonneg hh, emE]
      refine congrArg f (funext fun i => ?_)
      rw [hd, ha, hR, hs]
      simp only [Pi.add_apply, Pi.smul_apply, smul_eq_mul, add_mulVec, one_mulVec, smul_mulVec, zero_add]
      ring
    simp only [emE] at e3 ⊢
    rw [lintegral_congr e3]
    exact hmp.lintegral_comp (hf.comp (measurable_const.add (measurable_affine _ _)))
  rw [lintegral_congr h1]
  have h2 := mvn_affine hP m a R
  have hRP : (R * P * Rᵀ).PosSemidef := by
    have := hP.mul_mul_conjTranspose_same R
    rwa [conjTranspose_eq_transpose_of_trivial] at this
  have hQ : ((h * disp t ^ 2) • (1 : Matrix n n ℝ)).PosSemidef := PosSemidef.one.smul (mul_nonneg hh (sq_nonneg _))
  have hmeas : Measurable fun x => ∫⁻ y, f (x + y) ∂(mvn (0 : n → ℝ) ((h * disp t ^ 2) • 1)) :=
    (hf.comp measurable_add).lintegral_prod_right'
  have h3 := lintegral_map (μ := mvn m P) hmeas (measurable_affine a R)
  rw [← h3, h2, mvn_conv hRP hQ _ _ hf]
  congr 2
  funext i
  rw [hd, ha, hR]
  simp only [Pi.add_apply, Pi.smul_apply, smul_eq_mul, add_mulVec, one_mulVec, smul_mulVec, Pi.zero_apply]
  ring

omit [DecidableEq n] in
theorem measurable_emE_one {drift : (n → ℝ) → ℝ → (n → ℝ)} (disp : ℝ → ℝ) {t t' : ℝ} {A : Matrix n n ℝ} {c : n → ℝ}
    (hd : ∀ z, drift z t = A *ᵥ z + c) {f : (n → ℝ) → ℝ≥0∞} (hf : Measurable f) :
    Measurable fun x => emE drift disp 1 [(t, t')] x f := by
  have hm : Measurable fun q : (n → ℝ) × (Fin 1 → n → ℝ) => Simulators.emStep drift disp 1 q.1 t t' (List.ofFn q.2) := by
    simp only [emStep_unit, hd]
    refine measurable_pi_iff.2 fun k => ?_
    have h1 : Measurable fun q : (n → ℝ) × (Fin 1 → n → ℝ) => q.1 k := (measurable_pi_apply k).comp measurable_fst
    have h2 : Measurable fun q : (n → ℝ) × (Fin 1 → n → ℝ) => (A *ᵥ q.1 + c) k := by
      have h : Measurable fun x : n → ℝ => (c + A *ᵥ x) k := (measurable_pi_apply k).comp (measurable_affine c A)
      simp only [add_comm (A *ᵥ _) c]
      exact h.comp measurable_fst
    have h3 : Measurable fun q : (n → ℝ) × (Fin 1 → n → ℝ) => q.2 0 k :=
      (measurable_pi_apply k).comp ((measurable_pi_apply 0).comp measurable_snd)
    exact (h1.add (h2.mul_const _)).add (h3.const_mul _)
  exact (hf.comp hm).lintegral_prod_right'

theorem emE_range_mvn {drift : (n → ℝ) → ℝ → (n → ℝ)} (disp : ℝ → ℝ) {h : ℝ} (hh : 0 ≤ h) (A : ℝ → Matrix n n ℝ)
    (m0 : n → ℝ) {P0 : Matrix n n ℝ} (hP : P0.PosSemidef) : ∀ (N : ℕ)
    (_ : ∀ k < N, ∃ c, ∀ z, drift z (k * h) = A (k * h) *ᵥ z + c) {f : (n → ℝ) → ℝ≥0∞} (_ : Measurable f),
    ∫⁻ x, emE drift disp 1 ((List.range N).map fun i : ℕ => ((i : ℝ) * h, ((i + 1 : ℕ) : ℝ) * h)) x f ∂(mvn m0 P0) =
      ∫⁻ x, f x ∂(mvn (emMean drift h m0 N) (emCov A disp h P0 N))
  | 0, _, f, _ => rfl
  | N + 1, hd, f, hf => by
    obtain ⟨c, hc⟩ := hd N (by omega)
    simp only [List.range_succ, List.map_append, List.map_cons, List.map_nil, emE_append]
    rw [emE_range_mvn disp hh A m0 hP N (fun k hk => hd k (by omega)) (measurable_emE_one disp hc hf),
      emE_step_mvn disp hh hc _ (emCov_posSemidef A disp hh hP N) (by push_cast; ring) hf]
    rfl

/-- The intervals of the grid `jnp.linspace(0, T, N + 1)`. -/
theorem linspace_intervals {T : ℝ} {N : ℕ} {ts : Arr1 ℝ} (hts : ts.toList = linspace 0 T (N + 1)) :
    ts.init.zip ts.2 = (List.range N).map fun i : ℕ => ((i : ℝ) * (T / N), ((i + 1 : ℕ) : ℝ) * (T / N)) := by
  have h1 : ts.init = ts.toList.dropLast := rfl
  have h2 : ts.2 = ts.toList.tail := rfl
  rw [h1, h2, hts]
  refine List.ext_getElem (by simp [linspace]) fun i h3 h4 => ?_
  simp [linspace]

/-! ### Convergence of the moments -/

/-- The linear part of an affine map. -/
def linPart (drift : (n → ℝ) → ℝ → (n → ℝ)) (t : ℝ) : Matrix n n ℝ :=
  Matrix.of fun i j => drift (Pi.single j 1) t i - drift 0 t i

theorem linPart_eq {drift : (n → ℝ) → ℝ → (n → ℝ)} {t : ℝ} {A : Matrix n n ℝ} {c : n → ℝ}
    (hd : ∀ z, drift z t = A *ᵥ z + c) : linPart drift t = A := by
  ext i j
  simp [linPart, hd, mulVec_single]

omit [DecidableEq n] in
theorem abs_mulVec_le {A : Matrix n n ℝ} {a : ℝ} (hA : ∀ i j, |A i j| ≤ a) (v : n → ℝ) (i : n) :
    |(A *ᵥ v) i| ≤ Fintype.card n * a * ‖v‖ := by
  have ha : ∀ j, |A i j * v j| ≤ a * ‖v‖ := fun j => by
    rw [abs_mul]
    exact mul_le_mul (hA i j) (norm_le_pi_norm v j) (abs_nonneg _) ((abs_nonneg _).trans (hA i j))
  calc |(A *ᵥ v) i| ≤ ∑ j, |A i j * v j| := Finset.abs_sum_le_sum_abs _ _
    _ ≤ ∑ _j : n, a * ‖v‖ := Finset.sum_le_sum fun j _ => ha j
    _ = _ := by rw [Finset.sum_const, Finset.card_univ, nsmul_eq_mul, mul_assoc]

omit [DecidableEq n] in
theorem abs_mul_le {A D : Matrix n n ℝ} {a d : ℝ} (hA : ∀ i j, |A i j| ≤ a) (hD : ∀ i j, |D i j| ≤ d) (i j : n) :
    |(A * D) i j| ≤ Fintype.card n * a * d := by
  rw [Matrix.mul_apply]
  calc _ ≤ ∑ k, |A i k * D k j| := Finset.abs_sum_le_sum_abs _ _
    _ ≤ ∑ _k : n, a * d := Finset.sum_le_sum fun k _ => by
        rw [abs_mul]
        exact mul_le_mul (hA i k) (hD k j) (abs_nonneg _) ((abs_nonneg _).trans (hA i k))
    _ = _ := by rw [Finset.sum_const, Finset.card_univ, nsmul_eq_mul, mul_assoc]

section Tendsto

variable {T : ℝ} {A : ℝ → Matrix n n ℝ} {c : ℝ → n → ℝ} {a : ℝ}

omit [DecidableEq n] in
theorem grid_mem (hT : 0 ≤ T) {N k : ℕ} (hN : 0 < N) (hk : k < N) : (k : ℝ) * (T / N) ∈ Icc 0 T := by
  have hN' : (0 : ℝ) < N := by exact_mod_cast hN
  refine ⟨by positivity, ?_⟩
  rw [← mul_div_assoc, div_le_iff₀ hN', mul_comm]
  exact mul_le_mul_of_nonneg_left (by exact_mod_cast hk.le) hT

omit [DecidableEq n] in
theorem emMean_tendsto (hT : 0 ≤ T) {drift : (n → ℝ) → ℝ → (n → ℝ)} (hd : ∀ t ∈ Icc 0 T, ∀ z, drift z t = A t *ᵥ z + c t)
    (ha : ∀ t ∈ Icc 0 T, ∀ i j, |A t i j| ≤ a) (ha0 : 0 ≤ a) {m : ℝ → n → ℝ}
    (hm : ∀ t ∈ Icc 0 T, ∀ i, HasDerivAt (fun t => m t i) ((A t *ᵥ m t + c t) i) t)
    (hA : ∀ i j, ContinuousOn (fun t => A t i j) (Icc 0 T)) (hcc : ∀ i, ContinuousOn (fun t => c t i) (Icc 0 T)) :
    Tendsto (fun N : ℕ => emMean drift (T / N) (m 0) N) atTop (𝓝 (m T)) := by
  have hmc : ∀ i, ContinuousOn (fun t => m t i) (Icc 0 T) := fun i t ht => (hm t ht i).continuousAt.continuousWithinAt
  refine euler_tendsto (Λ := T * (Fintype.card n * a)) (Δ := 0) hT (by positivity) le_rfl (Y := m)
    (Y' := fun t => A t *ᵥ m t + c t) ?_ ?_ (fun N k => emMean drift (T / N) (m 0) k) (fun _ => rfl) ?_
  · intro t ht
    exact hasDerivWithinAt_pi.2 fun i => (hm t ht i).hasDerivWithinAt
  · refine continuousOn_pi.2 fun i => ?_
    simp only [Pi.add_apply, mulVec, dotProduct]
    exact (continuousOn_finsetSum _ fun j _ => (hA i j).mul (hmc j)).add (hcc i)
  · intro N hN k hk
    have hs := grid_mem hT hN hk
    set s := (k : ℝ) * (T / N) with hsdef
    set y := emMean drift (T / N) (m 0) k with hy
    have hh : 0 ≤ T / (N : ℝ) := by positivity
    refine (pi_norm_le_iff_of_nonneg (by positivity)).2 fun i => ?_
    have e : (emMean drift (T / N) (m 0) (k + 1) - (m s + (T / (N : ℝ)) • (A s *ᵥ m s + c s))) i =
        (y - m s) i + T / N * (A s *ᵥ (y - m s)) i := by
      have : emMean drift (T / N) (m 0) (k + 1) i = y i + T / N * drift y s i := rfl
      rw [Pi.sub_apply, this, hd s hs, mulVec_sub]
      simp only [Pi.add_apply, Pi.smul_apply, smul_eq_mul, Pi.sub_apply]
      ring
    rw [e, Real.norm_eq_abs]
    have h1 := abs_mulVec_le (ha s hs) (y - m s) i
    have h2 : |(y - m s) i| ≤ ‖y - m s‖ := norm_le_pi_norm (y - m s) i
    calc _ ≤ |(y - m s) i| + T / N * |(A s *ᵥ (y - m s)) i| := by
          refine (abs_add_le _ _).trans (le_of_eq ?_)
          rw [abs_mul, abs_of_nonneg hh]
      _ ≤ ‖y - m s‖ + T / N * (Fintype.card n * a * ‖y - m s‖) := by gcongr
      _ = _ := by ring

theorem emCov_tendsto (hT : 0 ≤ T) {disp : ℝ → ℝ}
    (ha : ∀ t ∈ Icc 0 T, ∀ i j, |A t i j| ≤ a) (ha0 : 0 ≤ a) {P : ℝ → Matrix n n ℝ}
    (hP : ∀ t ∈ Icc 0 T, ∀ i j, HasDerivAt (fun t => P t i j)
      ((A t * P t + P t * (A t)ᵀ + disp t ^ 2 • (1 : Matrix n n ℝ)) i j) t)
    (hA : ∀ i j, ContinuousOn (fun t => A t i j) (Icc 0 T)) (hg : ContinuousOn disp (Icc 0 T)) (i j : n) :
    Tendsto (fun N : ℕ => emCov A disp (T / N) (P 0) N i j) atTop (𝓝 (P T i j)) := by
  have hPc : ∀ i j, ContinuousOn (fun t => P t i j) (Icc 0 T) := fun i j t ht =>
    (hP t ht i j).continuousAt.continuousWithinAt
  have hPc' : ContinuousOn (fun t => (fun i j => P t i j : n → n → ℝ)) (Icc 0 T) :=
    continuousOn_pi.2 fun i => continuousOn_pi.2 fun j => hPc i j
  obtain ⟨B, hB⟩ := isCompact_Icc.exists_bound_of_continuousOn hPc'
  have hB0 : 0 ≤ B := (norm_nonneg _).trans (hB 0 ⟨le_rfl, hT⟩)
  set q := (Fintype.card n : ℝ) * a with hq
  have hq0 : 0 ≤ q := by positivity
  have key := euler_tendsto (E := n → n → ℝ) (Λ := 2 * T * q + T ^ 2 * q ^ 2) (Δ := T ^ 2 * q ^ 2 * B) hT (by positivity)
    (by positivity) (Y := fun t i j => P t i j)
    (Y' := fun t i j => (A t * P t + P t * (A t)ᵀ + disp t ^ 2 • (1 : Matrix n n ℝ)) i j) ?_ ?_
    (fun N k i j => emCov A disp (T / N) (P 0) k i j) (fun _ => rfl) ?_
  · exact (tendsto_pi_nhds.1 (tendsto_pi_nhds.1 key i) j)
  · intro t ht
    exact hasDerivWithinAt_pi.2 fun i => hasDerivWithinAt_pi.2 fun j => (hP t ht i j).hasDerivWithinAt
  · refine continuousOn_pi.2 fun i => continuousOn_pi.2 fun j => ?_
    simp only [Matrix.add_apply, Matrix.mul_apply, Matrix.smul_apply, smul_eq_mul, transpose_apply]
    exact ((continuousOn_finsetSum _ fun k _ => (hA i k).mul (hPc k j)).add
      (continuousOn_finsetSum _ fun k _ => (hPc i k).mul (hA j k))).add ((hg.pow 2).mul continuousOn_const)
  · intro N hN k hk
    have hs := grid_mem hT hN hk
    set s := (k : ℝ) * (T / N) with hsdef
    set y := emCov A disp (T / N) (P 0) k with hy
    set h := T / (N : ℝ) with hhdef
    have hN' : (0 : ℝ) < N := by exact_mod_cast hN
    have hh : 0 ≤ h := by positivity
    set dn := ‖(fun i j => y i j) - (fun i j => P s i j : n → n → ℝ)‖ with hdn
    have hd : ∀ i j, |(y - P s) i j| ≤ dn := fun i j =>
      (norm_le_pi_norm (((fun i j => y i j) - (fun i j => P s i j) : n → n → ℝ) i) j).trans
        (norm_le_pi_norm ((fun i j => y i j) - (fun i j => P s i j) : n → n → ℝ) i)
    have hPb : ∀ i j, |P s i j| ≤ B := fun i j =>
      ((norm_le_pi_norm ((fun i j => P s i j : n → n → ℝ) i) j).trans
        (norm_le_pi_norm (fun i j => P s i j : n → n → ℝ) i)).trans (hB s hs)
    have hAt : ∀ i j, |(A s)ᵀ i j| ≤ a := fun i j => ha s hs j i
    refine (pi_norm_le_iff_of_nonneg (by positivity)).2 fun i => (pi_norm_le_iff_of_nonneg (by positivity)).2 fun j => ?_
    have e0 : emCov A disp h (P 0) (k + 1) - (P s + h • (A s * P s + P s * (A s)ᵀ + disp s ^ 2 • (1 : Matrix n n ℝ))) =
        (y - P s) + h • (A s * (y - P s)) + h • ((y - P s) * (A s)ᵀ) + h ^ 2 • (A s * ((y - P s) * (A s)ᵀ)) +
          h ^ 2 • (A s * (P s * (A s)ᵀ)) := by
      have : emCov A disp h (P 0) (k + 1) = (1 + h • A s) * y * (1 + h • A s)ᵀ + (h * disp s ^ 2) • 1 := rfl
      rw [this]
      simp only [transpose_add, transpose_one, transpose_smul, add_mul, mul_add, one_mul, mul_one, smul_mul_assoc,
        mul_smul_comm, smul_add, smul_smul, Matrix.mul_assoc, mul_sub, sub_mul, smul_sub, sq]
      abel
    have e := congrFun (congrFun e0 i) j
    simp only [Matrix.sub_apply, Matrix.add_apply, Matrix.smul_apply, smul_eq_mul] at e
    simp only [Pi.sub_apply, Pi.add_apply, Pi.smul_apply, smul_eq_mul, Matrix.add_apply, Matrix.smul_apply,
      Real.norm_eq_abs]
    rw [e]
    have b0 := hd i j
    rw [Matrix.sub_apply] at b0
    have b1 : |(A s * (y - P s)) i j| ≤ q * dn := abs_mul_le (ha s hs) hd i j
    have c2 : ∀ i j, |((y - P s) * (A s)ᵀ) i j| ≤ q * dn := fun i j =>
      (abs_mul_le hd hAt i j).trans (le_of_eq (by rw [hq]; ring))
    have c3 : ∀ i j, |(P s * (A s)ᵀ) i j| ≤ q * B := fun i j =>
      (abs_mul_le hPb hAt i j).trans (le_of_eq (by rw [hq]; ring))
    have b3 : |(A s * ((y - P s) * (A s)ᵀ)) i j| ≤ q * (q * dn) := abs_mul_le (ha s hs) c2 i j
    have b4 : |(A s * (P s * (A s)ᵀ)) i j| ≤ q * (q * B) := abs_mul_le (ha s hs) c3 i j
    have b2 := c2 i j
    calc _ ≤ |y i j - P s i j| + h * |(A s * (y - P s)) i j| + h * |((y - P s) * (A s)ᵀ) i j| +
          h ^ 2 * |(A s * ((y - P s) * (A s)ᵀ)) i j| + h ^ 2 * |(A s * (P s * (A s)ᵀ)) i j| := by
          refine (abs_add_le _ _).trans (add_le_add ((abs_add_le _ _).trans (add_le_add ((abs_add_le _ _).trans
            (add_le_add ((abs_add_le _ _).trans (add_le_add le_rfl ?_)) ?_)) ?_)) ?_) <;>
          rw [abs_mul, abs_of_nonneg (by positivity)]
      _ ≤ dn + h * (q * dn) + h * (q * dn) + h ^ 2 * (q * (q * dn)) + h ^ 2 * (q * (q * B)) := by gcongr
      _ ≤ (1 + (2 * T * q + T ^ 2 * q ^ 2) / N) * dn + T ^ 2 * q ^ 2 * B / N ^ 2 := by
          have hN1 : (1 : ℝ) ≤ N := by exact_mod_cast hN
          have h2 : h ^ 2 = T ^ 2 / N ^ 2 := by rw [hhdef, div_pow]
          have h3 : T ^ 2 / (N : ℝ) ^ 2 ≤ T ^ 2 / N := by
            refine div_le_div_of_nonneg_left (by positivity) hN' ?_
            nlinarith
          have h4 : h ^ 2 * (q * (q * dn)) ≤ T ^ 2 / N * (q * (q * dn)) := by
            rw [h2]; exact mul_le_mul_of_nonneg_right h3 (by positivity)
          have h5 : (1 + (2 * T * q + T ^ 2 * q ^ 2) / N) * dn + T ^ 2 * q ^ 2 * B / N ^ 2 =
            dn + h * (q * dn) + h * (q * dn) + T ^ 2 / N * (q * (q * dn)) + h ^ 2 * (q * (q * B)) := by
            rw [h2, hhdef]; ring
          rw [h5]
          linarith

end Tendsto

omit [DecidableEq n] in
theorem posSemidef_of_tendsto {S : ℕ → Matrix n n ℝ} {S0 : Matrix n n ℝ} (hS : ∀ k, (S k).PosSemidef)
    (h : ∀ i j, Tendsto (fun k => S k i j) atTop (𝓝 (S0 i j))) : S0.PosSemidef := by
  refine PosSemidef.of_dotProduct_mulVec_nonneg ?_ fun x => ?_
  · ext i j
    have e : ∀ k, S k j i = S k i j := fun k => by simpa using congrFun (congrFun (hS k).1 i) j
    have := tendsto_nhds_unique (h j i) ((h i j).congr fun k => (e k).symm)
    simpa using this
  · have ht : Tendsto (fun k => star x ⬝ᵥ S k *ᵥ x) atTop (𝓝 (star x ⬝ᵥ S0 *ᵥ x)) := by
      simp only [dotProduct, mulVec]
      exact tendsto_finsetSum _ fun i _ => (tendsto_finsetSum _ fun j _ => (h i j).mul_const _).const_mul _
    exact ge_of_tendsto' ht fun k => (hS k).dotProduct_mulVec_nonneg x

end Props
end Fbs
