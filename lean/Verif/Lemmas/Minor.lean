import Verif.Props.CsmcLaw
import Verif.Props.ForceMove
import Verif.Props.Resampling
import Verif.Lemmas.GibbsLaw

/-!
# Lower bounds for conditional SMC

Whatever the reference trajectory is, the conditional pass gives every path at least a fixed multiple of its
mass under the target, if the potentials are bounded above.
-/

open MeasureTheory ProbabilityTheory
open scoped ENNReal

namespace Fbs

namespace Rand

variable {α : Type}

theorem E_add_le (p : Rand α) (f g : α → ℝ≥0∞) : E p f + E p g ≤ E p fun a => f a + g a := by
  induction p with
  | ret a => exact le_rfl
  | draw k β' S μ c ih => exact (le_lintegral_add _ _).trans (lintegral_mono fun b => ih b)

theorem E_mono_leaves {P : α → Prop} {p : Rand α} (hp : p.Leaves P) {f g : α → ℝ≥0∞} (h : ∀ a, P a → f a ≤ g a) :
    p.E f ≤ p.E g := by
  induction p with
  | ret a => exact h a hp
  | draw k β' S μ c ih => exact lintegral_mono fun b => ih b (hp b)

end Rand

namespace Csmc

open Jax Spec Props

variable {N : ℕ} {U V : Type} [MeasurableSpace U]

/-- Marginal of a finite product law. -/
theorem sum_prod_marg {κ : Fin N → Fin N → ℝ≥0∞} (h : ∀ m, ∑ a, κ m a = 1) (m : Fin N) (C : Fin N → ℝ≥0∞) :
    ∑ A : Fin N → Fin N, (∏ j, κ j (A j)) * C (A m) = ∑ a, κ m a * C a := by
  rw [sum_update κ m (h m)]
  simp only [Function.update_self]
  rw [← Finset.sum_mul, sum_prod_one h, one_mul]

theorem one_sub_jProb [NeZero N] {w : Fin N → ℝ} (hw : Weights w) {i m : Fin N} (hm : m ≠ i) :
    1 - 1 / (N : ℝ) ≤ ∑ J ∈ Finset.univ.erase m, CsmcResampling.jProb w i J := by
  have hj := jProb_weights hw i
  have hM := vmax_pos hw.nonneg (Weights.total_pos hw)
  have hN : (0 : ℝ) < N := by exact_mod_cast Nat.pos_of_ne_zero (NeZero.ne N)
  have h1 := Finset.add_sum_erase Finset.univ (CsmcResampling.jProb w i) (Finset.mem_univ m)
  rw [hj.sum_one, jProb_apply hw, if_neg hm] at h1
  have h2 : (1 - w m / vmax w) / N ≤ 1 / N := by
    have : 0 ≤ w m / vmax w := div_nonneg (hw.nonneg m) hM.le
    gcongr
    linarith
  linarith

theorem killMass_rest [NeZero N] {w : Fin N → ℝ} (hw : Weights w) {i a : Fin N} (ha : a ≠ i) :
    ENNReal.ofReal (((N : ℝ) - 1) * w a) ≤ ∑ m ∈ Finset.univ.erase i, killMass w m a := by
  have hM := vmax_pos hw.nonneg (Weights.total_pos hw)
  have hle : ∀ m, w m / vmax w ≤ 1 := fun m => (div_le_one hM).2 (vmax_ge w m)
  have hnn : ∀ m, 0 ≤ w m / vmax w := fun m => div_nonneg (hw.nonneg m) hM.le
  have hr : ∀ m, killMass w m a
      = ENNReal.ofReal ((if a = m then w m / vmax w else 0) + (1 - w m / vmax w) * w a) := by
    intro m
    unfold killMass
    rw [cat_normalised hw, ← ENNReal.ofReal_mul (by linarith [hle m]), ENNReal.ofReal_add]
    · split_ifs <;> simp
    · split_ifs
      · exact hnn m
      · exact le_rfl
    · exact mul_nonneg (by linarith [hle m]) (hw.nonneg a)
  simp only [hr]
  rw [← ENNReal.ofReal_sum_of_nonneg]
  · refine ENNReal.ofReal_le_ofReal ?_
    rw [Finset.sum_add_distrib, Finset.sum_ite_eq, if_pos (Finset.mem_erase.2 ⟨ha, Finset.mem_univ a⟩),
      ← Finset.sum_mul, Finset.sum_sub_distrib, ← Finset.sum_div]
    have hc : ∑ m ∈ Finset.univ.erase i, (1 : ℝ) = N - 1 := by
      have h := Finset.add_sum_erase Finset.univ (fun _ : Fin N => (1 : ℝ)) (Finset.mem_univ i)
      simp only [Finset.sum_const, Finset.card_univ, Fintype.card_fin, nsmul_eq_mul, mul_one] at h ⊢
      linarith
    have hs : ∑ m ∈ Finset.univ.erase i, w m = 1 - w i := by
      have := Finset.add_sum_erase Finset.univ w (Finset.mem_univ i)
      rw [hw.sum_one] at this
      linarith
    rw [hc, hs]
    have : w a / vmax w + ((N - 1) - (1 - w i) / vmax w) * w a = ((N : ℝ) - 1) * w a + w a * (w i / vmax w) := by
      ring
    rw [this]
    linarith [mul_nonneg (hw.nonneg a) (hnn i)]
  · intro m _
    refine add_nonneg ?_ (mul_nonneg (by linarith [hle m]) (hw.nonneg a))
    split_ifs
    · exact hnn m
    · exact le_rfl

/-- One conditional resampling step spreads the mass: whatever index `i` is imposed at position `j`, the other
positions hold every other index `a` with total probability at least `κ w_a`. -/
def Spreads (res : CondResampling N) (κ : ℝ) : Prop :=
  ∀ key w, Weights w → ∀ i j (C : Fin N → ℝ≥0∞),
    ENNReal.ofReal κ * ∑ a ∈ Finset.univ.erase i, ENNReal.ofReal (w a) * C a
      ≤ (res key w i j true).E fun A => ∑ k ∈ Finset.univ.erase j, C (A k)

theorem spreads_killing [NeZero N] : Spreads (CsmcResampling.killing (n := N)) (((N : ℝ) - 1) ^ 2 / N) := by
  intro key w hw i j C
  have hT := Weights.total_pos hw
  have hN : (0 : ℝ) < N := by exact_mod_cast Nat.pos_of_ne_zero (NeZero.ne N)
  have hN1 : (0 : ℝ) ≤ N - 1 := by
    have : (1 : ℝ) ≤ N := by exact_mod_cast Nat.pos_of_ne_zero (NeZero.ne N)
    linarith
  have hj := jProb_weights hw i
  rw [E_csmc_killing_cond hw]
  have h1 : ∀ (J : Fin N) (A : Fin N → Fin N),
      ∑ k ∈ Finset.univ.erase j, C (roll (Function.update A J i) ((j : ℤ) - (J : ℤ)) k)
        = ∑ m ∈ Finset.univ.erase J, C (A m) := by
    intro J A
    simp only [roll_eq]
    refine Finset.sum_bij' (fun k _ => k - (j - J)) (fun m _ => m + (j - J)) ?_ ?_ ?_ ?_ ?_
    · intro k hk
      simp only [Finset.mem_erase, Finset.mem_univ, and_true] at hk ⊢
      intro h
      exact hk (by rw [sub_eq_iff_eq_add.1 h]; abel)
    · intro m hm
      simp only [Finset.mem_erase, Finset.mem_univ, and_true] at hm ⊢
      intro h
      exact hm (by rw [eq_sub_of_add_eq h]; abel)
    · intro k _; abel
    · intro m _; abel
    · intro k hk
      rw [Function.update_of_ne]
      simp only [Finset.mem_erase, Finset.mem_univ, and_true] at hk
      intro h
      exact hk (by rw [sub_eq_iff_eq_add.1 h]; abel)
  simp only [h1]
  have h2 : ∀ J : Fin N, ∑ A : Fin N → Fin N, ∑ m ∈ Finset.univ.erase J,
      (∏ m, killMass w m (A m)) * C (A m) = ∑ m ∈ Finset.univ.erase J, ∑ a, killMass w m a * C a := by
    intro J
    rw [Finset.sum_comm]
    exact Finset.sum_congr rfl fun m _ => sum_prod_marg (sum_killMass hw.nonneg hT) m C
  have h3 : ∑ J, ENNReal.ofReal (CsmcResampling.jProb w i J) *
        ∑ A : Fin N → Fin N, ∑ m ∈ Finset.univ.erase J, (∏ m, killMass w m (A m)) * C (A m)
      = ∑ m, (∑ J ∈ Finset.univ.erase m, ENNReal.ofReal (CsmcResampling.jProb w i J)) *
          ∑ a, killMass w m a * C a := by
    simp only [h2]
    have e1 : ∀ J : Fin N, ENNReal.ofReal (CsmcResampling.jProb w i J) *
        ∑ m ∈ Finset.univ.erase J, ∑ a, killMass w m a * C a
        = ∑ m ∈ Finset.univ.erase J, ENNReal.ofReal (CsmcResampling.jProb w i J) *
          ∑ a, killMass w m a * C a := fun J => Finset.mul_sum _ _ _
    simp only [e1, Finset.sum_mul]
    rw [Finset.sum_sigma', Finset.sum_sigma']
    refine Finset.sum_bij' (fun x _ => ⟨x.2, x.1⟩) (fun x _ => ⟨x.2, x.1⟩) ?_ ?_ ?_ ?_ ?_
    · rintro ⟨a, b⟩ h
      simp only [Finset.mem_sigma, Finset.mem_univ, Finset.mem_erase, true_and, and_true] at h ⊢
      exact Ne.symm h
    · rintro ⟨a, b⟩ h
      simp only [Finset.mem_sigma, Finset.mem_univ, Finset.mem_erase, true_and, and_true] at h ⊢
      exact Ne.symm h
    · intros; rfl
    · intros; rfl
    · intros; rfl
  have h4 : ∀ A : Fin N → Fin N, ∀ J : Fin N, (∏ m, killMass w m (A m)) * ∑ m ∈ Finset.univ.erase J, C (A m)
      = ∑ m ∈ Finset.univ.erase J, (∏ m, killMass w m (A m)) * C (A m) := fun A J => Finset.mul_sum _ _ _
  simp only [h4]
  rw [h3]
  calc ENNReal.ofReal (((N : ℝ) - 1) ^ 2 / N) * ∑ a ∈ Finset.univ.erase i, ENNReal.ofReal (w a) * C a
      = ENNReal.ofReal (1 - 1 / (N : ℝ)) * ∑ a ∈ Finset.univ.erase i,
          ENNReal.ofReal (((N : ℝ) - 1) * w a) * C a := by
        rw [Finset.mul_sum, Finset.mul_sum]
        refine Finset.sum_congr rfl fun a _ => ?_
        rw [← mul_assoc, ← mul_assoc, ← ENNReal.ofReal_mul (by positivity), ← ENNReal.ofReal_mul]
        · congr 2
          field_simp
        · have : 1 - 1 / (N : ℝ) = (N - 1) / N := by field_simp
          rw [this]; positivity
    _ ≤ ENNReal.ofReal (1 - 1 / (N : ℝ)) * ∑ a ∈ Finset.univ.erase i,
          (∑ m ∈ Finset.univ.erase i, killMass w m a) * C a := by
        gcongr with a ha
        exact killMass_rest hw (Finset.ne_of_mem_erase ha)
    _ = ∑ m ∈ Finset.univ.erase i, ENNReal.ofReal (1 - 1 / (N : ℝ)) *
          ∑ a ∈ Finset.univ.erase i, killMass w m a * C a := by
        rw [← Finset.mul_sum]
        simp only [Finset.sum_mul]
        rw [Finset.sum_comm]
    _ ≤ ∑ m ∈ Finset.univ.erase i, (∑ J ∈ Finset.univ.erase m, ENNReal.ofReal (CsmcResampling.jProb w i J)) *
          ∑ a, killMass w m a * C a := by
        refine Finset.sum_le_sum fun m hm => mul_le_mul' ?_ ?_
        · rw [← ENNReal.ofReal_sum_of_nonneg fun J _ => hj.nonneg J]
          exact ENNReal.ofReal_le_ofReal (one_sub_jProb hw (Finset.ne_of_mem_erase hm))
        · exact Finset.sum_le_sum_of_subset (Finset.erase_subset _ _)
    _ ≤ _ := Finset.sum_le_sum_of_subset (Finset.erase_subset _ _)

theorem spreads_multinomial [NeZero N] : Spreads (CsmcResampling.multinomial (n := N)) ((N : ℝ) - 1) := by
  intro key w hw i j C
  have hN1 : (0 : ℝ) ≤ N - 1 := by
    have : (1 : ℝ) ≤ N := by exact_mod_cast Nat.pos_of_ne_zero (NeZero.ne N)
    linarith
  have hsum : ∑ a, ENNReal.ofReal (w a) = 1 := by
    rw [← ENNReal.ofReal_sum_of_nonneg fun m _ => hw.nonneg m, hw.sum_one]; simp
  rw [E_csmc_multinomial hw]
  have h0 : ∀ A : Fin N → Fin N, (∏ m, ENNReal.ofReal (w (A m))) *
      ∑ k ∈ Finset.univ.erase j, C ((if true then Function.update A j i else A) k)
      = ∑ k ∈ Finset.univ.erase j, (∏ m, ENNReal.ofReal (w (A m))) * C (Function.update A j i k) := fun A => by
    rw [Finset.mul_sum]
    rfl
  rw [Finset.sum_congr rfl fun A _ => h0 A]
  rw [Finset.sum_comm]
  have h1 : ∀ k ∈ Finset.univ.erase j, ∑ A : Fin N → Fin N, (∏ m, ENNReal.ofReal (w (A m))) *
      C (Function.update A j i k) = ∑ a, ENNReal.ofReal (w a) * C a := by
    intro k hk
    simp only [Function.update_of_ne (Finset.ne_of_mem_erase hk)]
    exact sum_prod_marg (κ := fun _ a => ENNReal.ofReal (w a)) (fun _ => hsum) k C
  rw [Finset.sum_congr rfl h1, Finset.sum_const, Finset.card_erase_of_mem (Finset.mem_univ _),
    Finset.card_univ, Fintype.card_fin, nsmul_eq_mul]
  have h2 : ENNReal.ofReal ((N : ℝ) - 1) = ((N - 1 : ℕ) : ℝ≥0∞) := by
    rw [← ENNReal.ofReal_natCast, Nat.cast_sub (Nat.pos_of_ne_zero (NeZero.ne N))]
    simp
  rw [h2]
  exact mul_le_mul' le_rfl (Finset.sum_le_sum_of_subset (Finset.erase_subset _ _))

/-- A normalised weight is bounded below if the log weights are bounded above. -/
theorem le_normalise [NeZero N] {lw : Fin N → ℝ} {β : ℝ} (h : ∀ i, lw i ≤ β) (i : Fin N) :
    Real.exp (-β) / N * Real.exp (lw i) ≤ normalise lw i := by
  have hN : (0 : ℝ) < N := by exact_mod_cast Nat.pos_of_ne_zero (NeZero.ne N)
  rw [normalise_eq]
  have hs : ∑ j, Real.exp (lw j) ≤ N * Real.exp β := by
    have := Finset.sum_le_card_nsmul Finset.univ (fun j => Real.exp (lw j)) (Real.exp β)
      fun j _ => Real.exp_le_exp.2 (h j)
    simpa using this
  have h1 : Real.exp (-β) / N * Real.exp (lw i) = Real.exp (lw i) / (N * Real.exp β) := by
    rw [Real.exp_neg]
    field_simp
  rw [h1]
  exact div_le_div_of_nonneg_left (Real.exp_pos _).le (sum_exp_pos lw) hs

/-- The conditional pass gives every path at least a fixed multiple of its mass under the target. -/
theorem le_Cf [NeZero N] {res : CondResampling N} (sch : ExactScheme res) {κ : ℝ} (hκ : Spreads res κ) {β : ℝ}
    {θ : ℝ≥0∞} {Ψ : St N U → Fin N → ℝ≥0∞} {φ : List U → ℝ≥0∞}
    (hΨ : ∀ (st : St N U) b, Weights st.W →
      θ * ∑ a ∈ Finset.univ.erase b, ENNReal.ofReal (st.W a) * φ ((st.P a).map Prod.fst) ≤ Ψ st b) :
    ∀ (ss : List (FKStep U)) (l : List (U × Fin N)), l.length = ss.length → (∀ s ∈ ss, ∀ u, s.g u ≤ β) →
    ∀ (st : St N U) (b : Fin N), Weights st.W →
      θ * ENNReal.ofReal (κ * (Real.exp (-β) / N)) ^ ss.length *
          ∑ a ∈ Finset.univ.erase b, ENNReal.ofReal (st.W a) *
            pathInt ss (st.x a) (fun l => φ ((st.P a).map Prod.fst ++ l))
        ≤ Cf sch.cond Ψ ss l st b := by
  intro ss
  induction ss with
  | nil =>
    intro l hl _ st b hW
    rw [List.length_eq_zero_iff.1 hl]
    simpa [pathInt, Cf] using hΨ st b hW
  | cons s ss ih =>
    intro l hl hβ st b hW
    obtain ⟨⟨u', b'⟩, l, rfl⟩ := List.exists_cons_of_length_eq_add_one hl
    have hN : (0 : ℝ) < N := by exact_mod_cast Nat.pos_of_ne_zero (NeZero.ne N)
    have he : 0 ≤ Real.exp (-β) / N := by positivity
    simp only [Cf, List.length_cons]
    set ρ := ENNReal.ofReal (κ * (Real.exp (-β) / N)) with hρ
    let C : Fin N → ℝ≥0∞ := fun a => pathInt (s :: ss) (st.x a) (fun l => φ ((st.P a).map Prod.fst ++ l))
    -- one step
    have hstep : ∀ A : Fin N → Fin N,
        θ * ρ ^ ss.length * (ENNReal.ofReal (Real.exp (-β) / N) * ∑ k ∈ Finset.univ.erase b', C (A k))
          ≤ ∫⁻ y, Cf sch.cond Ψ ss l (next s st A (Function.update y b' u')) b'
              ∂(Measure.pi fun i => s.M (st.x (A i))) := by
      intro A
      have h1 : ∀ y : Fin N → U, θ * ρ ^ ss.length * ∑ k ∈ Finset.univ.erase b',
          ENNReal.ofReal (Real.exp (-β) / N) * (ENNReal.ofReal (Real.exp (s.g (st.x (A k)))) *
            pathInt ss (y k) (fun l => φ ((st.P (A k)).map Prod.fst ++ y k :: l)))
          ≤ Cf sch.cond Ψ ss l (next s st A (Function.update y b' u')) b' := by
        intro y
        refine le_trans ?_ (ih l (by simpa using hl) (fun s' h => hβ s' (List.mem_cons_of_mem _ h)) _ b'
          (normalise_weights _))
        refine mul_le_mul' le_rfl (Finset.sum_le_sum fun k hk => ?_)
        rw [← mul_assoc, ← ENNReal.ofReal_mul he]
        have hk' := Finset.ne_of_mem_erase hk
        refine mul_le_mul' (ENNReal.ofReal_le_ofReal ?_) ?_
        · exact le_normalise (lw := fun i => s.g (st.x (A i))) (fun i => hβ s List.mem_cons_self _) k
        · simp [next, Function.update_of_ne hk']
      refine le_trans ?_ (lintegral_mono h1)
      refine le_trans ?_ (lintegral_const_mul_le _ _)
      gcongr
      rw [Finset.mul_sum]
      have hsum : ∀ (T : Finset (Fin N)) (f : Fin N → (Fin N → U) → ℝ≥0∞) (μ : Measure (Fin N → U)),
          ∑ k ∈ T, ∫⁻ y, f k y ∂μ ≤ ∫⁻ y, ∑ k ∈ T, f k y ∂μ := by
        intro T f μ
        classical
        induction T using Finset.induction_on with
        | empty => simp
        | insert k T hk ih' =>
          simp only [Finset.sum_insert hk]
          exact (add_le_add le_rfl ih').trans (le_lintegral_add _ _)
      refine le_trans (Finset.sum_le_sum fun k _ => ?_) (hsum _ _ _)
      refine le_trans ?_ (lintegral_const_mul_le _ _)
      gcongr
      refine le_trans ?_ (lintegral_const_mul_le _ _)
      show ENNReal.ofReal (Real.exp (s.g (st.x (A k)))) * ∫⁻ u', pathInt ss u'
        (fun l => φ ((st.P (A k)).map Prod.fst ++ u' :: l)) ∂(s.M (st.x (A k))) ≤ _
      gcongr
      have hmp := measurePreserving_eval (fun i => s.M (st.x (A i))) k
      conv_lhs => rw [← hmp.map_eq]
      exact lintegral_map_le _ _
    calc θ * ρ ^ (ss.length + 1) * ∑ a ∈ Finset.univ.erase b, ENNReal.ofReal (st.W a) * C a
        ≤ θ * ρ ^ ss.length * ENNReal.ofReal (Real.exp (-β) / N) *
            (ENNReal.ofReal κ * ∑ a ∈ Finset.univ.erase b, ENNReal.ofReal (st.W a) * C a) := by
          rw [hρ, pow_succ, mul_comm κ, ENNReal.ofReal_mul he]
          refine le_of_eq ?_
          ring
      _ ≤ θ * ρ ^ ss.length * ENNReal.ofReal (Real.exp (-β) / N) *
            ∑ A, sch.cond st.W b b' A * ∑ k ∈ Finset.univ.erase b', C (A k) := by
          gcongr
          rw [← sch.E_res [] _ hW]
          exact hκ [] _ hW b b' C
      _ = ∑ A, sch.cond st.W b b' A *
            (θ * ρ ^ ss.length * (ENNReal.ofReal (Real.exp (-β) / N) * ∑ k ∈ Finset.univ.erase b', C (A k))) := by
          rw [Finset.mul_sum]
          refine Finset.sum_congr rfl fun A _ => ?_
          ring
      _ ≤ _ := Finset.sum_le_sum fun A _ => mul_le_mul' le_rfl (hstep A)

/-- The conditional pass is a probability. -/
theorem Cf_const [NeZero N] {res : CondResampling N} (sch : ExactScheme res) (c : ℝ≥0∞) :
    ∀ (ss : List (FKStep U)) (l : List (U × Fin N)) (st : St N U) (b : Fin N), Weights st.W → (∀ a, st.P a ≠ []) →
      ∀ {Ψ : St N U → Fin N → ℝ≥0∞}, (∀ (st : St N U) b, Weights st.W → (∀ a, st.P a ≠ []) → Ψ st b = c) →
      Cf sch.cond Ψ ss l st b = c := by
  intro ss
  induction ss with
  | nil => intro l st b hW hP Ψ hΨ; simpa [Cf] using hΨ st b hW hP
  | cons s ss ih =>
    intro l st b hW hP Ψ hΨ
    cases l with
    | nil => simpa [Cf] using hΨ st b hW hP
    | cons q l =>
      obtain ⟨u', b'⟩ := q
      have h : ∀ A y, Cf sch.cond Ψ ss l (next s st A (Function.update y b' u')) b' = c := fun A y =>
        ih l _ b' (normalise_weights _) (fun a => by simp [next]) hΨ
      simp only [Cf, h, lintegral_const, measure_univ, mul_one]
      rw [← Finset.sum_mul, sch.sum_cond _ hW, one_mul]

/-- The step from the initial particles. -/
theorem le_init [NeZero N] {g0 : U → ℝ} {β : ℝ} (hg : ∀ u, g0 u ≤ β) (ν : Measure U) [IsProbabilityMeasure ν]
    (u0 : U) (b : Fin N) (Φ : U → ℝ≥0∞) :
    ENNReal.ofReal (((N : ℝ) - 1) * (Real.exp (-β) / N)) * ∫⁻ u, ENNReal.ofReal (Real.exp (g0 u)) * Φ u ∂ν
      ≤ ∫⁻ y, ∑ a ∈ Finset.univ.erase b,
          ENNReal.ofReal ((initSt g0 (Function.update y b u0)).W a) * Φ (Function.update y b u0 a)
          ∂(Measure.pi fun _ : Fin N => ν) := by
  have hN : (0 : ℝ) < N := by exact_mod_cast Nat.pos_of_ne_zero (NeZero.ne N)
  have he : 0 ≤ Real.exp (-β) / N := by positivity
  have hN1 : (0 : ℝ) ≤ N - 1 := by
    have : (1 : ℝ) ≤ N := by exact_mod_cast Nat.pos_of_ne_zero (NeZero.ne N)
    linarith
  have h1 : ∀ y : Fin N → U, ∑ a ∈ Finset.univ.erase b,
      ENNReal.ofReal (Real.exp (-β) / N) * (ENNReal.ofReal (Real.exp (g0 (y a))) * Φ (y a))
        ≤ ∑ a ∈ Finset.univ.erase b,
          ENNReal.ofReal ((initSt g0 (Function.update y b u0)).W a) * Φ (Function.update y b u0 a) := by
    intro y
    refine Finset.sum_le_sum fun a ha => ?_
    have ha' := Finset.ne_of_mem_erase ha
    have h := le_normalise (lw := fun i => g0 (Function.update y b u0 i)) (fun i => hg _) a
    rw [Function.update_of_ne ha'] at h
    rw [← mul_assoc, ← ENNReal.ofReal_mul he, Function.update_of_ne ha']
    exact mul_le_mul' (ENNReal.ofReal_le_ofReal h) le_rfl
  refine le_trans ?_ (lintegral_mono h1)
  have hsum : ∀ (T : Finset (Fin N)) (f : Fin N → (Fin N → U) → ℝ≥0∞) (μ : Measure (Fin N → U)),
      ∑ k ∈ T, ∫⁻ y, f k y ∂μ ≤ ∫⁻ y, ∑ k ∈ T, f k y ∂μ := by
    intro T f μ
    classical
    induction T using Finset.induction_on with
    | empty => simp
    | insert k T hk ih' =>
      simp only [Finset.sum_insert hk]
      exact (add_le_add le_rfl ih').trans (le_lintegral_add _ _)
  refine le_trans ?_ (hsum _ _ _)
  have h2 : ∀ a ∈ Finset.univ.erase b, ENNReal.ofReal (Real.exp (-β) / N) *
      ∫⁻ u, ENNReal.ofReal (Real.exp (g0 u)) * Φ u ∂ν
      ≤ ∫⁻ y, ENNReal.ofReal (Real.exp (-β) / N) * (ENNReal.ofReal (Real.exp (g0 (y a))) * Φ (y a))
          ∂(Measure.pi fun _ : Fin N => ν) := by
    intro a _
    refine le_trans ?_ (lintegral_const_mul_le _ _)
    gcongr
    have hmp := measurePreserving_eval (fun _ : Fin N => ν) a
    conv_lhs => rw [← hmp.map_eq]
    exact lintegral_map_le _ _
  refine le_trans ?_ (Finset.sum_le_sum h2)
  rw [Finset.sum_const, Finset.card_erase_of_mem (Finset.mem_univ _), Finset.card_univ, Fintype.card_fin, nsmul_eq_mul,
    ENNReal.ofReal_mul hN1, ← mul_assoc]
  refine le_of_eq ?_
  congr 2
  rw [← ENNReal.ofReal_natCast, Nat.cast_sub (Nat.pos_of_ne_zero (NeZero.ne N))]
  simp

end Csmc

/-! ### Contraction -/

/-- One application of a Markov operator with a common lower bound `η` of mass `ε` shrinks the range of a function by
the factor `1 - ε`. -/
theorem doeblin_step {X : Type} [MeasurableSpace X] {ε : ℝ≥0∞} (hε : ε ≤ 1) {η : (X → ℝ≥0∞) → ℝ≥0∞}
    (hadd : ∀ f g, Measurable f → Measurable g → η (fun x => f x + g x) = η f + η g)
    (hc : ∀ c, η (fun _ => c) = ε * c) {κ : (X → ℝ≥0∞) → ℝ≥0∞} (hsup : ∀ f g, κ f + κ g ≤ κ fun x => f x + g x)
    (hκ : ∀ c, κ (fun _ => c) = c) (hη : ∀ f, Measurable f → η f ≤ κ f) {G : X → ℝ≥0∞} (hG : Measurable G) {a δ : ℝ≥0∞}
    (ha : a ≠ ∞) (hδ : δ ≠ ∞) (h : ∀ x, a ≤ G x ∧ G x ≤ a + δ) :
    (1 - ε) * a + η G ≤ κ G ∧ κ G ≤ (1 - ε) * a + η G + (1 - ε) * δ := by
  have hε' : (1 - ε) + ε = 1 := tsub_add_cancel_of_le hε
  have hs : ∀ c : ℝ≥0∞, (1 - ε) * c + ε * c = c := fun c => by rw [← add_mul, hε', one_mul]
  constructor
  · have e1 : (fun x => a + (G x - a)) = G := funext fun x => add_tsub_cancel_of_le (h x).1
    have hm : Measurable fun x => G x - a := hG.sub measurable_const
    have e2 : η G = ε * a + η fun x => G x - a := by
      rw [← hc a, ← hadd _ _ measurable_const hm, e1]
    calc (1 - ε) * a + η G = a + η fun x => G x - a := by rw [e2, ← add_assoc, hs]
      _ ≤ κ (fun _ => a) + κ fun x => G x - a := by rw [hκ]; gcongr; exact hη _ hm
      _ ≤ κ G := by
        have := hsup (fun _ => a) fun x => G x - a
        rwa [e1] at this
  · have e1 : (fun x => G x + (a + δ - G x)) = fun _ => a + δ := funext fun x => add_tsub_cancel_of_le (h x).2
    have hm : Measurable fun x => a + δ - G x := measurable_const.sub hG
    have e2 : η G + (η fun x => a + δ - G x) = ε * (a + δ) := by rw [← hadd _ _ hG hm, e1, hc]
    have hfin : (η fun x => a + δ - G x) ≠ ∞ := by
      refine ne_top_of_le_ne_top ?_ ((self_le_add_left _ (η G)).trans e2.le)
      exact ENNReal.mul_ne_top (ne_top_of_le_ne_top ENNReal.one_ne_top hε) (ENNReal.add_ne_top.2 ⟨ha, hδ⟩)
    have h1 : κ G + (η fun x => a + δ - G x) ≤ a + δ := by
      calc κ G + (η fun x => a + δ - G x) ≤ κ G + κ fun x => a + δ - G x := by gcongr; exact hη _ hm
        _ ≤ κ fun x => G x + (a + δ - G x) := hsup _ _
        _ = a + δ := by rw [e1, hκ]
    have h2 : a + δ = (1 - ε) * a + η G + (1 - ε) * δ + η fun x => a + δ - G x := by
      calc a + δ = (1 - ε) * (a + δ) + ε * (a + δ) := (hs _).symm
        _ = _ := by rw [← e2]; ring
    exact (ENNReal.add_le_add_iff_right hfin).1 (h1.trans h2.le)

end Fbs
