import Verif.Props.CsmcLaw

/-!
# Cyclic relabelling of the particles

The conditional pass is equivariant when the particles of every time are renumbered by a cyclic shift, each
time with its own shift.
-/

open MeasureTheory ProbabilityTheory
open scoped ENNReal

namespace Fbs
namespace Csmc

open Jax Spec Props

variable {N : ℕ} {U V Z : Type} [MeasurableSpace U]

/-- Renumber the ancestors by `a` and the offspring by `t`. -/
def relabel [NeZero N] (a t : Fin N) (A : Fin N → Fin N) : Fin N → Fin N := fun m => A (m - t) + a

/-- `relabel` as a bijection. -/
def relabelEquiv [NeZero N] (a t : Fin N) : (Fin N → Fin N) ≃ (Fin N → Fin N) :=
  Equiv.arrowCongr (Equiv.addRight t) (Equiv.addRight a)

theorem relabelEquiv_apply [NeZero N] (a t : Fin N) (A : Fin N → Fin N) :
    relabelEquiv a t A = relabel a t A := by
  funext m
  simp [relabelEquiv, relabel, Equiv.arrowCongr, sub_eq_add_neg]

/-- The unconditional law of a scheme does not change when ancestors and offspring are renumbered
cyclically. -/
def ShiftInvariant [NeZero N] {res : CondResampling N} (C : ExactScheme res) : Prop :=
  ∀ w, Weights w → ∀ (a t : Fin N) (A : Fin N → Fin N),
    C.joint (fun i => w (i - a)) (relabel a t A) = C.joint w A

theorem weights_shift [NeZero N] {w : Fin N → ℝ} (h : Weights w) (a : Fin N) : Weights fun i => w (i - a) where
  nonneg i := h.nonneg _
  sum_one := by
    rw [← h.sum_one]
    exact Fintype.sum_equiv (Equiv.subRight a) _ _ fun _ => rfl

theorem vmax_shift [NeZero N] (w : Fin N → ℝ) (a : Fin N) : vmax (fun i => w (i - a)) = vmax w := by
  unfold vmax
  apply le_antisymm
  · refine Finset.sup'_le _ _ fun i _ => ?_
    exact Finset.le_sup' w (Finset.mem_univ (i - a))
  · refine Finset.sup'_le _ _ fun i _ => ?_
    have := Finset.le_sup' (fun i => w (i - a)) (Finset.mem_univ (i + a))
    simpa using this

theorem killMass_shift [NeZero N] (w : Fin N → ℝ) (a m b : Fin N) :
    killMass (fun i => w (i - a)) (m + a) (b + a) = killMass w m b := by
  have ht : total (fun i => w (i - a)) = total w :=
    Fintype.sum_equiv (Equiv.subRight a) _ _ fun _ => rfl
  unfold killMass cat
  rw [vmax_shift, ht]
  simp

theorem killing_shiftInvariant [NeZero N] : ShiftInvariant (killingScheme (N := N)) := by
  intro w hw a t A
  have hE : ∀ (w : Fin N → ℝ), Weights w → ∀ A, (killingScheme (N := N)).joint w A
      = ∑ B : Fin N → Fin N, ∑ s : Fin N, (∏ m, killMass w m (B m)) *
        ((N : ℝ≥0∞)⁻¹ * if (fun k => B (k - s)) = A then 1 else 0) := by
    intro w hw A
    show (shiftedKilling [] [] w).E (fun A' => if A' = A then 1 else 0) = _
    unfold shiftedKilling
    simp only [Rand.E_bind, Rand.pure_eq, Rand.E_ret, E_uniformShift, E_killing hw, Finset.mul_sum]
  rw [hE _ (weights_shift hw a), hE w hw]
  refine (Fintype.sum_equiv (relabelEquiv a a) _ _ fun B => ?_).symm
  refine Fintype.sum_equiv (Equiv.addRight (t - a)) _ _ fun s => ?_
  rw [relabelEquiv_apply]
  have hp : ∏ m, killMass (fun i => w (i - a)) m (relabel a a B m) = ∏ m, killMass w m (B m) := by
    refine (Fintype.prod_equiv (Equiv.addRight a) _ _ fun m => ?_).symm
    simp only [Equiv.coe_addRight, relabel, add_sub_cancel_right]
    exact (killMass_shift w a m (B m)).symm
  have hi : ((fun k => relabel a a B (k - Equiv.addRight (t - a) s)) = relabel a t A)
      ↔ ((fun k => B (k - s)) = A) := by
    simp only [relabel, Equiv.coe_addRight, funext_iff, add_left_inj]
    constructor
    · intro h k
      have := h (k + t)
      rw [add_sub_cancel_right] at this
      rw [← this]
      congr 1
      abel
    · intro h k
      rw [← h (k - t)]
      congr 1
      abel
  rw [hp]
  simp only [hi]

theorem multinomial_shiftInvariant [NeZero N] : ShiftInvariant (multinomialScheme (N := N)) := by
  intro w hw a t A
  have hE : ∀ (w : Fin N → ℝ), Weights w → ∀ A, (multinomialScheme (N := N)).joint w A
      = ∏ m, ENNReal.ofReal (w (A m)) := by
    intro w hw A
    show (CsmcResampling.multinomial [] w 0 0 false).E (fun A' => if A' = A then 1 else 0) = _
    rw [E_csmc_multinomial hw]
    simp
  rw [hE _ (weights_shift hw a), hE w hw]
  refine (Fintype.prod_equiv (Equiv.addRight t) _ _ fun m => ?_).symm
  simp [relabel]

/-- The conditional law of a scheme is then equivariant. -/
theorem ShiftInvariant.cond [NeZero N] {res : CondResampling N} {C : ExactScheme res} (h : ShiftInvariant C)
    {w : Fin N → ℝ} (hw : Weights w) (hpos : ∀ i, 0 < w i) (a t i j : Fin N) (A : Fin N → Fin N) :
    C.cond (fun i => w (i - a)) (i + a) (j + t) (relabel a t A) = C.cond w i j A := by
  have h1 := C.bayes _ (weights_shift hw a) (i + a) (j + t) (relabel a t A)
  have h2 := C.bayes w hw i j A
  rw [h w hw] at h1
  simp only [relabel, add_sub_cancel_right, add_left_inj] at h1
  rw [← h2] at h1
  have hne : ENNReal.ofReal (w i) ≠ 0 := by simpa using hpos i
  exact (ENNReal.mul_right_inj hne ENNReal.ofReal_ne_top).1 h1

/-- Two states which differ by the numbering of the current particles and of the indices along the
paths. -/
structure Sim [NeZero N] (a : Fin N) (st st' : St N U) : Prop where
  x : ∀ i, st'.x (i + a) = st.x i
  W : ∀ i, st'.W (i + a) = st.W i
  P : ∀ i, (st'.P (i + a)).map Prod.fst = (st.P i).map Prod.fst

/-- A functional which does not look at the numbering. -/
def LabelFree [NeZero N] (Ψ : St N U → Fin N → ℝ≥0∞) : Prop :=
  ∀ a st st', Sim a st st' → ∀ b, Ψ st' (b + a) = Ψ st b

omit [MeasurableSpace U] in
theorem Sim.Wsub [NeZero N] {a : Fin N} {st st' : St N U} (h : Sim a st st') :
    st'.W = fun i => st.W (i - a) := by
  funext i
  rw [← h.W (i - a), sub_add_cancel]

theorem Sim.next [NeZero N] {a : Fin N} {st st' : St N U} (h : Sim a st st') (s : FKStep U)
    (t : Fin N) (A : Fin N → Fin N) (y y' : Fin N → U) (hy : ∀ i, y' (i + t) = y i) :
    Sim t (Csmc.next s st A y) (Csmc.next s st' (relabel a t A) y') where
  x := hy
  W i := by
    show normalise (fun k => s.g (st'.x (A (k - t) + a))) (i + t) = normalise (fun k => s.g (st.x (A k))) i
    simp only [h.x]
    rw [normalise_eq, normalise_eq, add_sub_cancel_right]
    congr 1
    exact Fintype.sum_equiv (Equiv.subRight t) _ _ fun _ => rfl
  P i := by
    simp only [Csmc.next, relabel, List.map_append, List.map_cons, List.map_nil, add_sub_cancel_right, h.P, hy]

theorem lintegral_pi_shift [NeZero N] (μ : Fin N → Measure U) [∀ i, IsProbabilityMeasure (μ i)] (t : Fin N)
    (f : (Fin N → U) → ℝ≥0∞) :
    ∫⁻ y, f y ∂(Measure.pi fun i => μ (i - t)) = ∫⁻ y, f (fun i => y (i - t)) ∂(Measure.pi μ) := by
  have h := measurePreserving_piCongrLeft (fun i : Fin N => μ (i - t)) (Equiv.addRight t)
  have e : (fun i : Fin N => μ (Equiv.addRight t i - t)) = μ := by funext i; simp
  rw [e] at h
  rw [← h.map_eq, lintegral_map_equiv]
  refine lintegral_congr fun y => ?_
  congr 1
  funext i
  have := Equiv.piCongrLeft_apply_apply (fun _ : Fin N => U) (Equiv.addRight t) y (i - t)
  simp only [Equiv.coe_addRight, sub_add_cancel] at this
  exact this

theorem Cf_relabel [NeZero N] {res : CondResampling N} {C : ExactScheme res} (hC : ShiftInvariant C)
    {Ψ : St N U → Fin N → ℝ≥0∞} (hΨ : LabelFree Ψ) :
    ∀ (ss : List (FKStep U)) (l l' : List (U × Fin N)), l'.map Prod.fst = l.map Prod.fst →
    ∀ (a : Fin N) (st st' : St N U), Sim a st st' → Weights st.W → (∀ i, 0 < st.W i) → ∀ b,
      Cf C.cond Ψ ss l' st' (b + a) = Cf C.cond Ψ ss l st b := by
  intro ss
  induction ss with
  | nil => intro l l' _ a st st' h _ _ b; simpa [Cf] using hΨ a st st' h b
  | cons s ss ih =>
    intro l l' hl a st st' h hW hpos b
    match l, l', hl with
    | [], [], _ => simpa [Cf] using hΨ a st st' h b
    | (u, b1) :: l, (u', b1') :: l', hl =>
      simp only [List.map_cons, List.cons.injEq] at hl
      obtain ⟨rfl, hl⟩ := hl
      simp only [Cf]
      refine (Fintype.sum_equiv (relabelEquiv a (b1' - b1)) _ _ fun A => ?_).symm
      rw [relabelEquiv_apply]
      set t := b1' - b1 with ht
      have hb : b1' = b1 + t := by rw [ht]; abel
      congr 1
      · rw [h.Wsub, hb, hC.cond hW hpos]
      · have hx : (fun i => s.M (st'.x (relabel a t A i))) = fun i => s.M (st.x (A (i - t))) := by
          funext i; simp only [relabel, h.x]
        rw [hx, lintegral_pi_shift (fun i => s.M (st.x (A i))) t]
        refine lintegral_congr fun y => ?_
        rw [hb]
        refine (ih l l' hl t _ _ (h.next s t A _ _ fun i => ?_) (normalise_weights _)
          (fun i => normalise_pos _ i) b1).symm
        by_cases hi : i = b1
        · subst hi; simp
        · rw [Function.update_of_ne hi, Function.update_of_ne (by simpa using hi), add_sub_cancel_right]

end Csmc
end Fbs
