import Verif.Lemmas.CsmcLaw
import Mathlib.MeasureTheory.Measure.WithDensity

/-!
# The law of the backward sampling pass

`Bf` is the expected value of a test function after the backward sampling pass over given particles and
weights.  Averaged over the ordinary particle system, backward sampling with weights proportional to
filter weight times transition density times likelihood gives the same as tracing the ancestors.
-/

open MeasureTheory ProbabilityTheory
open scoped ENNReal

namespace Fbs
namespace Csmc

open Jax Spec

variable {N : ℕ} {U : Type}

/-- Backward weight of particle `B` given the next state `x`. -/
noncomputable def bw (γ : U → U → ℝ) (h : (Fin N → U) × (Fin N → ℝ)) (x : U) (B : Fin N) : ℝ :=
  Real.exp (γ x (h.1 B)) * h.2 B / ∑ i, Real.exp (γ x (h.1 i)) * h.2 i

/-- Expected value of `φ` after the backward pass. -/
noncomputable def Bf (φ : List (U × Fin N) → ℝ≥0∞) :
    List (U → U → ℝ) → List ((Fin N → U) × (Fin N → ℝ)) → U → List (U × Fin N) → ℝ≥0∞
  | γ :: γs, h :: H, x, acc =>
    ∑ B, ENNReal.ofReal (bw γ h x B) * Bf φ γs H (h.1 B) ((h.1 B, B) :: acc)
  | [], _, _, acc => φ acc
  | _ :: _, [], _, acc => φ acc

theorem Bf_append (φ : List (U × Fin N) → ℝ≥0∞) (e : List (U × Fin N)) : ∀ (γs : List (U → U → ℝ))
    (H : List ((Fin N → U) × (Fin N → ℝ))) (x : U) (acc : List (U × Fin N)),
    Bf φ γs H x (acc ++ e) = Bf (fun l => φ (l ++ e)) γs H x acc := by
  intro γs
  induction γs with
  | nil => intro H x acc; simp [Bf]
  | cons γ γs ih =>
    intro H x acc
    cases H with
    | nil => simp [Bf]
    | cons h H =>
      simp only [Bf]
      refine Finset.sum_congr rfl fun B _ => ?_
      rw [← List.cons_append, ih]

variable [MeasurableSpace U]

/-- A test function is measurable on paths of length `n`. -/
def MeasPath (n : ℕ) (φ : List (U × Fin N) → ℝ≥0∞) : Prop :=
  Measurable fun q : ℕ → U × Fin N => φ ((List.range n).map q)

theorem measurable_Bf {Z : Type} [MeasurableSpace Z] {φ : List (U × Fin N) → ℝ≥0∞} :
    ∀ (γs : List (U → U → ℝ)), (∀ γ ∈ γs, Measurable fun q : U × U => γ q.1 q.2) →
    ∀ (n : ℕ), MeasPath (n + γs.length) φ →
    ∀ (h : Z → ℕ → (Fin N → U) × (Fin N → ℝ)), Measurable h → ∀ (x : Z → U), Measurable x →
    ∀ (a : Z → ℕ → U × Fin N), Measurable a →
    Measurable fun z => Bf φ γs ((List.range γs.length).map (h z)) (x z) ((List.range n).map (a z)) := by
  intro γs
  induction γs with
  | nil => intro _ n hφ h hh x hx a ha; exact hφ.comp ha
  | cons γ γs ih =>
    intro hγ n hφ h hh x hx a ha
    have h0 : ∀ i, Measurable fun z => (h z 0).1 i := fun i =>
      (measurable_pi_apply i).comp (measurable_fst.comp ((measurable_pi_apply 0).comp hh))
    have h1 : ∀ i, Measurable fun z => (h z 0).2 i := fun i =>
      (measurable_pi_apply i).comp (measurable_snd.comp ((measurable_pi_apply 0).comp hh))
    have hw : ∀ i, Measurable fun z => Real.exp (γ (x z) ((h z 0).1 i)) * (h z 0).2 i := fun i =>
      (Real.measurable_exp.comp ((hγ γ (List.mem_cons_self ..)).comp (hx.prodMk (h0 i)))).mul (h1 i)
    simp only [List.length_cons, range_map_succ, Bf]
    refine Finset.measurable_sum _ fun B _ => Measurable.mul ?_ ?_
    · exact ENNReal.measurable_ofReal.comp ((hw B).div (Finset.measurable_sum _ fun i _ => hw i))
    · have := ih (fun γ' hγ' => hγ γ' (List.mem_cons_of_mem _ hγ')) (n + 1)
        (by rw [show n + 1 + γs.length = n + (γ :: γs).length by simp; omega]; exact hφ)
        (fun z j => h z (j + 1))
        (measurable_pi_iff.2 fun j => (measurable_pi_apply (j + 1)).comp hh)
        (fun z => (h z 0).1 B) (h0 B) (fun z j => Nat.casesOn j ((h z 0).1 B, B) (a z))
        (measurable_seqCons ((h0 B).prodMk measurable_const) ha)
      simp only [range_map_succ] at this
      exact this

theorem MeasPath.snoc {n : ℕ} {φ : List (U × Fin N) → ℝ≥0∞} (hφ : MeasPath (n + 1) φ) (b : Fin N) :
    Measurable fun q : (ℕ → U × Fin N) × U => φ ((List.range n).map q.1 ++ [(q.2, b)]) := by
  have hm : Measurable fun q : (ℕ → U × Fin N) × U =>
      (fun j => if j = n then (q.2, b) else q.1 j : ℕ → U × Fin N) := by
    refine measurable_pi_iff.2 fun j => ?_
    by_cases h : j = n
    · simp only [h, if_true]; exact measurable_snd.prodMk measurable_const
    · simp only [h, if_false]; exact (measurable_pi_apply j).comp measurable_fst
  have := hφ.comp hm
  convert this using 1
  funext q
  simp only [Function.comp_apply, List.range_succ, List.map_append, List.map_cons, List.map_nil, if_true]
  congr 2
  refine List.map_congr_left fun j hj => ?_
  rw [if_neg (List.mem_range.1 hj).ne]

theorem MeasPath.snoc_fix {n : ℕ} {φ : List (U × Fin N) → ℝ≥0∞} (hφ : MeasPath (n + 1) φ) (b : Fin N)
    (l : List (U × Fin N)) (hl : l.length = n) : Measurable fun y => φ (l ++ [(y, b)]) := by
  rcases isEmpty_or_nonempty U with h | ⟨⟨u⟩⟩
  · exact measurable_of_empty _
  have := (hφ.snoc b).comp ((measurable_const (a := fun j => l.getD j (u, b))).prodMk measurable_id)
  rw [← hl] at this
  convert this using 2 with y
  simp only [Function.comp_apply, map_range_getD, id]

/-- Integrate the last state of the path out. -/
noncomputable def peel (s : FKStep U) (φ : List (U × Fin N) → ℝ≥0∞) (l : List (U × Fin N)) : ℝ≥0∞ :=
  match l.getLast? with
  | none => 0
  | some q => ENNReal.ofReal (Real.exp (s.g q.1)) *
      ((N : ℝ≥0∞)⁻¹ * ∑ b : Fin N, ∫⁻ y, φ (l ++ [(y, b)]) ∂(s.M q.1))

theorem MeasPath.peel {n : ℕ} {φ : List (U × Fin N) → ℝ≥0∞} (hφ : MeasPath (n + 2) φ) (s : FKStep U) :
    MeasPath (n + 1) (peel s φ) := by
  have e : ∀ q : ℕ → U × Fin N, ((List.range (n + 1)).map q).getLast? = some (q n) := by
    intro q; simp [List.range_succ]
  unfold MeasPath Csmc.peel
  simp only [e]
  have hqn : Measurable fun q : ℕ → U × Fin N => (q n).1 := measurable_fst.comp (measurable_pi_apply n)
  refine (ENNReal.measurable_ofReal.comp (Real.measurable_exp.comp (s.meas.comp hqn))).mul
    (Measurable.const_mul (Finset.measurable_sum _ fun b _ => ?_) _)
  exact measurable_lintegral_kernel s.M hqn (hφ.snoc b)

theorem Bf_peel {s : FKStep U} {φ : List (U × Fin N) → ℝ≥0∞} (u : U) :
    ∀ (γs : List (U → U → ℝ)) (H : List ((Fin N → U) × (Fin N → ℝ))), H.length = γs.length →
    ∀ (x : U) (acc : List (U × Fin N)) (i : Fin N), acc.getLast? = some (u, i) →
    MeasPath (acc.length + γs.length + 1) φ →
    (∀ b, Measurable fun y => Bf (fun l => φ (l ++ [(y, b)])) γs H x acc) ∧
    ENNReal.ofReal (Real.exp (s.g u)) * ((N : ℝ≥0∞)⁻¹ * ∑ b : Fin N,
        ∫⁻ y, Bf (fun l => φ (l ++ [(y, b)])) γs H x acc ∂(s.M u))
      = Bf (peel s φ) γs H x acc := by
  intro γs
  induction γs with
  | nil =>
    intro H _ x acc i hacc hφ
    refine ⟨fun b => ?_, ?_⟩
    · simp only [Bf]
      exact MeasPath.snoc_fix (by simpa using hφ) b acc rfl
    · simp only [Bf, peel, hacc]
  | cons γ γs ih =>
    intro H hH x acc i hacc hφ
    obtain ⟨h, H, rfl⟩ := List.exists_cons_of_length_eq_add_one hH
    have ih' : ∀ B, _ := fun B => ih H (by simpa using hH) (h.1 B) ((h.1 B, B) :: acc) i
      (by rw [List.getLast?_cons, hacc]; rfl)
      (by rw [show ((h.1 B, B) :: acc).length + γs.length + 1 = acc.length + (γ :: γs).length + 1 by simp; omega]
          exact hφ)
    have hm : ∀ b B, Measurable fun y => ENNReal.ofReal (bw γ h x B) *
        Bf (fun l => φ (l ++ [(y, b)])) γs H (h.1 B) ((h.1 B, B) :: acc) := fun b B =>
      ((ih' B).1 b).const_mul _
    refine ⟨fun b => ?_, ?_⟩
    · simp only [Bf]
      exact Finset.measurable_sum _ fun B _ => hm b B
    · simp only [Bf, ← (ih' _).2]
      have h1 : ∀ b, ∫⁻ y, ∑ B, ENNReal.ofReal (bw γ h x B) *
          Bf (fun l => φ (l ++ [(y, b)])) γs H (h.1 B) ((h.1 B, B) :: acc) ∂(s.M u)
          = ∑ B, ENNReal.ofReal (bw γ h x B) *
            ∫⁻ y, Bf (fun l => φ (l ++ [(y, b)])) γs H (h.1 B) ((h.1 B, B) :: acc) ∂(s.M u) := by
        intro b
        rw [lintegral_finsetSum _ fun B _ => hm b B]
        exact Finset.sum_congr rfl fun B _ => lintegral_const_mul _ ((ih' B).1 b)
      simp only [h1]
      rw [Finset.sum_comm]
      simp only [Finset.mul_sum]
      refine Finset.sum_congr rfl fun B _ => Finset.sum_congr rfl fun b _ => ?_
      ring

/-! ### Peeling the last step of the particle system -/

/-- What is known of a state of the ordinary particle system after `k` steps. -/
structure Inv (k : ℕ) (st : St N U) : Prop where
  W : Weights st.W
  H : ∃ T, st.H = (st.x, st.W) :: T ∧ T.length = k
  last : ∀ i, (st.P i).getLast? = some (st.x i, i)
  len : ∀ i, (st.P i).length = k + 1

theorem Inv.next [NeZero N] {k : ℕ} {st : St N U} (h : Inv k st) (s : FKStep U) (A : Fin N → Fin N)
    (y : Fin N → U) : Inv (k + 1) (next s st A y) where
  W := normalise_weights _
  H := by
    obtain ⟨T, hT, hl⟩ := h.H
    exact ⟨st.H, rfl, by rw [hT]; simp [hl]⟩
  last i := by simp [Csmc.next]
  len i := by simp [Csmc.next, h.len]

theorem Rf_snoc [NeZero N] (r : (Fin N → ℝ) → (Fin N → Fin N) → ℝ≥0∞) {Ψ Ψ' : St N U → Fin N → ℝ≥0∞}
    (s : FKStep U) : ∀ (ss : List (FKStep U)) (k : ℕ),
    (∀ st, Inv (k + ss.length) st → Rf r Ψ [s] st = ∑ b, ENNReal.ofReal (st.W b) * Ψ' st b) →
    ∀ st, Inv k st → Rf r Ψ (ss ++ [s]) st = Rf r Ψ' ss st := by
  intro ss
  induction ss with
  | nil => intro k h st hst; exact h st hst
  | cons s' ss ih =>
    intro k h st hst
    rw [List.cons_append, Rf, Rf]
    refine Finset.sum_congr rfl fun A _ => ?_
    congr 2
    refine lintegral_congr fun y => ih (k + 1) ?_ _ (hst.next s' A y)
    intro st' hst'
    exact h st' (by rw [show k + (s' :: ss).length = k + 1 + ss.length by simp; omega]; exact hst')

/-- One step of the ordinary particle system, for a test function of one particle and its parent. -/
theorem Rf_one [NeZero N] {res : CondResampling N} (sch : ExactScheme res) (s : FKStep U) (st : St N U)
    (hW : Weights st.W) {Ψ : St N U → Fin N → ℝ≥0∞} (F : Fin N → U → Fin N → ℝ≥0∞)
    (hF : ∀ i b, Measurable fun y => F i y b)
    (hΨ : ∀ A y b, Ψ (next s st A y) b = F (A b) (y b) b) :
    Rf sch.joint Ψ [s] st = ∑ i, ENNReal.ofReal (st.W i) * (ENNReal.ofReal (Real.exp (s.g (st.x i))) *
      ((N : ℝ≥0∞)⁻¹ * ∑ b, ∫⁻ y, F i y b ∂(s.M (st.x i)))) := by
  let Q : Fin N → Fin N → ℝ≥0∞ := fun i b =>
    ENNReal.ofReal (Real.exp (s.g (st.x i))) * ∫⁻ y, F i y b ∂(s.M (st.x i))
  have h1 : ∀ A : Fin N → Fin N, (N : ℝ≥0∞)⁻¹ * ENNReal.ofReal (∑ i, Real.exp (s.g (st.x (A i)))) *
      ∫⁻ y, Rf sch.joint Ψ [] (next s st A y) ∂(Measure.pi fun i => s.M (st.x (A i)))
      = (N : ℝ≥0∞)⁻¹ * ∑ b, Q (A b) b := by
    intro A
    have hFm : ∀ b, Measurable fun y : Fin N → U => F (A b) (y b) b := fun b =>
      (hF (A b) b).comp (measurable_pi_apply b)
    have hm : ∀ b, Measurable fun y : Fin N → U =>
        ENNReal.ofReal (normalise (fun i => s.g (st.x (A i))) b) * F (A b) (y b) b := fun b =>
      (hFm b).const_mul _
    have e : ∀ y, Rf sch.joint Ψ [] (next s st A y)
        = ∑ b, ENNReal.ofReal (normalise (fun i => s.g (st.x (A i))) b) * F (A b) (y b) b := by
      intro y
      simp only [Rf, hΨ]
      rfl
    simp only [e]
    rw [lintegral_finsetSum _ fun b _ => hm b, mul_assoc, Finset.mul_sum]
    congr 1
    refine Finset.sum_congr rfl fun b _ => ?_
    rw [lintegral_const_mul _ (hFm b), ← mul_assoc, ofReal_normalise_mul]
    congr 1
    exact (measurePreserving_eval (fun i => s.M (st.x (A i))) b).lintegral_comp
      (f := fun y => F (A b) y b) (hF (A b) b)
  have hmarg : ∀ b i, ∑ A, (if A b = i then sch.joint st.W A else 0) = ENNReal.ofReal (st.W i) := by
    intro b i
    simp only [← sch.bayes st.W hW i b]
    rw [← Finset.mul_sum, sch.sum_cond _ hW, mul_one]
  have h2 : ∀ b, ∑ A, sch.joint st.W A * Q (A b) b = ∑ i, ENNReal.ofReal (st.W i) * Q i b := by
    intro b
    simp only [← hmarg b, Finset.sum_mul]
    rw [Finset.sum_comm]
    refine Finset.sum_congr rfl fun A _ => ?_
    simp
  rw [Rf]
  simp only [h1]
  have h3 : ∀ A, sch.joint st.W A * ((N : ℝ≥0∞)⁻¹ * ∑ b, Q (A b) b)
      = (N : ℝ≥0∞)⁻¹ * ∑ b, sch.joint st.W A * Q (A b) b := by
    intro A
    rw [← Finset.mul_sum]; ring
  simp only [h3]
  rw [← Finset.mul_sum, Finset.sum_comm]
  simp only [h2]
  rw [Finset.sum_comm, Finset.mul_sum]
  refine Finset.sum_congr rfl fun i _ => ?_
  rw [← Finset.mul_sum, ← Finset.mul_sum]
  ring

/-- The path traced from particle `b`. -/
def keepL (φ : List (U × Fin N) → ℝ≥0∞) (st : St N U) (b : Fin N) : ℝ≥0∞ := φ (st.P b)

/-- Backward sampling started from particle `b`. -/
noncomputable def backL (γs : List (U → U → ℝ)) (φ : List (U × Fin N) → ℝ≥0∞) (st : St N U) (b : Fin N) :
    ℝ≥0∞ := Bf φ γs st.H.tail (st.x b) [(st.x b, b)]

theorem Rf_keep_one [NeZero N] {res : CondResampling N} (sch : ExactScheme res) (s : FKStep U) {k : ℕ}
    {φ : List (U × Fin N) → ℝ≥0∞} (hφ : MeasPath (k + 2) φ) (st : St N U) (h : Inv k st) :
    Rf sch.joint (keepL φ) [s] st = ∑ b, ENNReal.ofReal (st.W b) * keepL (peel s φ) st b := by
  rw [Rf_one sch s st h.W (fun i y b => φ (st.P i ++ [(y, b)]))
    (fun i b => MeasPath.snoc_fix hφ b _ (h.len i)) fun A y b => rfl]
  refine Finset.sum_congr rfl fun i _ => ?_
  simp only [keepL, peel, h.last i]

/-- Up to a factor `c`, the backward factor `γ` is the transition density times the potential. -/
def BackOk (s : FKStep U) (γ : U → U → ℝ) : Prop :=
  (Measurable fun q : U × U => γ q.1 q.2) ∧
  ∃ (ν : Measure U) (p : U → U → ℝ≥0∞) (c : U → ℝ≥0∞), (∀ x, Measurable (p x)) ∧
    (∀ x, s.M x = ν.withDensity (p x)) ∧
    ∀ x y, p x y * ENNReal.ofReal (Real.exp (s.g x)) = c y * ENNReal.ofReal (Real.exp (γ y x))

theorem Rf_back_one [NeZero N] {res : CondResampling N} (sch : ExactScheme res) {s : FKStep U}
    {γ : U → U → ℝ} (hs : BackOk s γ) (γs : List (U → U → ℝ))
    {φ : List (U × Fin N) → ℝ≥0∞} (hφ : MeasPath (γs.length + 2) φ) (st : St N U) (h : Inv γs.length st) :
    Rf sch.joint (backL (γ :: γs) φ) [s] st
      = ∑ b, ENNReal.ofReal (st.W b) * backL γs (peel s φ) st b := by
  obtain ⟨T, hT, hTl⟩ := h.H
  obtain ⟨hγ, ν, p, c, hp, hM, hc⟩ := hs
  -- the backward pass through the last but one system
  let K : Fin N → U → Fin N → ℝ≥0∞ := fun j y b => Bf (fun l => φ (l ++ [(y, b)])) γs T (st.x j) [(st.x j, j)]
  have hpeel := fun j => Bf_peel (s := s) (φ := φ) (st.x j) γs T hTl (st.x j) [(st.x j, j)] j rfl
    (by rw [show [(st.x j, j)].length + γs.length + 1 = γs.length + 2 by simp; omega]; exact hφ)
  have hK : ∀ j b, Measurable fun y => K j y b := fun j b => (hpeel j).1 b
  let β : U → Fin N → ℝ≥0∞ := fun y j => ENNReal.ofReal (bw γ (st.x, st.W) y j)
  have hβ : ∀ j, Measurable fun y => β y j := by
    intro j
    have hw : ∀ i, Measurable fun y => Real.exp (γ y (st.x i)) * st.W i := fun i =>
      (Real.measurable_exp.comp (hγ.comp (measurable_id.prodMk measurable_const))).mul_const _
    exact ENNReal.measurable_ofReal.comp ((hw j).div (Finset.measurable_sum _ fun i _ => hw i))
  have hF : ∀ b, Measurable fun y => ∑ j, β y j * K j y b := fun b =>
    Finset.measurable_sum _ fun j _ => (hβ j).mul (hK j b)
  rw [Rf_one sch s st h.W (fun _ y b => ∑ j, β y j * K j y b) (fun _ b => hF b) ?_]
  swap
  · intro A y b
    show Bf φ (γ :: γs) st.H (y b) [(y b, b)] = _
    rw [hT, Bf]
    refine Finset.sum_congr rfl fun j _ => ?_
    show _ * Bf φ γs T (st.x j) ([(st.x j, j)] ++ [(y b, b)]) = _
    rw [Bf_append]
  -- the density of parent and child
  have hβsum : ∀ y j, (∑ i, ENNReal.ofReal (st.W i) * (ENNReal.ofReal (Real.exp (s.g (st.x i))) * p (st.x i) y)) * β y j
      = ENNReal.ofReal (st.W j) * (ENNReal.ofReal (Real.exp (s.g (st.x j))) * p (st.x j) y) := by
    intro y j
    have e : ∀ i, ENNReal.ofReal (st.W i) * (ENNReal.ofReal (Real.exp (s.g (st.x i))) * p (st.x i) y)
        = c y * ENNReal.ofReal (Real.exp (γ y (st.x i)) * st.W i) := by
      intro i
      rw [ENNReal.ofReal_mul (Real.exp_pos _).le, mul_comm (ENNReal.ofReal (Real.exp (s.g _))), hc]
      ring
    have hnn : ∀ i, 0 ≤ Real.exp (γ y (st.x i)) * st.W i := fun i =>
      mul_nonneg (Real.exp_pos _).le (h.W.nonneg i)
    have hpos : 0 < ∑ i, Real.exp (γ y (st.x i)) * st.W i := by
      obtain ⟨i, hi⟩ : ∃ i, 0 < st.W i := by
        by_contra hcon
        push Not at hcon
        have : ∑ i, st.W i ≤ 0 := Finset.sum_nonpos fun i _ => hcon i
        rw [h.W.sum_one] at this
        linarith
      exact Finset.sum_pos' (fun i _ => hnn i) ⟨i, Finset.mem_univ _, mul_pos (Real.exp_pos _) hi⟩
    simp only [e]
    rw [← Finset.mul_sum, ← ENNReal.ofReal_sum_of_nonneg fun i _ => hnn i, mul_assoc]
    congr 1
    show _ * ENNReal.ofReal (Real.exp (γ y (st.x j)) * st.W j / ∑ i, Real.exp (γ y (st.x i)) * st.W i) = _
    rw [← ENNReal.ofReal_mul hpos.le, mul_div_cancel₀ _ hpos.ne']
  have hI : ∀ i (f : U → ℝ≥0∞), Measurable f → ENNReal.ofReal (st.W i) * (ENNReal.ofReal (Real.exp (s.g (st.x i))) *
      ((N : ℝ≥0∞)⁻¹ * ∫⁻ y, f y ∂(s.M (st.x i)))) = (N : ℝ≥0∞)⁻¹ * ∫⁻ y, (ENNReal.ofReal (st.W i) *
        (ENNReal.ofReal (Real.exp (s.g (st.x i))) * p (st.x i) y)) * f y ∂ν := by
    intro i f hf
    rw [hM, lintegral_withDensity_eq_lintegral_mul _ (hp _) hf]
    have hd : Measurable fun y => p (st.x i) y * f y := (hp _).mul hf
    have e : ∀ y, (ENNReal.ofReal (st.W i) * (ENNReal.ofReal (Real.exp (s.g (st.x i))) * p (st.x i) y)) * f y
        = (ENNReal.ofReal (st.W i) * ENNReal.ofReal (Real.exp (s.g (st.x i)))) * (p (st.x i) y * f y) := fun y => by ring
    simp only [e]
    rw [lintegral_const_mul _ hd]
    simp only [Pi.mul_apply]
    ring
  have hL : ∀ b, ∑ i, ENNReal.ofReal (st.W i) * (ENNReal.ofReal (Real.exp (s.g (st.x i))) *
        ((N : ℝ≥0∞)⁻¹ * ∫⁻ y, ∑ j, β y j * K j y b ∂(s.M (st.x i))))
      = ∑ j, ENNReal.ofReal (st.W j) * (ENNReal.ofReal (Real.exp (s.g (st.x j))) *
        ((N : ℝ≥0∞)⁻¹ * ∫⁻ y, K j y b ∂(s.M (st.x j)))) := by
    intro b
    have hm1 : ∀ i, Measurable fun y => (ENNReal.ofReal (st.W i) *
        (ENNReal.ofReal (Real.exp (s.g (st.x i))) * p (st.x i) y)) * ∑ j, β y j * K j y b := fun i =>
      ((((hp (st.x i)).const_mul _).const_mul _).mul (hF b))
    have hm2 : ∀ j, Measurable fun y => (ENNReal.ofReal (st.W j) *
        (ENNReal.ofReal (Real.exp (s.g (st.x j))) * p (st.x j) y)) * K j y b := fun j =>
      ((((hp (st.x j)).const_mul _).const_mul _).mul (hK j b))
    simp only [hI _ _ (hF b), hI _ _ (hK _ b)]
    rw [← Finset.mul_sum, ← Finset.mul_sum, ← lintegral_finsetSum _ fun i _ => hm1 i,
      ← lintegral_finsetSum _ fun j _ => hm2 j]
    congr 1
    refine lintegral_congr fun y => ?_
    rw [← Finset.sum_mul, Finset.mul_sum]
    refine Finset.sum_congr rfl fun j _ => ?_
    rw [← mul_assoc, hβsum]
  have hR : ∀ j, backL γs (peel s φ) st j = ENNReal.ofReal (Real.exp (s.g (st.x j))) *
      ((N : ℝ≥0∞)⁻¹ * ∑ b, ∫⁻ y, K j y b ∂(s.M (st.x j))) := by
    intro j
    rw [(hpeel j).2]
    simp only [backL, hT, List.tail_cons]
  simp only [hR]
  have hswap : ∀ f : Fin N → Fin N → ℝ≥0∞, ∑ i, ENNReal.ofReal (st.W i) *
      (ENNReal.ofReal (Real.exp (s.g (st.x i))) * ((N : ℝ≥0∞)⁻¹ * ∑ b, f i b))
      = ∑ b, ∑ i, ENNReal.ofReal (st.W i) *
      (ENNReal.ofReal (Real.exp (s.g (st.x i))) * ((N : ℝ≥0∞)⁻¹ * f i b)) := by
    intro f
    rw [Finset.sum_comm]
    refine Finset.sum_congr rfl fun i _ => ?_
    simp only [Finset.mul_sum]
  rw [hswap, hswap]
  exact Finset.sum_congr rfl fun b _ => hL b

/-- Averaged over the ordinary particle system weighted by its average potentials, backward sampling
and ancestor tracing give the same. `l` lists the steps with their backward factors, the latest first. -/
theorem Rf_back_eq_keep [NeZero N] {res : CondResampling N} (sch : ExactScheme res) (st : St N U)
    (hst : Inv 0 st) : ∀ (l : List (FKStep U × (U → U → ℝ))), (∀ q ∈ l, BackOk q.1 q.2) →
    ∀ φ : List (U × Fin N) → ℝ≥0∞, MeasPath (l.length + 1) φ →
    Rf sch.joint (backL (l.map Prod.snd) φ) (l.map Prod.fst).reverse st
      = Rf sch.joint (keepL φ) (l.map Prod.fst).reverse st := by
  intro l
  induction l with
  | nil =>
    intro _ φ _
    simp only [List.map_nil, List.reverse_nil, Rf, backL, keepL, Bf]
    refine Finset.sum_congr rfl fun b _ => ?_
    have hP : st.P b = [(st.x b, b)] := by
      obtain ⟨q, hq⟩ := List.length_eq_one_iff.1 (hst.len b)
      have := hst.last b
      rw [hq] at this ⊢
      simpa using this
    rw [hP]
  | cons q l ih =>
    intro hl φ hφ
    obtain ⟨s, γ⟩ := q
    simp only [List.map_cons, List.reverse_cons]
    have hlen : ((l.map Prod.fst).reverse).length = l.length := by simp
    rw [Rf_snoc sch.joint s _ 0 (Ψ' := backL (l.map Prod.snd) (peel s φ)) ?_ st hst,
      Rf_snoc sch.joint s _ 0 (Ψ' := keepL (peel s φ)) ?_ st hst]
    · exact ih (fun q hq => hl q (List.mem_cons_of_mem _ hq)) _ (MeasPath.peel hφ s)
    · intro st' h'
      exact Rf_keep_one sch s hφ st' (by simpa using h')
    · intro st' h'
      exact Rf_back_one sch (hl _ (List.mem_cons_self ..)) (l.map Prod.snd) (by simpa using hφ) st' (by simpa using h')

end Csmc
end Fbs
