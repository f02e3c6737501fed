import Verif.Lemmas.CsmcLaw
import Verif.Props.Csmc
import Mathlib.MeasureTheory.Order.Lattice
import Verif.Lemmas.Live

/-!
# C10: conditional SMC with ancestor tracing leaves the smoothing distribution invariant
-/

open MeasureTheory ProbabilityTheory
open scoped ENNReal

namespace Fbs
namespace Props

open Jax Spec Csmc

variable {N : ℕ} {U V : Type} [MeasurableSpace U]

/-! ### The two library schemes are exact -/

theorem measurable_vmax [NeZero N] : Measurable (vmax (n := N)) := by
  have h := Finset.measurable_sup' (s := Finset.univ) ⟨(0 : Fin N), Finset.mem_univ _⟩
    (f := fun (i : Fin N) (w : Fin N → ℝ) => w i) (fun i _ => measurable_pi_apply i)
  have e : (vmax (n := N)) = Finset.univ.sup' ⟨(0 : Fin N), Finset.mem_univ _⟩
      (fun (i : Fin N) (w : Fin N → ℝ) => w i) := by
    funext w
    exact (Finset.sup'_apply _ (fun (i : Fin N) (w : Fin N → ℝ) => w i) w).symm
  rw [e]
  exact h

theorem measurable_killMass [NeZero N] (m a : Fin N) : Measurable fun w : Fin N → ℝ => killMass w m a := by
  have hr : Measurable fun w : Fin N → ℝ => w m / vmax w := (measurable_pi_apply m).div measurable_vmax
  have ht : Measurable fun w : Fin N → ℝ => total w :=
    Finset.measurable_sum _ fun i _ => measurable_pi_apply i
  unfold killMass cat
  refine Measurable.add ?_ ?_
  · split_ifs
    · exact ENNReal.measurable_ofReal.comp hr
    · exact measurable_const
  · exact (ENNReal.measurable_ofReal.comp (measurable_const.sub hr)).mul
      (ENNReal.measurable_ofReal.comp ((measurable_pi_apply a).div ht))

theorem measurable_jProb [NeZero N] (i J : Fin N) :
    Measurable fun w : Fin N → ℝ => CsmcResampling.jProb w i J := by
  have h0 : ∀ m, Measurable fun w : Fin N → ℝ => (1 - w m / vmax w) / (N : ℝ) := fun m =>
    (measurable_const.sub ((measurable_pi_apply m).div measurable_vmax)).div_const _
  have h1 : ∀ m, Measurable fun w : Fin N → ℝ =>
      Function.update (fun m => (1 - w m / vmax w) / (N : ℝ)) i 0 m := by
    intro m
    by_cases h : m = i
    · subst h; simp
    · simp only [Function.update_of_ne h]; exact h0 m
  unfold CsmcResampling.jProb atSet
  by_cases h : J = i
  · subst h
    simp only [Function.update_self]
    exact (measurable_const.sub (Finset.measurable_sum _ fun m _ => h1 m)).max measurable_const
  · simp only [Function.update_of_ne h]
    exact h0 J

/-- Build an `ExactScheme` from a finite-sum formula and the conditional-law property. -/
noncomputable def exactScheme_of (res : CondResampling N) (joint : (Fin N → ℝ) → Rand (Fin N → Fin N))
    (L : (Fin N → ℝ) → Fin N → Fin N → ((Fin N → Fin N) → ℝ≥0∞) → ℝ≥0∞)
    (hE : ∀ key w, Weights w → ∀ i j F, (res key w i j true).E F = L w i j F)
    (hL : ∀ w i j F, L w i j F = ∑ A, L w i j (fun A' => if A' = A then 1 else 0) * F A)
    (hm : ∀ i j F, Measurable fun w => L w i j F)
    (h1 : ∀ w, Weights w → ∀ i j, L w i j (fun _ => 1) = 1)
    (hc : ∀ w, Weights w → ∀ key i j,
      IsConditional (ENNReal.ofReal (w i)) (joint w) (res key w i j true) i j) :
    ExactScheme res where
  cond w i j A := L w i j (fun A' => if A' = A then 1 else 0)
  joint w A := (joint w).E (fun A' => if A' = A then 1 else 0)
  E_res key w hw i j F := by rw [hE key w hw, hL]
  bayes w hw i j A := by
    rw [← hE [] w hw, hc w hw [] i j]
    by_cases h : A j = i
    · rw [if_pos h]
      refine Rand.E_congr _ fun A' => ?_
      by_cases h' : A' = A
      · subst h'; simp [h]
      · simp [h']
    · rw [if_neg h]
      have : ∀ A' : Fin N → Fin N,
          (if A' j = i then (if A' = A then (1 : ℝ≥0∞) else 0) else 0) = 0 * 1 := by
        intro A'
        by_cases h' : A' = A
        · subst h'; simp [h]
        · simp [h']
      rw [Rand.E_congr _ this, Rand.E_const_mul _ ENNReal.zero_ne_top, zero_mul]
  sum_cond w hw i j := by
    have := hL w i j (fun _ => 1)
    rw [h1 w hw] at this
    simp only [mul_one] at this
    exact this.symm
  meas i j A := hm i j _

theorem sum_indicator {ι κ : Type} [Fintype ι] [Fintype κ] [DecidableEq κ] (p : ι → ℝ≥0∞) (g : ι → κ) (F : κ → ℝ≥0∞) :
    ∑ x, p x * F (g x) = ∑ A, (∑ x, p x * (if g x = A then 1 else 0)) * F A := by
  simp only [Finset.sum_mul]
  rw [Finset.sum_comm]
  refine Finset.sum_congr rfl fun x _ => ?_
  rw [Finset.sum_eq_single (g x)]
  · simp
  · intro A _ hA; simp [Ne.symm hA]
  · simp

/-- The library's conditional killing scheme is exact. -/
noncomputable def killingScheme [NeZero N] : ExactScheme (CsmcResampling.killing (n := N)) :=
  exactScheme_of _ (fun w => shiftedKilling [] [] w)
    (fun w i j F => ∑ J, ENNReal.ofReal (CsmcResampling.jProb w i J) *
          ∑ A, (∏ m, killMass w m (A m)) *
            F (roll (Function.update A J i) ((j : ℤ) - (J : ℤ))))
    (fun key w hw i j F => E_csmc_killing_cond hw key i j F)
    (fun w i j F => by
      have := sum_indicator (ι := Fin N × (Fin N → Fin N))
        (fun x => ENNReal.ofReal (CsmcResampling.jProb w i x.1) * ∏ m, killMass w m (x.2 m))
        (fun x => roll (Function.update x.2 x.1 i) ((j : ℤ) - (x.1 : ℤ))) F
      simp only [Fintype.sum_prod_type, mul_assoc, ← Finset.mul_sum] at this
      exact this)
    (fun i j F => Finset.measurable_sum _ fun J _ =>
      (ENNReal.measurable_ofReal.comp (measurable_jProb i J)).mul
        (Finset.measurable_sum _ fun A _ =>
          (Finset.measurable_prod _ fun m _ => measurable_killMass m (A m)).mul_const _))
    (fun w hw i j => by
      have hT := Weights.total_pos hw
      have hone : ∑ A : Fin N → Fin N, ∏ m, killMass w m (A m) = 1 := by
        have := Finset.prod_univ_sum (fun _ : Fin N => (Finset.univ : Finset (Fin N)))
          (fun m a => killMass w m a)
        rw [Fintype.piFinset_univ] at this
        rw [← this]
        simp [sum_killMass hw.nonneg hT]
      have hj := jProb_weights hw i
      simp only [mul_one, hone]
      rw [← ENNReal.ofReal_sum_of_nonneg fun m _ => hj.nonneg m, hj.sum_one]
      simp)
    (fun w hw key i j => C01_conditional_killing_exact hw key [] [] i j)

/-- The library's conditional multinomial scheme is exact. -/
noncomputable def multinomialScheme [NeZero N] : ExactScheme (CsmcResampling.multinomial (n := N)) :=
  exactScheme_of _ (fun w => CsmcResampling.multinomial [] w 0 0 false)
    (fun w i j F => ∑ A : Fin N → Fin N, (∏ m, ENNReal.ofReal (w (A m))) * F (Function.update A j i))
    (fun key w hw i j F => by rw [E_csmc_multinomial hw]; simp)
    (fun w i j F => sum_indicator _ (fun A => Function.update A j i) F)
    (fun i j F => Finset.measurable_sum _ fun A _ =>
      (Finset.measurable_prod _ fun m _ =>
        ENNReal.measurable_ofReal.comp (measurable_pi_apply (A m))).mul_const _)
    (fun w hw i j => by
      have hsum : ∑ a, ENNReal.ofReal (w a) = 1 := by
        rw [← ENNReal.ofReal_sum_of_nonneg fun m _ => hw.nonneg m, hw.sum_one]; simp
      have := Finset.prod_univ_sum (fun _ : Fin N => (Finset.univ : Finset (Fin N)))
        (fun _ a => ENNReal.ofReal (w a))
      rw [Fintype.piFinset_univ] at this
      simp only [mul_one]
      rw [← this]
      simp [hsum])
    (fun w hw key i j => C06_conditional_multinomial_exact hw key [] i j 0 0)

/-! ### Final test functions -/

/-- A test function of the returned states and indices is measurable on outputs of length `k`. -/
def MeasOut (k : ℕ) (φ : List U → List (Fin N) → ℝ≥0∞) : Prop :=
  Measurable fun p : Fin k → U × Fin N =>
    φ (List.ofFn fun j => (p j).1) (List.ofFn fun j => (p j).2)

theorem ofFn_range {α β : Type} (k : ℕ) (p : ℕ → α) (f : α → β) :
    ((List.range k).map p).map f = List.ofFn fun j : Fin k => f (p j) := by
  apply List.ext_getElem
  · simp
  · intro i h1 h2; simp

theorem measurable_path {Z : Type} [MeasurableSpace Z] {k : ℕ} {φ : List U → List (Fin N) → ℝ≥0∞}
    (hφ : MeasOut k φ) {st : Z → St N U} (hst : MeasSt k st) (b : Fin N) :
    Measurable fun z => φ (((st z).P b).map Prod.fst) (((st z).P b).map Prod.snd) := by
  obtain ⟨p, hp, hP⟩ := hst.P
  simp only [hP, ofFn_range]
  exact hφ.comp (measurable_pi_iff.2 fun j => (measurable_pi_apply (j : ℕ)).comp
    ((measurable_pi_apply b).comp hp))

/-- Select the final index from the final weights. -/
noncomputable def selectΨ (φ : List U → List (Fin N) → ℝ≥0∞) (st : St N U) (_ : Fin N) : ℝ≥0∞ :=
  ∑ B, ENNReal.ofReal (st.W B / ∑ i, st.W i) * φ ((st.P B).map Prod.fst) ((st.P B).map Prod.snd)

/-- Keep the reference. -/
def keepΨ (φ : List U → List (Fin N) → ℝ≥0∞) (st : St N U) (b : Fin N) : ℝ≥0∞ :=
  φ ((st.P b).map Prod.fst) ((st.P b).map Prod.snd)

theorem measFun_select {k : ℕ} {φ : List U → List (Fin N) → ℝ≥0∞} (hφ : MeasOut k φ) :
    MeasFun k (selectΨ φ) := by
  intro Z _ st hst b
  have hW : ∀ i, Measurable fun z => (st z).W i := fun i => (measurable_pi_apply i).comp hst.W
  exact Finset.measurable_sum _ fun B _ => (ENNReal.measurable_ofReal.comp
    ((hW B).div (Finset.measurable_sum _ fun i _ => hW i))).mul (measurable_path hφ hst B)

theorem measFun_keep {k : ℕ} {φ : List U → List (Fin N) → ℝ≥0∞} (hφ : MeasOut k φ) :
    MeasFun k (keepΨ φ) := fun _ _ _ hst b => measurable_path hφ hst b

theorem Rf_congr [NeZero N] (r : (Fin N → ℝ) → (Fin N → Fin N) → ℝ≥0∞) {Ψ Ψ' : St N U → Fin N → ℝ≥0∞}
    (h : ∀ st : St N U, Weights st.W →
      ∑ b, ENNReal.ofReal (st.W b) * Ψ st b = ∑ b, ENNReal.ofReal (st.W b) * Ψ' st b) :
    ∀ (ss : List (FKStep U)) (st : St N U), Weights st.W → Rf r Ψ ss st = Rf r Ψ' ss st := by
  intro ss
  induction ss with
  | nil => intro st hW; exact h st hW
  | cons s ss ih =>
    intro st hW
    simp only [Rf]
    refine Finset.sum_congr rfl fun A _ => ?_
    congr 2
    exact lintegral_congr fun y => ih _ (normalise_weights _)

omit [MeasurableSpace U] in
theorem select_eq_keep [NeZero N] (φ : List U → List (Fin N) → ℝ≥0∞) (st : St N U) (hW : Weights st.W) :
    ∑ b, ENNReal.ofReal (st.W b) * selectΨ φ st b = ∑ b, ENNReal.ofReal (st.W b) * keepΨ φ st b := by
  have hsum : ∑ a, ENNReal.ofReal (st.W a) = 1 := by
    rw [← ENNReal.ofReal_sum_of_nonneg fun m _ => hW.nonneg m, hW.sum_one]; simp
  unfold selectΨ keepΨ
  rw [← Finset.sum_mul, hsum, one_mul, hW.sum_one]
  simp

theorem Cf_keep [NeZero N] {res : CondResampling N} (sch : ExactScheme res)
    (φ : List U → List (Fin N) → ℝ≥0∞) : ∀ (ss : List (FKStep U)) (l : List (U × Fin N)),
    l.length = ss.length → ∀ (st : St N U) (b : Fin N), Weights st.W → (∀ i, 0 < st.W i) →
    Cf sch.cond (keepΨ φ) ss l st b
      = φ ((st.P b ++ l).map Prod.fst) ((st.P b ++ l).map Prod.snd) := by
  intro ss
  induction ss with
  | nil =>
    intro l hl st b _ _
    rw [List.length_eq_zero_iff.1 hl]
    simp [Cf, keepΨ]
  | cons s ss ih =>
    intro l hl st b hW hpos
    obtain ⟨⟨u', b'⟩, l, rfl⟩ := List.exists_cons_of_length_eq_add_one hl
    simp only [Cf]
    have h1 : ∀ A y, Cf sch.cond (keepΨ φ) ss l (next s st A (Function.update y b' u')) b'
        = φ ((st.P (A b') ++ (u', b') :: l).map Prod.fst) ((st.P (A b') ++ (u', b') :: l).map Prod.snd) := by
      intro A y
      rw [ih l (by simpa using hl) _ _ (normalise_weights _) (normalise_pos _)]
      simp [next]
    have h2 : ∀ A, sch.cond st.W b b' A * ∫⁻ y, Cf sch.cond (keepΨ φ) ss l
          (next s st A (Function.update y b' u')) b' ∂(Measure.pi fun i => s.M (st.x (A i)))
        = sch.cond st.W b b' A * φ ((st.P b ++ (u', b') :: l).map Prod.fst) ((st.P b ++ (u', b') :: l).map Prod.snd) := by
      intro A
      simp only [h1, lintegral_const, measure_univ, mul_one]
      by_cases hA : A b' = b
      · rw [hA]
      · have := sch.bayes st.W hW b b' A
        rw [if_neg hA] at this
        have h0 : sch.cond st.W b b' A = 0 := by
          rcases mul_eq_zero.1 this with h | h
          · exact absurd (ENNReal.ofReal_eq_zero.1 h) (not_le.2 (hpos b))
          · exact h
        rw [h0, zero_mul, zero_mul]
    simp only [h2]
    rw [← Finset.sum_mul, sch.sum_cond _ hW, one_mul]

theorem extInt_congr {N : ℕ} : ∀ (ss : List (FKStep U)) (u : U) {φ ψ : List (U × Fin N) → ℝ≥0∞},
    (∀ l, l.length = ss.length → φ l = ψ l) → extInt N ss u φ = extInt N ss u ψ
  | [], _, _, _, h => h [] rfl
  | s :: ss, u, φ, ψ, h => by
    simp only [extInt]
    congr 1
    refine lintegral_congr fun u' => ?_
    congr 1
    refine Finset.sum_congr rfl fun b' _ => ?_
    exact extInt_congr ss u' fun l hl => h _ (by simp [hl])

/-- The target only looks at references with as many rows as there are observations. -/
theorem target_congr (S : StateSpace U V) (vs : Arr1 V) (ts : Arr1 ℝ) (ht : ts.2.length = vs.2.length)
    {φ ψ : Arr1 (U × Fin N) → ℝ≥0∞} (h : ∀ p : Arr1 (U × Fin N), p.2.length = vs.2.length → φ p = ψ p) :
    S.target N vs ts φ = S.target N vs ts ψ := by
  unfold StateSpace.target
  refine lintegral_congr fun u => ?_
  congr 2
  refine Finset.sum_congr rfl fun b _ => extInt_congr _ _ fun l hl => h _ ?_
  rw [hl, steps_length]
  simp [Arr1.toList, ht]

/-- The particle system identity for the `forward_pass` program: with the reference (states and
indices) drawn from the target, the final particle system together with the last reference index has
the law of an ordinary particle system, reweighted by its average potentials, with the index drawn
from the final weights. -/
theorem forwardPass_identity [NeZero N] {m : Funs N U V} {S : StateSpace U V} (hm : Implements m S)
    {res : CondResampling N} (sch : ExactScheme res) {Ψ : St N U → Fin N → ℝ≥0∞} (n : ℕ) (key : Key)
    (vs : Arr1 V) (ts : Arr1 ℝ) (ht : ts.2.length = vs.2.length) (hΨ : MeasFun (1 + vs.2.length) Ψ) :
    S.target N vs ts (fun p =>
        (forwardPass m res n key (p.map Prod.fst) (p.map Prod.snd) vs ts).E
          (fun out => Ψ (finalSt out) (p.map Prod.snd).last))
      = ∫⁻ y, (N : ℝ≥0∞)⁻¹ *
          ENNReal.ofReal (∑ i, Real.exp (S.logG0 vs.1 (vs.2.headD vs.1) (y i))) *
          Rf sch.joint Ψ (S.steps vs.1 vs.2 ts.toList) (initSt (S.logG0 vs.1 (vs.2.headD vs.1)) y)
        ∂(Measure.pi fun _ : Fin N => S.init) := by
  rw [target_congr S vs ts ht fun p hp =>
    E_forwardPass hm sch n key p vs ts hp.symm (ht.trans hp.symm) (by rw [hp]; exact hΨ)]
  have hlen : (S.steps vs.1 vs.2 ts.toList).length = vs.2.length := by
    rw [steps_length]; simp [Arr1.toList, ht]
  rw [← init_identity sch _ (by rw [hlen]; exact hΨ) S.init (S.measG0 _ _)]
  rfl

omit [MeasurableSpace U] in
theorem E_kernel_scanning [NeZero N] (m : Funs N U V) (res : CondResampling N) (n : ℕ) (key : Key)
    (us : Arr1 U) (bs : Arr1 (Fin N)) (vs : Arr1 V) (ts : Arr1 ℝ) (b : Fin N)
    (φ : List U → List (Fin N) → ℝ≥0∞) :
    (kernel m res n false key us bs vs ts).E (fun out => φ out.1 out.2)
      = (forwardPass m res n (split key 2 0) us bs vs ts).E (fun out => selectΨ φ (finalSt out) b) := by
  simp only [kernel, forwardPass, Rand.E_bind, Rand.pure_eq, Rand.E_ret, Bool.false_eq_true, if_false]
  refine Rand.E_congr _ fun x0 => Rand.E_congr _ fun r => ?_
  have hzip : ∀ os : List ((Fin N → ℝ) × (Fin N → Fin N) × (Fin N → U)),
      (os.map fun o => o.2.1).zip (os.map fun o => o.2.2) = os.map Prod.snd := by
    intro os
    induction os with
    | nil => rfl
    | cons o os ih => simp [ih]
  simp only [backwardScanning, barkerMove, Rand.E_bind, Rand.pure_eq, Rand.E_ret, selectΨ, finalSt, hzip]
  rw [E_choice (normalise_weights _).nonneg (Weights.total_pos (normalise_weights _))]
  refine Finset.sum_congr rfl fun B _ => ?_
  rw [cat_normalised (normalise_weights _), normalise_eq]
  congr 1
  simp only [trace, Arr1.insertReverse, List.map_reverse, List.map_cons, List.map_map]
  rfl

/-- **C10 (general form).** Let the model functions implement a state-space model and let the
resampling scheme be exact.  If the reference trajectory and its indices are drawn from the
(unnormalised) smoothing distribution with uniform indices, one call of `csmc_kernel` with
`backward=False` returns a trajectory and indices with the same distribution. -/
theorem C10_csmc_invariant [NeZero N] {m : Funs N U V} {S : StateSpace U V} (hm : Implements m S)
    {res : CondResampling N} (sch : ExactScheme res) (n : ℕ) (key : Key)
    (vs : Arr1 V) (ts : Arr1 ℝ) (ht : ts.2.length = vs.2.length)
    (φ : List U → List (Fin N) → ℝ≥0∞) (hφ : MeasOut (1 + vs.2.length) φ) :
    S.target N vs ts (fun p =>
        (kernel m res n false key (p.map Prod.fst) (p.map Prod.snd) vs ts).E
          (fun out => φ out.1 out.2))
      = S.target N vs ts (fun p => φ (p.toList.map Prod.fst) (p.toList.map Prod.snd)) := by
  have h1 : ∀ p : Arr1 (U × Fin N),
      (kernel m res n false key (p.map Prod.fst) (p.map Prod.snd) vs ts).E (fun out => φ out.1 out.2)
        = (forwardPass m res n (split key 2 0) (p.map Prod.fst) (p.map Prod.snd) vs ts).E
          (fun out => selectΨ φ (finalSt out) (p.map Prod.snd).last) := fun p =>
    E_kernel_scanning m res n key _ _ vs ts _ φ
  have h2 : ∀ p : Arr1 (U × Fin N), p.2.length = vs.2.length →
      φ (p.toList.map Prod.fst) (p.toList.map Prod.snd)
        = (forwardPass m res n (split key 2 0) (p.map Prod.fst) (p.map Prod.snd) vs ts).E
          (fun out => keepΨ φ (finalSt out) (p.map Prod.snd).last) := by
    intro p hp
    rw [E_forwardPass hm sch n (split key 2 0) p vs ts hp.symm (ht.trans hp.symm)
      (by rw [hp]; exact measFun_keep hφ)]
    have hlen : p.2.length = (S.steps vs.1 vs.2 ts.toList).length := by
      rw [steps_length, hp]; simp [Arr1.toList, ht]
    have h3 : ∀ y, Cf sch.cond (keepΨ φ) (S.steps vs.1 vs.2 ts.toList) p.2
        (initSt (S.logG0 vs.1 (vs.2.headD vs.1)) (Function.update y p.1.2 p.1.1)) p.1.2
        = φ (p.toList.map Prod.fst) (p.toList.map Prod.snd) := by
      intro y
      rw [Cf_keep sch φ _ _ hlen (initSt (S.logG0 vs.1 (vs.2.headD vs.1)) (Function.update y p.1.2 p.1.1))
        _ (normalise_weights _) (fun i => normalise_pos _ i)]
      simp [initSt, Arr1.toList]
    rw [lintegral_congr h3]
    simp
  simp only [h1]
  rw [target_congr S vs ts ht h2, forwardPass_identity hm sch n _ vs ts ht (measFun_select hφ),
    forwardPass_identity hm sch n _ vs ts ht (measFun_keep hφ)]
  refine lintegral_congr fun y => ?_
  rw [Rf_congr _ (select_eq_keep φ) _ _ (normalise_weights _)]

/-- **C10 with the killing scheme** (the one `gibbs_kernel` uses). -/
theorem C10_csmc_killing [NeZero N] {m : Funs N U V} {S : StateSpace U V} (hm : Implements m S)
    (n : ℕ) (key : Key) (vs : Arr1 V) (ts : Arr1 ℝ) (ht : ts.2.length = vs.2.length)
    (φ : List U → List (Fin N) → ℝ≥0∞) (hφ : MeasOut (1 + vs.2.length) φ) :
    S.target N vs ts (fun p =>
        (kernel m CsmcResampling.killing n false key (p.map Prod.fst) (p.map Prod.snd) vs ts).E
          (fun out => φ out.1 out.2))
      = S.target N vs ts (fun p => φ (p.toList.map Prod.fst) (p.toList.map Prod.snd)) :=
  C10_csmc_invariant hm killingScheme n key vs ts ht φ hφ

/-- **C10 with the multinomial scheme.** -/
theorem C10_csmc_multinomial [NeZero N] {m : Funs N U V} {S : StateSpace U V} (hm : Implements m S)
    (n : ℕ) (key : Key) (vs : Arr1 V) (ts : Arr1 ℝ) (ht : ts.2.length = vs.2.length)
    (φ : List U → List (Fin N) → ℝ≥0∞) (hφ : MeasOut (1 + vs.2.length) φ) :
    S.target N vs ts (fun p =>
        (kernel m CsmcResampling.multinomial n false key (p.map Prod.fst) (p.map Prod.snd) vs ts).E
          (fun out => φ out.1 out.2))
      = S.target N vs ts (fun p => φ (p.toList.map Prod.fst) (p.toList.map Prod.snd)) :=
  C10_csmc_invariant hm multinomialScheme n key vs ts ht φ hφ

/-! ### The hypotheses can be met -/

example (key : Key) :
    exampleModel.target 3 (0, [1, 2]) (0, [1, 2]) (fun p =>
        (kernel (modelFuns exampleModel 3) CsmcResampling.killing 2 false key
          (p.map Prod.fst) (p.map Prod.snd) (0, [1, 2]) (0, [1, 2])).E
          (fun out => ENNReal.ofReal (out.1.headD 0)))
      = exampleModel.target 3 (0, [1, 2]) (0, [1, 2])
        (fun p => ENNReal.ofReal ((p.toList.map Prod.fst).headD 0)) :=
  C10_csmc_killing (implements_modelFuns exampleModel 3) 2 key (0, [1, 2]) (0, [1, 2]) rfl
    (fun us _ => ENNReal.ofReal (us.headD 0))
    (ENNReal.measurable_ofReal.comp (measurable_fst.comp (measurable_pi_apply 0)))

end Props
end Fbs
