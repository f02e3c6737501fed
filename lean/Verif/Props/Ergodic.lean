import Verif.Lemmas.Minor
import Verif.Props.IndexFree
import Verif.Props.GibbsFinal
import Verif.Props.Consistency
import Verif.Model.GibbsLoop
import Verif.Lemmas.Live

/-!
# C82: the conditional sampler and the Gibbs chain forget where they started
-/

open MeasureTheory ProbabilityTheory Filter
open scoped ENNReal Topology

namespace Fbs
namespace Props

open Jax Spec Csmc Gibbs

variable {n N : ℕ} {U V Z : Type} [MeasurableSpace U]

/-! ### The two resampling schemes -/

/-- **C82, killing.** Whatever index is imposed, the free positions of the conditional killing scheme hold every other
index `a` with expected multiplicity at least `(N-1)²/N · w_a`. -/
theorem C82_killing_spreads [NeZero N] {w : Fin N → ℝ} (hw : Weights w) (key : Key) (i j a : Fin N) (ha : a ≠ i) :
    ENNReal.ofReal (((N : ℝ) - 1) ^ 2 / N * w a)
      ≤ (CsmcResampling.killing key w i j true).E fun A => ∑ k ∈ Finset.univ.erase j, if A k = a then 1 else 0 := by
  have h := spreads_killing key w hw i j fun b => if b = a then 1 else 0
  refine le_trans ?_ h
  rw [ENNReal.ofReal_mul (by positivity)]
  simp [Finset.sum_ite_eq', ha]

/-- **C82, multinomial.** The same with `(N-1) · w_a`. -/
theorem C82_multinomial_spreads [NeZero N] {w : Fin N → ℝ} (hw : Weights w) (key : Key) (i j a : Fin N) (ha : a ≠ i) :
    ENNReal.ofReal (((N : ℝ) - 1) * w a)
      ≤ (CsmcResampling.multinomial key w i j true).E fun A => ∑ k ∈ Finset.univ.erase j, if A k = a then 1 else 0 := by
  have hN1 : (0 : ℝ) ≤ N - 1 := by
    have : (1 : ℝ) ≤ N := by exact_mod_cast Nat.pos_of_ne_zero (NeZero.ne N)
    linarith
  have h := spreads_multinomial key w hw i j fun b => if b = a then 1 else 0
  refine le_trans ?_ h
  rw [ENNReal.ofReal_mul hN1]
  simp [Finset.sum_ite_eq', ha]

example (key : Key) :
    ENNReal.ofReal (((3 : ℕ) - 1 : ℝ) ^ 2 / (3 : ℕ) * (1 / 2))
      ≤ (CsmcResampling.killing key ![1 / 2, 1 / 4, 1 / 4] 1 2 true).E
        fun A => ∑ k ∈ Finset.univ.erase 2, if A k = 0 then 1 else 0 :=
  C82_killing_spreads (N := 3) (w := ![1 / 2, 1 / 4, 1 / 4])
    ⟨fun i => by fin_cases i <;> norm_num, by norm_num [Fin.sum_univ_succ]⟩ key 1 2 0 (by decide)

/-! ### One call of conditional SMC -/

omit [MeasurableSpace U] in
theorem select_ge [NeZero N] (φ : List U → ℝ≥0∞) (st : St N U) (b : Fin N) (hW : Weights st.W) :
    1 * ∑ a ∈ Finset.univ.erase b, ENNReal.ofReal (st.W a) * φ ((st.P a).map Prod.fst)
      ≤ selectΨ (fun us _ => φ us) st b := by
  rw [one_mul]
  unfold selectΨ
  rw [hW.sum_one]
  simp only [div_one]
  exact Finset.sum_le_sum_of_subset (Finset.erase_subset _ _)

/-- **C82, `csmc_kernel` with `backward=False`.** If the log potentials are bounded above, then whatever the reference
trajectory and its indices are, one call gives every set of trajectories at least a fixed multiple of its mass under the
unnormalised target, and the multiple does not depend on the reference. -/
theorem C82_csmc_minorisation [NeZero N] {m : Csmc.Funs N U V} {S : StateSpace U V} (hm : Implements m S)
    {res : CondResampling N} (sch : ExactScheme res) {κ : ℝ} (hκ : Spreads res κ) {β β0 : ℝ}
    (hβ : ∀ v v' t u, S.logG v v' t u ≤ β) (hβ0 : ∀ v v' u, S.logG0 v v' u ≤ β0) (k : ℕ) (key : Key)
    (us : Arr1 U) (bs : Arr1 (Fin N)) (vs : Arr1 V) (ts : Arr1 ℝ) (hl : us.2.length = vs.2.length)
    (hb : bs.2.length = vs.2.length) (ht : ts.2.length = vs.2.length) {φ : List U → ℝ≥0∞}
    (hφ : MeasList (1 + vs.2.length) φ) :
    ENNReal.ofReal (κ * (Real.exp (-β) / N)) ^ vs.2.length * (ENNReal.ofReal (((N : ℝ) - 1) * (Real.exp (-β0) / N)) *
        ∫⁻ u, ENNReal.ofReal (Real.exp (S.logG0 vs.1 (vs.2.headD vs.1) u)) *
          pathInt (S.steps vs.1 vs.2 ts.toList) u (fun l => φ (u :: l)) ∂S.init)
      ≤ (Csmc.kernel m res k false key us bs vs ts).E fun out => φ out.1 := by
  obtain ⟨u, l⟩ := us
  obtain ⟨b, bl⟩ := bs
  simp only at hl hb
  have hz : (l.zip bl).length = vs.2.length := by simp [hl, hb]
  have hlen : (S.steps vs.1 vs.2 ts.toList).length = vs.2.length := by
    rw [Csmc.steps_length]; simp [Arr1.toList, ht]
  have hout : MeasOut (N := N) (1 + vs.2.length) fun us _ => φ us :=
    hφ.comp (measurable_pi_iff.2 fun j => measurable_fst.comp (measurable_pi_apply j))
  have h := E_forwardPass hm sch (Ψ := selectΨ fun us _ => φ us) k (split key 2 0) ((u, b), l.zip bl) vs ts
    hz.symm (ht.trans hz.symm) (by rw [hz]; exact measFun_select hout)
  have h1 : Arr1.map Prod.fst (((u, b), l.zip bl) : Arr1 (U × Fin N)) = (u, l) := by
    simp [Arr1.map, List.map_fst_zip, hl, hb]
  have h2 : Arr1.map Prod.snd (((u, b), l.zip bl) : Arr1 (U × Fin N)) = (b, bl) := by
    simp [Arr1.map, List.map_snd_zip, hl, hb]
  rw [h1, h2] at h
  rw [E_kernel_scanning m res k key (u, l) (b, bl) vs ts _ (fun us _ => φ us), h]
  have h3 := fun y : Fin N → U => le_Cf sch hκ (β := β) (θ := 1) (Ψ := selectΨ fun us _ => φ us) (φ := φ)
    (fun st b hW => select_ge φ st b hW) (S.steps vs.1 vs.2 ts.toList) (l.zip bl) (hz.trans hlen.symm)
    (steps_le hβ _ _ _) (initSt (S.logG0 vs.1 (vs.2.headD vs.1)) (Function.update y b u)) b (normalise_weights _)
  refine le_trans ?_ (lintegral_mono h3)
  rw [hlen]
  refine le_trans ?_ (lintegral_const_mul_le _ _)
  rw [one_mul]
  gcongr
  exact le_init (hβ0 _ _) S.init u b fun u => pathInt (S.steps vs.1 vs.2 ts.toList) u (fun l => φ (u :: l))

/-! ### One call of the Gibbs kernel -/

theorem le_moveP [NeZero N] {w : Fin N → ℝ} (hw : Weights w) {k i : Fin N} (hik : i ≠ k) :
    (N : ℝ)⁻¹ * w i ≤ moveP w k i := by
  have hN : (1 : ℝ) ≤ N := by exact_mod_cast Nat.pos_of_ne_zero (NeZero.ne N)
  have hwi := hw.nonneg i
  have hsum : w i + w k ≤ 1 := by
    rw [← hw.sum_one, ← Finset.sum_pair (f := w) hik]
    exact Finset.sum_le_sum_of_subset_of_nonneg (Finset.subset_univ _) fun j _ _ => hw.nonneg j
  have hwk := hw.nonneg k
  have hinv : (N : ℝ)⁻¹ ≤ 1 := inv_le_one_of_one_le₀ hN
  have hacc : w i ≤ accP (1 - w i) (1 - w k) := by
    unfold accP
    split_ifs with h1 h2
    · linarith
    · linarith
    · push Not at h1 h2
      rw [le_div_iff₀ (h1.trans h2)]
      nlinarith
  by_cases hk : w k < forceThreshold N
  · rw [moveP_of_lt hk hik]
    have hpos : 0 < 1 - w k := by linarith [threshold_lt_one N]
    have h1 : (N : ℝ)⁻¹ * w i ≤ w i := mul_le_of_le_one_left hwi hinv
    refine h1.trans ?_
    have h2 : 1 - w k ≤ accP (1 - w i) (1 - w k) := by
      unfold accP
      rw [if_neg (not_le.2 hpos)]
      split_ifs with h
      · linarith
      · push Not at h
        rw [le_div_iff₀ (hpos.trans h)]
        nlinarith
    calc w i = w i / (1 - w k) * (1 - w k) := by field_simp
      _ ≤ _ := mul_le_mul_of_nonneg_left h2 (div_nonneg hwi hpos.le)
  · rw [moveP_of_not_lt hk, one_div]
    exact mul_le_mul_of_nonneg_left hacc (by positivity)

/-- The factor lost by the forced move. -/
noncomputable def moveFactor (eb : Bool) (N : ℕ) : ℝ≥0∞ := if eb then (N : ℝ≥0∞)⁻¹ else 1

omit [MeasurableSpace U] in
theorem move_ge [NeZero N] (eb : Bool) (F : U → ℝ≥0∞) (st : St N U) (b : Fin N) (hW : Weights st.W) :
    moveFactor eb N * ∑ a ∈ Finset.univ.erase b,
        ENNReal.ofReal (st.W a) * ((st.P a).map Prod.fst).getLast?.elim 0 F ≤ moveΨ eb F st b := by
  have hN : (0 : ℝ) < N := by exact_mod_cast Nat.pos_of_ne_zero (NeZero.ne N)
  unfold moveΨ moveFactor
  cases eb
  · exact select_ge (fun us => us.getLast?.elim 0 F) st b hW
  · simp only [if_true]
    unfold forceΨ
    refine le_trans ?_ le_self_add
    rw [Finset.mul_sum]
    refine le_trans (Finset.sum_le_sum fun a ha => ?_) (Finset.sum_le_sum_of_subset (Finset.erase_subset b _))
    rw [← mul_assoc]
    refine mul_le_mul' ?_ le_rfl
    rw [← ENNReal.ofReal_natCast, ← ENNReal.ofReal_inv_of_pos hN, ← ENNReal.ofReal_mul (by positivity)]
    exact ENNReal.ofReal_le_ofReal (le_moveP hW (Finset.ne_of_mem_erase ha))

omit [MeasurableSpace U] in
theorem move_of_last [NeZero N] (eb : Bool) {F : U → ℝ≥0∞} {c : ℝ≥0∞} (st : St N U) (b : Fin N) (hW : Weights st.W)
    (hl : ∀ a, lastF (fun x _ => F x) ((st.P a).map Prod.fst) ((st.P a).map Prod.snd) = c) : moveΨ eb F st b = c := by
  unfold moveΨ
  cases eb
  · simp only [Bool.false_eq_true, if_false, selectΨ, hl]
    rw [← Finset.sum_mul, hW.sum_one]
    simp only [div_one]
    rw [← ENNReal.ofReal_sum_of_nonneg fun m _ => hW.nonneg m, hW.sum_one]
    simp
  · simp only [if_true, forceΨ, keepΨ, hl]
    have hle := sum_moveP_le hW b
    rw [← Finset.sum_mul, ← add_mul, ← ENNReal.ofReal_sum_of_nonneg fun i _ => moveP_nonneg hW b i,
      ← ENNReal.ofReal_add (Finset.sum_nonneg fun i _ => moveP_nonneg hW b i) (by linarith)]
    simp

omit [MeasurableSpace U] in
theorem lastF_eq {F : U → ℝ≥0∞} {l : List (U × Fin N)} {u : U} {i : Fin N} (h : l.getLast? = some (u, i)) :
    lastF (fun x (_ : List (Fin N)) => F x) (l.map Prod.fst) (l.map Prod.snd) = F u := by
  unfold lastF
  rw [List.getLast?_map, h]
  rfl

omit [MeasurableSpace U] in
theorem move_const [NeZero N] (eb : Bool) (c : ℝ≥0∞) (st : St N U) (b : Fin N) (hW : Weights st.W)
    (hP : ∀ a, st.P a ≠ []) : moveΨ eb (fun _ : U => c) st b = c := by
  refine move_of_last eb st b hW fun a => ?_
  obtain ⟨q, hq⟩ := Option.isSome_iff_exists.1 (List.getLast?_isSome.2 (hP a))
  exact lastF_eq (F := fun _ => c) (u := q.1) (i := q.2) hq

omit [MeasurableSpace U] in
theorem elim_last (F : U → ℝ≥0∞) (u : U) (l : List U) : (u :: l).getLast?.elim 0 F = F (l.getLastD u) := by
  rw [List.getLast?_cons, List.getLastD_eq_getLast?]
  rfl

section

variable [MeasurableSpace V]

/-- The law of the two reversed paths drawn by the Gibbs kernel: a probability depending measurably on the state. -/
structure PathsLaw {N : ℕ} {ef : Bool} (m : Gibbs.Funs (rows N ef) U V Z) (margY : Bool) (y0 : V) (ts : Arr1 ℝ) (K : ℕ) :
    Prop where
  prob : ∀ key x c, (gibbsPaths m margY key x y0 ts).E (fun _ => c) = c
  meas : ∀ key φ, MeasPaths K φ → Measurable fun x => (gibbsPaths m margY key x y0 ts).E fun q => φ q.1 q.2

/-- `∫ Λ(du, dv) ∫ F(u_K) exp(Σ logG) Π M(du_k | u_{k-1}, v_{k-1})`: the reweighted law of the end point of the model's
path, started from `Λ`. -/
noncomputable def lastInt {K : ℕ} (S : StateSpace U V) (ts : Arr1 ℝ) (Λ : Measure (U × (Fin (K + 1) → V)))
    (F : U → ℝ≥0∞) : ℝ≥0∞ :=
  ∫⁻ q, pathInt (S.steps (arr q.2).1 (arr q.2).2 ts.toList) q.1 (fun l => F (l.getLastD q.1)) ∂Λ

omit [MeasurableSpace V] in
theorem pathInt_last_add {F G : U → ℝ≥0∞} (hF : Measurable F) : ∀ (ss : List (FKStep U)) (u : U),
    pathInt ss u (fun l => F (l.getLastD u) + G (l.getLastD u))
      = pathInt ss u (fun l => F (l.getLastD u)) + pathInt ss u (fun l => G (l.getLastD u))
  | [], _ => rfl
  | s :: ss, u => by
    simp only [pathInt, List.getLastD_cons]
    rw [lintegral_congr fun u' => pathInt_last_add (G := G) hF ss u',
      lintegral_add_left (measurable_pathInt_last hF ss), mul_add]

omit [MeasurableSpace V] in
theorem pathInt_const_mul (c : ℝ≥0∞) {F : U → ℝ≥0∞} (hF : Measurable F) : ∀ (ss : List (FKStep U)) (u : U),
    pathInt ss u (fun l => c * F (l.getLastD u)) = c * pathInt ss u (fun l => F (l.getLastD u))
  | [], _ => rfl
  | s :: ss, u => by
    simp only [pathInt, List.getLastD_cons]
    rw [lintegral_congr fun u' => pathInt_const_mul c hF ss u',
      lintegral_const_mul _ (measurable_pathInt_last hF ss)]
    ring

theorem measurable_lastPath {K : ℕ} {S : StateSpace U V} (hS : S.JointMeas) {ts : Arr1 ℝ} (hts : ts.2.length = K)
    {F : U → ℝ≥0∞} (hF : Measurable F) :
    Measurable fun q : U × (Fin (K + 1) → V) =>
      pathInt (S.steps (arr q.2).1 (arr q.2).2 ts.toList) q.1 (fun l => F (l.getLastD q.1)) := by
  have htl : K ≤ ts.toList.length := by simp [Arr1.toList, hts]
  have e : ∀ q : U × (Fin (K + 1) → V), S.steps (arr q.2).1 (arr q.2).2 ts.toList = seqSteps S (ext q.2) K ts.toList := by
    intro q
    rw [arr_eq q.2]
    rfl
  simp only [e]
  refine measurable_pathInt_obs S hS K ts.toList htl (U × (Fin (K + 1) → V)) (fun q l => F (l.getLastD q.1)) ?_
    Prod.fst measurable_fst (fun q => ext q.2) (measurable_ext.comp measurable_snd)
  refine hF.comp ?_
  cases K with
  | zero =>
    have h : Measurable fun q : (U × (Fin (0 + 1) → V)) × (ℕ → U) => q.1.1 := measurable_fst.comp measurable_fst
    simpa using h
  | succ K =>
    have h : Measurable fun q : (U × (Fin (K + 1 + 1) → V)) × (ℕ → U) => q.2 K :=
      (measurable_pi_apply K).comp measurable_snd
    simpa [List.range_succ, List.getLastD_eq_getLast?] using h

theorem measurable_logG_arr {K : ℕ} {S : StateSpace U V} (hS : S.JointMeas) (t : ℝ) :
    Measurable fun q : (Fin (K + 1) → V) × U => S.logG (arr q.1).1 ((arr q.1).2.headD (arr q.1).1) t q.2 := by
  have h1 : Measurable fun q : (Fin (K + 1) → V) × U => (arr q.1).1 := (measurable_pi_apply 0).comp measurable_fst
  have h2 : Measurable fun q : (Fin (K + 1) → V) × U => (arr q.1).2.headD (arr q.1).1 := by
    cases K with
    | zero => simpa [arr] using h1
    | succ K =>
      have h3 : Measurable fun q : (Fin (K + 1 + 1) → V) × U => q.1 1 := (measurable_pi_apply 1).comp measurable_fst
      simpa [arr] using h3
  exact (hS.2 t).comp (h1.prodMk (h2.prodMk measurable_snd))

theorem lastInt_add {K : ℕ} {S : StateSpace U V} (hS : S.JointMeas) {ts : Arr1 ℝ} (hts : ts.2.length = K)
    (Λ : Measure (U × (Fin (K + 1) → V))) {F G : U → ℝ≥0∞} (hF : Measurable F) :
    lastInt S ts Λ (fun x => F x + G x) = lastInt S ts Λ F + lastInt S ts Λ G := by
  unfold lastInt
  rw [← lintegral_add_left (measurable_lastPath hS hts hF)]
  exact lintegral_congr fun q => pathInt_last_add hF _ _

theorem lastInt_const {K : ℕ} {S : StateSpace U V} (hS : S.JointMeas) {ts : Arr1 ℝ} (hts : ts.2.length = K)
    (Λ : Measure (U × (Fin (K + 1) → V))) (c : ℝ≥0∞) :
    lastInt S ts Λ (fun _ => c) = lastInt S ts Λ (fun _ => 1) * c := by
  unfold lastInt
  rw [mul_comm, ← lintegral_const_mul _ (measurable_lastPath hS hts measurable_const)]
  refine lintegral_congr fun q => ?_
  have := pathInt_const_mul c (F := fun _ => 1) measurable_const (S.steps (arr q.2).1 (arr q.2).2 ts.toList) q.1
  simpa using this

/-- The same for `explicit_final=True`: the observation path from `Λ`, the start from the reference `ν`, weighted as the code
weights it. -/
noncomputable def refInt {K : ℕ} (S : StateSpace U V) (ν : Measure U) (ts : Arr1 ℝ) (Λ : Measure (Fin (K + 1) → V))
    (F : U → ℝ≥0∞) : ℝ≥0∞ :=
  ∫⁻ v, ∫⁻ u, ENNReal.ofReal (Real.exp (S.logG (arr v).1 ((arr v).2.headD (arr v).1) ts.1 u)) *
    pathInt (S.steps (arr v).1 (arr v).2 ts.toList) u (fun l => F (l.getLastD u)) ∂ν ∂Λ

theorem measurable_refPath {K : ℕ} {S : StateSpace U V} (hS : S.JointMeas) {ts : Arr1 ℝ} (hts : ts.2.length = K)
    {F : U → ℝ≥0∞} (hF : Measurable F) : Measurable fun q : (Fin (K + 1) → V) × U =>
      ENNReal.ofReal (Real.exp (S.logG (arr q.1).1 ((arr q.1).2.headD (arr q.1).1) ts.1 q.2)) *
        pathInt (S.steps (arr q.1).1 (arr q.1).2 ts.toList) q.2 (fun l => F (l.getLastD q.2)) := by
  refine Measurable.mul ?_ ((measurable_lastPath hS hts hF).comp measurable_swap)
  exact ENNReal.measurable_ofReal.comp (Real.measurable_exp.comp (measurable_logG_arr hS ts.1))

theorem refInt_add {K : ℕ} {S : StateSpace U V} (hS : S.JointMeas) {ν : Measure U} [SFinite ν] {ts : Arr1 ℝ}
    (hts : ts.2.length = K) (Λ : Measure (Fin (K + 1) → V)) {F G : U → ℝ≥0∞} (hF : Measurable F) :
    refInt S ν ts Λ (fun x => F x + G x) = refInt S ν ts Λ F + refInt S ν ts Λ G := by
  unfold refInt
  rw [← lintegral_add_left (measurable_refPath hS hts hF).lintegral_prod_right']
  refine lintegral_congr fun v => ?_
  refine Eq.trans ?_ (lintegral_add_left ((measurable_refPath hS hts hF).comp measurable_prodMk_left) _)
  refine lintegral_congr fun u => ?_
  rw [pathInt_last_add hF, mul_add]
  rfl

theorem refInt_const {K : ℕ} {S : StateSpace U V} (hS : S.JointMeas) {ν : Measure U} [SFinite ν] {ts : Arr1 ℝ}
    (hts : ts.2.length = K) (Λ : Measure (Fin (K + 1) → V)) (c : ℝ≥0∞) :
    refInt S ν ts Λ (fun _ => c) = refInt S ν ts Λ (fun _ => 1) * c := by
  unfold refInt
  have h1 := measurable_refPath hS hts (F := fun _ : U => 1) measurable_const
  rw [mul_comm, ← lintegral_const_mul _ h1.lintegral_prod_right']
  refine lintegral_congr fun v => ?_
  refine Eq.trans ?_ (lintegral_const_mul c (h1.comp measurable_prodMk_left))
  refine lintegral_congr fun u => ?_
  have := pathInt_const_mul c (F := fun _ => 1) measurable_const (S.steps (arr v).1 (arr v).2 ts.toList) u
  simp only [mul_one] at this
  rw [this, mul_left_comm]

/-- What the chain with `explicit_final=False` needs: the end of the noising path together with the observation path has a
part that does not depend on the state.  `Λ` is that part. -/
def MinorPinned {ef : Bool} {K : ℕ} (m : Gibbs.Funs (rows n ef) U V Z) (margY : Bool) (y0 : V) (ts : Arr1 ℝ)
    (Λ : Measure (U × (Fin (K + 1) → V))) : Prop :=
  ∀ key x (H : U → Arr1 V → ℝ≥0∞), (Measurable fun q : U × (Fin (K + 1) → V) => H q.1 (arr q.2)) →
    ∫⁻ q, H q.1 (arr q.2) ∂Λ ≤ (gibbsPaths m margY key x y0 ts).E fun q => H q.1.1 q.2

/-- The same for `explicit_final=True`, where only the observation path matters. -/
def MinorObs {ef : Bool} {K : ℕ} (m : Gibbs.Funs (rows n ef) U V Z) (margY : Bool) (y0 : V) (ts : Arr1 ℝ)
    (Λ : Measure (Fin (K + 1) → V)) : Prop :=
  ∀ key x (H : Arr1 V → ℝ≥0∞), (Measurable fun v : Fin (K + 1) → V => H (arr v)) →
    ∫⁻ v, H (arr v) ∂Λ ≤ (gibbsPaths m margY key x y0 ts).E fun q => H q.2

/-- The constant of one call: `N` particle rows, `K` steps, log potentials bounded by `β`. -/
noncomputable def gibbsConst (eb : Bool) (N K : ℕ) (β : ℝ) : ℝ≥0∞ :=
  moveFactor eb N * ENNReal.ofReal (((N : ℝ) - 1) ^ 2 / N * (Real.exp (-β) / N)) ^ K

/-- **C82, `gibbs_kernel` with `explicit_final=False`.** -/
theorem C82_gibbs_minorisation {K : ℕ} [NeZero n] {m : Gibbs.Funs (rows n false) U V Z} {S : StateSpace U V}
    (hS : S.JointMeas) {y0 : V}
    (htr : ∀ xs v t k (F : (Fin (rows n false) → U) → ℝ≥0∞), Measurable F →
      (m.transSampler xs v t k).E F = ∫⁻ x, F x ∂(Measure.pi fun i => S.trans v t (xs i)))
    (hlik : ∀ v xs v' t i, m.lik v xs v' t i = S.logG v v' t (xs i))
    (hst : ∀ key x (F : U → ℝ≥0∞), Measurable F → (m.fwd key x y0).E (fun p => F (m.unpack p).1.1) = F x)
    (hsh : PathShape m K) {β : ℝ} (hβ : ∀ v v' t u, S.logG v v' t u ≤ β) (margY eb : Bool) {ts : Arr1 ℝ}
    (hts : ts.2.length = K) {Λ : Measure (U × (Fin (K + 1) → V))} (hΛ : MinorPinned m margY y0 ts Λ)
    (key : Key) (x : U) {bs : Arr1 (Fin (rows n false))} (hb : bs.2.length = K) {F : U → ℝ≥0∞} (hF : Measurable F) :
    gibbsConst eb n K β * ENNReal.ofReal (1 - 1 / (n : ℝ)) * lastInt S ts Λ F
      ≤ (gibbsKernel false m margY eb key x y0 bs ts).E fun out => F out.1 := by
  have hn : (1 : ℝ) ≤ n := by exact_mod_cast Nat.pos_of_ne_zero (NeZero.ne n)
  set c := gibbsConst eb n K β * ENNReal.ofReal (1 - 1 / (n : ℝ)) with hc
  have hctop : c ≠ ∞ := by
    rw [hc, gibbsConst]
    refine ENNReal.mul_ne_top (ENNReal.mul_ne_top ?_ (ENNReal.pow_ne_top ENNReal.ofReal_ne_top)) ENNReal.ofReal_ne_top
    unfold moveFactor
    split_ifs
    · exact ENNReal.inv_ne_top.2 (by exact_mod_cast NeZero.ne n)
    · exact ENNReal.one_ne_top
  rw [E_gibbs_x0 hst margY eb key x bs ts hF]
  let H : U → Arr1 V → ℝ≥0∞ := fun u vs => pathInt (S.steps vs.1 vs.2 ts.toList) u (fun l => F (l.getLastD u))
  have h1 : lastInt S ts Λ F ≤ (gibbsPaths m margY key x y0 ts).E fun q => H q.1.1 q.2 :=
    hΛ key x H (measurable_lastPath hS hts hF)
  refine (mul_le_mul' le_rfl h1).trans ?_
  rw [← Rand.E_const_mul _ hctop]
  refine Rand.E_mono_leaves (leaves_gibbsPaths margY key x y0 ts hsh) fun q hq => ?_
  obtain ⟨hu, hv⟩ := hq
  rw [E_forwardPass_pinned htr hlik _ ts.1 q.1 bs q.2 ts (hu.trans hv.symm) (hb.trans hv.symm) (hts.trans hv.symm)
    (measFun_move eb hF)]
  have hlen : (S.steps q.2.1 q.2.2 ts.toList).length = K := by
    rw [Csmc.steps_length _ _ _ _ (by simp [Arr1.toList, hts, hv]), hv]
  have h3 := le_Cf (N := rows n false) killingScheme spreads_killing (β := β) (θ := moveFactor eb n) (Ψ := moveΨ eb F)
    (φ := fun us => us.getLast?.elim 0 F) (fun st b hW => move_ge eb F st b hW) (S.steps q.2.1 q.2.2 ts.toList)
    (q.1.2.zip bs.2) (by rw [hlen]; simp [hu, hb]) (steps_le hβ _ _ _) (startSt (rows n false) (-Real.log n) q.1.1)
    bs.1 (normalise_weights _)
  refine le_trans (le_of_eq ?_) h3
  rw [hlen]
  have hx : ∀ a, (startSt (rows n false) (-Real.log n) q.1.1).x a = q.1.1 := fun _ => rfl
  have hP : ∀ a, ((startSt (rows n false) (-Real.log n) q.1.1).P a).map Prod.fst = [q.1.1] := fun _ => rfl
  simp only [hx, hP, startSt_W, List.singleton_append, elim_last]
  rw [Finset.sum_const, Finset.card_erase_of_mem (Finset.mem_univ _), Finset.card_univ, Fintype.card_fin,
    nsmul_eq_mul]
  have e1 : ENNReal.ofReal (1 - 1 / (n : ℝ)) = ((n - 1 : ℕ) : ℝ≥0∞) * ENNReal.ofReal (1 / n) := by
    rw [← ENNReal.ofReal_natCast, ← ENNReal.ofReal_mul (by positivity), Nat.cast_sub (Nat.pos_of_ne_zero (NeZero.ne n))]
    congr 1
    field_simp
    simp
  rw [hc, e1, gibbsConst]
  show _ = moveFactor eb n * ENNReal.ofReal (((n : ℝ) - 1) ^ 2 / n * (Real.exp (-β) / n)) ^ K
    * (((n - 1 : ℕ) : ℝ≥0∞) * (ENNReal.ofReal (1 / n) * H q.1.1 q.2))
  ring

/-- **C82, `gibbs_kernel` with `explicit_final=True`.** -/
theorem C82_gibbs_final_minorisation {K : ℕ} [NeZero n] {m : Gibbs.Funs (rows n true) U V Z} {S : StateSpace U V}
    (hS : S.JointMeas) {ν : Measure U} [IsProbabilityMeasure ν] {y0 : V}
    (htr : ∀ xs v t k (F : (Fin (rows n true) → U) → ℝ≥0∞), Measurable F →
      (m.transSampler xs v t k).E F = ∫⁻ x, F x ∂(Measure.pi fun i => S.trans v t (xs i)))
    (hlik : ∀ v xs v' t i, m.lik v xs v' t i = S.logG v v' t (xs i))
    (hn : ∀ k r (F : (Fin (rows n true) → U) → ℝ≥0∞), Measurable F →
      (m.normal k r).E F = ∫⁻ x, F x ∂(Measure.pi fun _ => ν))
    (hst : ∀ key x (F : U → ℝ≥0∞), Measurable F → (m.fwd key x y0).E (fun p => F (m.unpack p).1.1) = F x)
    (hsh : PathShape m K) {β : ℝ} (hβ : ∀ v v' t u, S.logG v v' t u ≤ β) (margY eb : Bool) {ts : Arr1 ℝ}
    (hts : ts.2.length = K) {Λ : Measure (Fin (K + 1) → V)} (hΛ : MinorObs m margY y0 ts Λ)
    (key : Key) (x : U) {bs : Arr1 (Fin (rows n true))} (hb : bs.2.length = K) {F : U → ℝ≥0∞} (hF : Measurable F) :
    gibbsConst eb (n + 1) K β * ENNReal.ofReal (n * (Real.exp (-β) / (n + 1))) * refInt S ν ts Λ F
      ≤ (gibbsKernel true m margY eb key x y0 bs ts).E fun out => F out.1 := by
  set c := gibbsConst eb (n + 1) K β * ENNReal.ofReal (n * (Real.exp (-β) / (n + 1))) with hc
  have hctop : c ≠ ∞ := by
    rw [hc, gibbsConst]
    refine ENNReal.mul_ne_top (ENNReal.mul_ne_top ?_ (ENNReal.pow_ne_top ENNReal.ofReal_ne_top)) ENNReal.ofReal_ne_top
    unfold moveFactor
    split_ifs
    · exact ENNReal.inv_ne_top.2 (by exact_mod_cast Nat.succ_ne_zero n)
    · exact ENNReal.one_ne_top
  rw [E_gibbs_x0 hst margY eb key x bs ts hF]
  let H : Arr1 V → ℝ≥0∞ := fun vs => ∫⁻ u, ENNReal.ofReal (Real.exp (S.logG vs.1 (vs.2.headD vs.1) ts.1 u)) *
    pathInt (S.steps vs.1 vs.2 ts.toList) u (fun l => F (l.getLastD u)) ∂ν
  have hHm : Measurable fun v : Fin (K + 1) → V => H (arr v) := (measurable_refPath hS hts hF).lintegral_prod_right'
  have h1 : ∫⁻ v, H (arr v) ∂Λ ≤ (gibbsPaths m margY key x y0 ts).E fun q => H q.2 := hΛ key x H hHm
  refine (mul_le_mul' le_rfl h1).trans ?_
  rw [← Rand.E_const_mul _ hctop]
  refine Rand.E_mono_leaves (leaves_gibbsPaths margY key x y0 ts hsh) fun q hq => ?_
  obtain ⟨hu, hv⟩ := hq
  rw [E_forwardPass_ref htr hlik hn _ ts.1 q.1 bs q.2 ts (hu.trans hv.symm) (hb.trans hv.symm) (hts.trans hv.symm)
    (measFun_move eb hF)]
  have hlen : (S.steps q.2.1 q.2.2 ts.toList).length = K := by
    rw [Csmc.steps_length _ _ _ _ (by simp [Arr1.toList, hts, hv]), hv]
  have h3 := fun y : Fin (rows n true) → U => le_Cf (N := rows n true) killingScheme spreads_killing (β := β)
    (θ := moveFactor eb (n + 1)) (Ψ := moveΨ eb F)
    (φ := fun us => us.getLast?.elim 0 F) (fun st b hW => move_ge eb F st b hW) (S.steps q.2.1 q.2.2 ts.toList)
    (q.1.2.zip bs.2) (by rw [hlen]; simp [hu, hb]) (steps_le hβ _ _ _)
    (initSt (S.logG q.2.1 (q.2.2.headD q.2.1) ts.1) (Function.update y bs.1 q.1.1)) bs.1 (normalise_weights _)
  refine le_trans ?_ (lintegral_mono h3)
  rw [hlen]
  refine le_trans ?_ (lintegral_const_mul_le _ _)
  have hr : ((rows n true : ℕ) : ℝ) = n + 1 := by simp [rows]
  rw [hc, gibbsConst, mul_assoc]
  refine mul_le_mul' (le_of_eq ?_) ?_
  · rw [hr]; push_cast; rfl
  have h4 := le_init (N := rows n true) (g0 := S.logG q.2.1 (q.2.2.headD q.2.1) ts.1) (fun u => hβ _ _ _ u) ν q.1.1 bs.1
    fun u => pathInt (S.steps q.2.1 q.2.2 ts.toList) u (fun l => F (l.getLastD u))
  rw [hr, add_sub_cancel_right] at h4
  refine h4.trans (le_of_eq ?_)
  refine lintegral_congr fun y => Finset.sum_congr rfl fun a _ => ?_
  have hP : ((initSt (S.logG q.2.1 (q.2.2.headD q.2.1) ts.1) (Function.update y bs.1 q.1.1)).P a).map Prod.fst
    = [Function.update y bs.1 q.1.1 a] := rfl
  simp only [hP, List.singleton_append, elim_last]
  rfl

/-! ### The loop -/

theorem kernel_const [NeZero n] {m : Gibbs.Funs (rows n false) U V Z} {S : StateSpace U V} {y0 : V} {K : ℕ}
    (htr : ∀ xs v t k (F : (Fin (rows n false) → U) → ℝ≥0∞), Measurable F →
      (m.transSampler xs v t k).E F = ∫⁻ x, F x ∂(Measure.pi fun i => S.trans v t (xs i)))
    (hlik : ∀ v xs v' t i, m.lik v xs v' t i = S.logG v v' t (xs i))
    (hst : ∀ key x (F : U → ℝ≥0∞), Measurable F → (m.fwd key x y0).E (fun p => F (m.unpack p).1.1) = F x)
    (hsh : PathShape m K) (margY eb : Bool) {ts : Arr1 ℝ} (hts : ts.2.length = K) (hpl : PathsLaw m margY y0 ts K)
    (key : Key) (x : U) {bs : Arr1 (Fin (rows n false))} (hb : bs.2.length = K) (c : ℝ≥0∞) :
    (gibbsKernel false m margY eb key x y0 bs ts).E (fun _ => c) = c := by
  rw [E_gibbs_x0 hst margY eb key x bs ts (F := fun _ => c) measurable_const]
  refine (Rand.E_congr_leaves (leaves_gibbsPaths margY key x y0 ts hsh) fun q hq => ?_).trans (hpl.prob key x c)
  obtain ⟨hu, hv⟩ := hq
  rw [E_forwardPass_pinned htr hlik _ ts.1 q.1 bs q.2 ts (hu.trans hv.symm) (hb.trans hv.symm) (hts.trans hv.symm)
    (measFun_move eb measurable_const)]
  exact Cf_const killingScheme c _ _ (startSt (rows n false) (-Real.log n) q.1.1) _ (normalise_weights _)
    (fun a => by simp [startSt, initSt]) fun st b hW hP => move_const eb c st b hW hP

theorem kernel_final_const [NeZero n] {m : Gibbs.Funs (rows n true) U V Z} {S : StateSpace U V}
    {ν : Measure U} [IsProbabilityMeasure ν] {y0 : V} {K : ℕ}
    (htr : ∀ xs v t k (F : (Fin (rows n true) → U) → ℝ≥0∞), Measurable F →
      (m.transSampler xs v t k).E F = ∫⁻ x, F x ∂(Measure.pi fun i => S.trans v t (xs i)))
    (hlik : ∀ v xs v' t i, m.lik v xs v' t i = S.logG v v' t (xs i))
    (hn : ∀ k r (F : (Fin (rows n true) → U) → ℝ≥0∞), Measurable F →
      (m.normal k r).E F = ∫⁻ x, F x ∂(Measure.pi fun _ => ν))
    (hst : ∀ key x (F : U → ℝ≥0∞), Measurable F → (m.fwd key x y0).E (fun p => F (m.unpack p).1.1) = F x)
    (hsh : PathShape m K) (margY eb : Bool) {ts : Arr1 ℝ} (hts : ts.2.length = K) (hpl : PathsLaw m margY y0 ts K)
    (key : Key) (x : U) {bs : Arr1 (Fin (rows n true))} (hb : bs.2.length = K) (c : ℝ≥0∞) :
    (gibbsKernel true m margY eb key x y0 bs ts).E (fun _ => c) = c := by
  rw [E_gibbs_x0 hst margY eb key x bs ts (F := fun _ => c) measurable_const]
  refine (Rand.E_congr_leaves (leaves_gibbsPaths margY key x y0 ts hsh) fun q hq => ?_).trans (hpl.prob key x c)
  obtain ⟨hu, hv⟩ := hq
  rw [E_forwardPass_ref htr hlik hn _ ts.1 q.1 bs q.2 ts (hu.trans hv.symm) (hb.trans hv.symm) (hts.trans hv.symm)
    (measFun_move eb measurable_const)]
  have h : ∀ y : Fin (rows n true) → U, Cf killingScheme.cond (moveΨ eb fun _ => c) (S.steps q.2.1 q.2.2 ts.toList)
      (q.1.2.zip bs.2) (initSt (S.logG q.2.1 (q.2.2.headD q.2.1) ts.1) (Function.update y bs.1 q.1.1)) bs.1 = c := fun y =>
    Cf_const killingScheme c _ _ _ _ (normalise_weights _) (fun a => by simp [initSt])
      fun st b hW hP => move_const eb c st b hW hP
  rw [lintegral_congr h]
  simp

omit [MeasurableSpace V] in
theorem loop_contract {K : ℕ} [NeZero n] {ef : Bool} {m : Gibbs.Funs (rows n ef) U V Z} {y0 : V} {ts : Arr1 ℝ}
    {margY eb : Bool} (hsh : PathShape m K) (hts : ts.2.length = K)
    (hfree : ∀ key x (bs bs' : Arr1 (Fin (rows n ef))), bs.2.length = K → bs'.2.length = K → ∀ F : U → ℝ≥0∞,
      Measurable F → (gibbsKernel ef m margY eb key x y0 bs' ts).E (fun out => F out.1)
        = (gibbsKernel ef m margY eb key x y0 bs ts).E (fun out => F out.1))
    (hmeas : ∀ key (bs : Arr1 (Fin (rows n ef))), bs.2.length = K → ∀ F : U → ℝ≥0∞, Measurable F →
      Measurable fun x => (gibbsKernel ef m margY eb key x y0 bs ts).E (fun out => F out.1))
    (hconst : ∀ key x (bs : Arr1 (Fin (rows n ef))), bs.2.length = K → ∀ c : ℝ≥0∞,
      (gibbsKernel ef m margY eb key x y0 bs ts).E (fun _ => c) = c)
    {η : (U → ℝ≥0∞) → ℝ≥0∞} {ε : ℝ≥0∞} (hε : ε ≤ 1)
    (hadd : ∀ f g, Measurable f → Measurable g → η (fun x => f x + g x) = η f + η g)
    (hc : ∀ c, η (fun _ => c) = ε * c)
    (hη : ∀ key x (bs : Arr1 (Fin (rows n ef))), bs.2.length = K → ∀ F : U → ℝ≥0∞, Measurable F →
      η F ≤ (gibbsKernel ef m margY eb key x y0 bs ts).E (fun out => F out.1))
    {F : U → ℝ≥0∞} (hF : Measurable F) (h1 : ∀ x, F x ≤ 1) (x0 : U) :
    ∀ (i : ℕ) (key : Key), ∃ (G : U → ℝ≥0∞) (a : ℝ≥0∞), Measurable G ∧ a ≠ ∞ ∧ (∀ x, a ≤ G x ∧ G x ≤ a + (1 - ε) ^ i) ∧
      ∀ (bs : Arr1 (Fin (rows n ef))) (x : U), bs.2.length = K →
        (gibbsLoop ef m margY eb y0 ts i key x bs).E (fun out => F out.1) = G x
  | 0, _ => ⟨F, 0, hF, ENNReal.zero_ne_top, fun x => ⟨bot_le, by simpa using h1 x⟩, fun _ _ _ => rfl⟩
  | i + 1, key => by
    obtain ⟨G, a, hG, ha, hr, hE⟩ := loop_contract hsh hts hfree hmeas hconst hε hadd hc hη hF h1 x0 i (split key 2 0)
    let b0 : Arr1 (Fin (rows n ef)) := (0, List.replicate K 0)
    have hb0 : b0.2.length = K := by simp [b0]
    have hpow : (1 - ε) ^ i ≠ ∞ := ENNReal.pow_ne_top (ne_top_of_le_ne_top ENNReal.one_ne_top tsub_le_self)
    have hstep := fun x => doeblin_step hε hadd hc
      (κ := fun f => (gibbsKernel ef m margY eb (split key 2 1) x y0 b0 ts).E fun out => f out.1)
      (fun f g => Rand.E_add_le _ _ _) (fun c => hconst _ x b0 hb0 c) (fun f hf => hη _ x b0 hb0 f hf) hG
      ha hpow hr
    refine ⟨fun x => (gibbsKernel ef m margY eb (split key 2 1) x y0 b0 ts).E fun out => G out.1,
      (1 - ε) * a + η G, hmeas _ _ hb0 G hG, ?_, fun x => ⟨(hstep x).1, ?_⟩, fun bs x hb => ?_⟩
    · refine ne_top_of_le_ne_top (ENNReal.add_ne_top.2 ⟨ha, hpow⟩) ((hstep x0).1.trans ?_)
      refine (Rand.E_mono _ fun out => (hr out.1).2).trans (hconst _ x0 b0 hb0 _).le
    · exact (hstep x).2.trans (by rw [pow_succ'])
    · simp only [gibbsLoop, Rand.E_bind]
      rw [hfree _ x bs b0 hb hb0 G hG]
      refine Rand.E_congr_leaves (leaves_gibbs_length hsh margY eb _ x y0 hb hts) fun out ho => ?_
      refine hE _ _ ?_
      match h : out.2.2.1 with
      | [] => simp [h] at ho
      | b :: l => simpa [h, asIdx] using ho

theorem kernel_meas [NeZero n] {m : Gibbs.Funs (rows n false) U V Z} {S : StateSpace U V} (hS : S.JointMeas) {y0 : V}
    {K : ℕ} (htr : ∀ xs v t k (F : (Fin (rows n false) → U) → ℝ≥0∞), Measurable F →
      (m.transSampler xs v t k).E F = ∫⁻ x, F x ∂(Measure.pi fun i => S.trans v t (xs i)))
    (hlik : ∀ v xs v' t i, m.lik v xs v' t i = S.logG v v' t (xs i))
    (hst : ∀ key x (F : U → ℝ≥0∞), Measurable F → (m.fwd key x y0).E (fun p => F (m.unpack p).1.1) = F x)
    (hsh : PathShape m K) (margY eb : Bool) {ts : Arr1 ℝ} (hts : ts.2.length = K) (hpl : PathsLaw m margY y0 ts K)
    (key : Key) {bs : Arr1 (Fin (rows n false))} (hb : bs.2.length = K) {F : U → ℝ≥0∞} (hF : Measurable F) :
    Measurable fun x => (gibbsKernel false m margY eb key x y0 bs ts).E (fun out => F out.1) := by
  have h1 := hpl.meas key _ (measPaths_pinned hS (measFun_move (N := rows n false) eb hF) (-Real.log n) hts hb)
  convert h1 using 1
  funext x
  rw [E_gibbs_x0 hst margY eb key x bs ts hF]
  refine Rand.E_congr_leaves (leaves_gibbsPaths margY key x y0 ts hsh) fun q hq => ?_
  obtain ⟨hu, hv⟩ := hq
  exact E_forwardPass_pinned htr hlik _ ts.1 q.1 bs q.2 ts (hu.trans hv.symm) (hb.trans hv.symm) (hts.trans hv.symm)
    (by rw [hv]; exact measFun_move eb hF)

theorem kernel_final_meas [NeZero n] {m : Gibbs.Funs (rows n true) U V Z} {S : StateSpace U V} (hS : S.JointMeas)
    {ν : Measure U} [IsProbabilityMeasure ν] {y0 : V} {K : ℕ}
    (htr : ∀ xs v t k (F : (Fin (rows n true) → U) → ℝ≥0∞), Measurable F →
      (m.transSampler xs v t k).E F = ∫⁻ x, F x ∂(Measure.pi fun i => S.trans v t (xs i)))
    (hlik : ∀ v xs v' t i, m.lik v xs v' t i = S.logG v v' t (xs i))
    (hn : ∀ k r (F : (Fin (rows n true) → U) → ℝ≥0∞), Measurable F →
      (m.normal k r).E F = ∫⁻ x, F x ∂(Measure.pi fun _ => ν))
    (hst : ∀ key x (F : U → ℝ≥0∞), Measurable F → (m.fwd key x y0).E (fun p => F (m.unpack p).1.1) = F x)
    (hsh : PathShape m K) (margY eb : Bool) {ts : Arr1 ℝ} (hts : ts.2.length = K) (hpl : PathsLaw m margY y0 ts K)
    (key : Key) {bs : Arr1 (Fin (rows n true))} (hb : bs.2.length = K) {F : U → ℝ≥0∞} (hF : Measurable F) :
    Measurable fun x => (gibbsKernel true m margY eb key x y0 bs ts).E (fun out => F out.1) := by
  have h1 := hpl.meas key _ (measPaths_ref hS (measFun_move (N := rows n true) eb hF) ν hts hb)
  convert h1 using 1
  funext x
  rw [E_gibbs_x0 hst margY eb key x bs ts hF]
  refine Rand.E_congr_leaves (leaves_gibbsPaths margY key x y0 ts hsh) fun q hq => ?_
  obtain ⟨hu, hv⟩ := hq
  exact E_forwardPass_ref htr hlik hn _ ts.1 q.1 bs q.2 ts (hu.trans hv.symm) (hb.trans hv.symm) (hts.trans hv.symm)
    (by rw [hv]; exact measFun_move eb hF)

/-- With `marg_y=False` the law of the paths is that of the forward sampler. -/
theorem pathsLaw_of_fwd {ef : Bool} {m : Gibbs.Funs (rows n ef) U V Z} {y0 : V} {K : ℕ}
    (hst : ∀ key x (F : U → ℝ≥0∞), Measurable F → (m.fwd key x y0).E (fun p => F (m.unpack p).1.1) = F x)
    (hfm : FwdMeas m y0 K) (ts : Arr1 ℝ) : PathsLaw m false y0 ts K where
  prob key x c := by
    simp only [gibbsPaths, Rand.E_bind, Rand.pure_eq, Rand.E_ret, Bool.false_eq_true, if_false]
    exact hst _ x (fun _ => c) measurable_const
  meas key φ hφ := by
    simp only [gibbsPaths, Rand.E_bind, Rand.pure_eq, Rand.E_ret, Bool.false_eq_true, if_false]
    exact hfm _ φ hφ

/-- The share of every call that does not depend on the state, `explicit_final=False`. -/
noncomputable def pinnedRate {K : ℕ} (eb : Bool) (n : ℕ) (β : ℝ) (S : StateSpace U V) (ts : Arr1 ℝ)
    (Λ : Measure (U × (Fin (K + 1) → V))) : ℝ≥0∞ :=
  gibbsConst eb n K β * ENNReal.ofReal (1 - 1 / (n : ℝ)) * lastInt S ts Λ fun _ => 1

/-- The share of every call that does not depend on the state, `explicit_final=True`. -/
noncomputable def refRate {K : ℕ} (eb : Bool) (n : ℕ) (β : ℝ) (S : StateSpace U V) (ν : Measure U) (ts : Arr1 ℝ)
    (Λ : Measure (Fin (K + 1) → V)) : ℝ≥0∞ :=
  gibbsConst eb (n + 1) K β * ENNReal.ofReal (n * (Real.exp (-β) / (n + 1))) * refInt S ν ts Λ fun _ => 1

theorem pinned_contract {K : ℕ} [NeZero n] {m : Gibbs.Funs (rows n false) U V Z} {S : StateSpace U V}
    (hS : S.JointMeas) {y0 : V}
    (htr : ∀ xs v t k (F : (Fin (rows n false) → U) → ℝ≥0∞), Measurable F →
      (m.transSampler xs v t k).E F = ∫⁻ x, F x ∂(Measure.pi fun i => S.trans v t (xs i)))
    (hlik : ∀ v xs v' t i, m.lik v xs v' t i = S.logG v v' t (xs i))
    (hst : ∀ key x (F : U → ℝ≥0∞), Measurable F → (m.fwd key x y0).E (fun p => F (m.unpack p).1.1) = F x)
    (hsh : PathShape m K) {β : ℝ} (hβ : ∀ v v' t u, S.logG v v' t u ≤ β) (margY eb : Bool) {ts : Arr1 ℝ}
    (hts : ts.2.length = K) (hpl : PathsLaw m margY y0 ts K)
    {Λ : Measure (U × (Fin (K + 1) → V))} (hΛ : MinorPinned m margY y0 ts Λ)
    {F : U → ℝ≥0∞} (hF : Measurable F) (h1 : ∀ x, F x ≤ 1) (x0 : U) (i : ℕ) (key : Key) :
    ∃ (G : U → ℝ≥0∞) (a : ℝ≥0∞), Measurable G ∧ a ≠ ∞ ∧
      (∀ x, a ≤ G x ∧ G x ≤ a + (1 - pinnedRate eb n β S ts Λ) ^ i) ∧
      ∀ (bs : Arr1 (Fin (rows n false))) (x : U), bs.2.length = K →
        (gibbsLoop false m margY eb y0 ts i key x bs).E (fun out => F out.1) = G x := by
  have hη := fun (key : Key) x (bs : Arr1 (Fin (rows n false))) (hb : bs.2.length = K) (F : U → ℝ≥0∞) (hF : Measurable F) =>
    C82_gibbs_minorisation hS htr hlik hst hsh hβ margY eb hts hΛ key x hb hF
  have hc := fun (key : Key) x (bs : Arr1 (Fin (rows n false))) (hb : bs.2.length = K) (c : ℝ≥0∞) =>
    kernel_const htr hlik hst hsh margY eb hts hpl key x hb c
  refine loop_contract hsh hts
    (fun key x bs bs' h h' F hF => C58_gibbs_index_free htr hlik hst hsh margY eb key x h h' hts hF)
    (fun key bs hb F hF => kernel_meas hS htr hlik hst hsh margY eb hts hpl key hb hF) hc
    (η := fun F => gibbsConst eb n K β * ENNReal.ofReal (1 - 1 / (n : ℝ)) * lastInt S ts Λ F) ?_
    (fun f g hf _ => by rw [lastInt_add hS hts Λ hf, mul_add])
    (fun c => by rw [lastInt_const hS hts Λ c, pinnedRate]; ring) hη hF h1 x0 i key
  have hb0 : ((0, List.replicate K 0) : Arr1 (Fin (rows n false))).2.length = K := by simp
  exact (hη [] x0 _ hb0 (fun _ => 1) measurable_const).trans (hc [] x0 _ hb0 1).le

theorem ref_contract {K : ℕ} [NeZero n] {m : Gibbs.Funs (rows n true) U V Z} {S : StateSpace U V}
    (hS : S.JointMeas) {ν : Measure U} [IsProbabilityMeasure ν] {y0 : V}
    (htr : ∀ xs v t k (F : (Fin (rows n true) → U) → ℝ≥0∞), Measurable F →
      (m.transSampler xs v t k).E F = ∫⁻ x, F x ∂(Measure.pi fun i => S.trans v t (xs i)))
    (hlik : ∀ v xs v' t i, m.lik v xs v' t i = S.logG v v' t (xs i))
    (hn : ∀ k r (F : (Fin (rows n true) → U) → ℝ≥0∞), Measurable F →
      (m.normal k r).E F = ∫⁻ x, F x ∂(Measure.pi fun _ => ν))
    (hst : ∀ key x (F : U → ℝ≥0∞), Measurable F → (m.fwd key x y0).E (fun p => F (m.unpack p).1.1) = F x)
    (hsh : PathShape m K) {β : ℝ} (hβ : ∀ v v' t u, S.logG v v' t u ≤ β) (margY eb : Bool) {ts : Arr1 ℝ}
    (hts : ts.2.length = K) (hpl : PathsLaw m margY y0 ts K)
    {Λ : Measure (Fin (K + 1) → V)} (hΛ : MinorObs m margY y0 ts Λ)
    {F : U → ℝ≥0∞} (hF : Measurable F) (h1 : ∀ x, F x ≤ 1) (x0 : U) (i : ℕ) (key : Key) :
    ∃ (G : U → ℝ≥0∞) (a : ℝ≥0∞), Measurable G ∧ a ≠ ∞ ∧
      (∀ x, a ≤ G x ∧ G x ≤ a + (1 - refRate eb n β S ν ts Λ) ^ i) ∧
      ∀ (bs : Arr1 (Fin (rows n true))) (x : U), bs.2.length = K →
        (gibbsLoop true m margY eb y0 ts i key x bs).E (fun out => F out.1) = G x := by
  have hη := fun (key : Key) x (bs : Arr1 (Fin (rows n true))) (hb : bs.2.length = K) (F : U → ℝ≥0∞) (hF : Measurable F) =>
    C82_gibbs_final_minorisation hS htr hlik hn hst hsh hβ margY eb hts hΛ key x hb hF
  have hc := fun (key : Key) x (bs : Arr1 (Fin (rows n true))) (hb : bs.2.length = K) (c : ℝ≥0∞) =>
    kernel_final_const htr hlik hn hst hsh margY eb hts hpl key x hb c
  refine loop_contract hsh hts
    (fun key x bs bs' h h' F hF => C58_gibbs_final_index_free htr hlik hn hst hsh margY eb key x h h' hts hF)
    (fun key bs hb F hF => kernel_final_meas hS htr hlik hn hst hsh margY eb hts hpl key hb hF) hc
    (η := fun F => gibbsConst eb (n + 1) K β * ENNReal.ofReal (n * (Real.exp (-β) / (n + 1))) * refInt S ν ts Λ F) ?_
    (fun f g hf _ => by rw [refInt_add hS hts Λ hf, mul_add])
    (fun c => by rw [refInt_const hS hts Λ c, refRate]; ring) hη hF h1 x0 i key
  have hb0 : ((0, List.replicate K 0) : Arr1 (Fin (rows n true))).2.length = K := by simp
  exact (hη [] x0 _ hb0 (fun _ => 1) measurable_const).trans (hc [] x0 _ hb0 1).le

/-- **C82, the loop forgets its start, `explicit_final=False`.** Two chains started from any two states and any two sets of
reference indices, after `k` iterations: the probabilities of any event (more generally the expectations of any function
bounded by one) differ by at most `(1 - rate)^k`.  No exactness of the model is needed. -/
theorem C82_gibbs_forgets {K : ℕ} [NeZero n] {m : Gibbs.Funs (rows n false) U V Z} {S : StateSpace U V}
    (hS : S.JointMeas) {y0 : V}
    (htr : ∀ xs v t k (F : (Fin (rows n false) → U) → ℝ≥0∞), Measurable F →
      (m.transSampler xs v t k).E F = ∫⁻ x, F x ∂(Measure.pi fun i => S.trans v t (xs i)))
    (hlik : ∀ v xs v' t i, m.lik v xs v' t i = S.logG v v' t (xs i))
    (hst : ∀ key x (F : U → ℝ≥0∞), Measurable F → (m.fwd key x y0).E (fun p => F (m.unpack p).1.1) = F x)
    (hsh : PathShape m K) {β : ℝ} (hβ : ∀ v v' t u, S.logG v v' t u ≤ β) (margY eb : Bool) {ts : Arr1 ℝ}
    (hts : ts.2.length = K) (hpl : PathsLaw m margY y0 ts K)
    {Λ : Measure (U × (Fin (K + 1) → V))} (hΛ : MinorPinned m margY y0 ts Λ)
    {F : U → ℝ≥0∞} (hF : Measurable F) (h1 : ∀ x, F x ≤ 1) (x x' : U) {bs bs' : Arr1 (Fin (rows n false))}
    (hb : bs.2.length = K) (hb' : bs'.2.length = K) (k : ℕ) (key : Key) :
    (gibbsLoop false m margY eb y0 ts k key x bs).E (fun out => F out.1)
      ≤ (gibbsLoop false m margY eb y0 ts k key x' bs').E (fun out => F out.1) + (1 - pinnedRate eb n β S ts Λ) ^ k := by
  obtain ⟨G, a, -, -, hr, hE⟩ := pinned_contract hS htr hlik hst hsh hβ margY eb hts hpl hΛ hF h1 x k key
  rw [hE bs x hb, hE bs' x' hb']
  exact (hr x).2.trans (add_le_add (hr x').1 le_rfl)

/-- **C82, the loop forgets its start, `explicit_final=True`.** -/
theorem C82_gibbs_final_forgets {K : ℕ} [NeZero n] {m : Gibbs.Funs (rows n true) U V Z} {S : StateSpace U V}
    (hS : S.JointMeas) {ν : Measure U} [IsProbabilityMeasure ν] {y0 : V}
    (htr : ∀ xs v t k (F : (Fin (rows n true) → U) → ℝ≥0∞), Measurable F →
      (m.transSampler xs v t k).E F = ∫⁻ x, F x ∂(Measure.pi fun i => S.trans v t (xs i)))
    (hlik : ∀ v xs v' t i, m.lik v xs v' t i = S.logG v v' t (xs i))
    (hn : ∀ k r (F : (Fin (rows n true) → U) → ℝ≥0∞), Measurable F →
      (m.normal k r).E F = ∫⁻ x, F x ∂(Measure.pi fun _ => ν))
    (hst : ∀ key x (F : U → ℝ≥0∞), Measurable F → (m.fwd key x y0).E (fun p => F (m.unpack p).1.1) = F x)
    (hsh : PathShape m K) {β : ℝ} (hβ : ∀ v v' t u, S.logG v v' t u ≤ β) (margY eb : Bool) {ts : Arr1 ℝ}
    (hts : ts.2.length = K) (hpl : PathsLaw m margY y0 ts K)
    {Λ : Measure (Fin (K + 1) → V)} (hΛ : MinorObs m margY y0 ts Λ)
    {F : U → ℝ≥0∞} (hF : Measurable F) (h1 : ∀ x, F x ≤ 1) (x x' : U) {bs bs' : Arr1 (Fin (rows n true))}
    (hb : bs.2.length = K) (hb' : bs'.2.length = K) (k : ℕ) (key : Key) :
    (gibbsLoop true m margY eb y0 ts k key x bs).E (fun out => F out.1)
      ≤ (gibbsLoop true m margY eb y0 ts k key x' bs').E (fun out => F out.1) + (1 - refRate eb n β S ν ts Λ) ^ k := by
  obtain ⟨G, a, -, -, hr, hE⟩ := ref_contract hS htr hlik hn hst hsh hβ margY eb hts hpl hΛ hF h1 x k key
  rw [hE bs x hb, hE bs' x' hb']
  exact (hr x).2.trans (add_le_add (hr x').1 le_rfl)

omit [MeasurableSpace V] in
theorem close_of_contract {π0 : Measure U} {G : U → ℝ≥0∞} {a δ I : ℝ≥0∞} (hI : ∫⁻ x, G x ∂π0 = I)
    (hr : ∀ x, a ≤ G x ∧ G x ≤ a + δ) (x : U) :
    G x * π0 Set.univ ≤ I + δ * π0 Set.univ ∧ I ≤ G x * π0 Set.univ + δ * π0 Set.univ := by
  constructor
  · calc G x * π0 Set.univ ≤ (a + δ) * π0 Set.univ := mul_le_mul' (hr x).2 le_rfl
      _ = (∫⁻ _, a ∂π0) + δ * π0 Set.univ := by rw [add_mul, lintegral_const]
      _ ≤ I + δ * π0 Set.univ := by rw [← hI]; exact add_le_add (lintegral_mono fun y => (hr y).1) le_rfl
  · calc I = ∫⁻ y, G y ∂π0 := hI.symm
      _ ≤ ∫⁻ _, (a + δ) ∂π0 := lintegral_mono fun y => (hr y).2
      _ = a * π0 Set.univ + δ * π0 Set.univ := by rw [lintegral_const, add_mul]
      _ ≤ G x * π0 Set.univ + δ * π0 Set.univ := add_le_add (mul_le_mul' (hr x).1 le_rfl) le_rfl

/-- **C82, the loop converges, `explicit_final=False`.** If moreover the functions are exact for `π0` (C14), the law of the
state after `k` iterations, from any start, is within `(1 - rate)^k` of the normalised `π0`, uniformly over events. -/
theorem C82_gibbs_converges {K : ℕ} [NeZero n] {m : Gibbs.Funs (rows n false) U V Z} {S : StateSpace U V}
    (hS : S.JointMeas) {π0 : Measure U} {y0 : V} {ts : Arr1 ℝ} (hm : BackwardExact m S π0 y0 ts K)
    (hsh : PathShape m K) (hfm : FwdMeas m y0 K) (hts : ts.2.length = K) (eb : Bool)
    (hreg : eb = true → ∀ v v' t (x : Fin (rows n false) → U), Regular (normalise fun i => S.logG v v' t (x i)))
    {β : ℝ} (hβ : ∀ v v' t u, S.logG v v' t u ≤ β)
    {Λ : Measure (U × (Fin (K + 1) → V))} (hΛ : MinorPinned m false y0 ts Λ)
    {F : U → ℝ≥0∞} (hF : Measurable F) (h1 : ∀ x, F x ≤ 1) (x : U) {bs : Arr1 (Fin (rows n false))}
    (hb : bs.2.length = K) (k : ℕ) (key : Key) :
    (gibbsLoop false m false eb y0 ts k key x bs).E (fun out => F out.1) * π0 Set.univ
        ≤ ∫⁻ u, F u ∂π0 + (1 - pinnedRate eb n β S ts Λ) ^ k * π0 Set.univ ∧
      ∫⁻ u, F u ∂π0 ≤ (gibbsLoop false m false eb y0 ts k key x bs).E (fun out => F out.1) * π0 Set.univ
        + (1 - pinnedRate eb n β S ts Λ) ^ k * π0 Set.univ := by
  obtain ⟨G, a, -, -, hr, hE⟩ := pinned_contract hS hm.trans hm.lik hm.starts hsh hβ false eb hts
    (pathsLaw_of_fwd hm.starts hfm ts) hΛ hF h1 x k key
  have hI := C58_gibbs_loop hS hm hsh hfm hts eb hreg k key hb hF
  rw [lintegral_congr fun u => hE bs u hb] at hI
  rw [hE bs x hb]
  exact close_of_contract hI hr x

/-- **C82, the loop converges, `explicit_final=True`**, for the target of `C15_explicit_backward_partial`. -/
theorem C82_gibbs_final_converges {K : ℕ} [NeZero n] {m : Gibbs.Funs (rows n true) U V Z} {S : StateSpace U V}
    (hS : S.JointMeas) {ν : Measure U} [IsProbabilityMeasure ν] {π0 : Measure U} {y0 : V} {ts : Arr1 ℝ}
    (hm : ReferenceExact m S ν π0 y0 ts K fun v u => S.logG (arr v).1 ((arr v).2.headD (arr v).1) ts.1 u)
    (hsh : PathShape m K) (hfm : FwdMeas m y0 K) (hts : ts.2.length = K) (eb : Bool)
    (hreg : eb = true → ∀ v v' t (x : Fin (rows n true) → U), Regular (normalise fun i => S.logG v v' t (x i)))
    {β : ℝ} (hβ : ∀ v v' t u, S.logG v v' t u ≤ β)
    {Λ : Measure (Fin (K + 1) → V)} (hΛ : MinorObs m false y0 ts Λ)
    {F : U → ℝ≥0∞} (hF : Measurable F) (h1 : ∀ x, F x ≤ 1) (x : U) {bs : Arr1 (Fin (rows n true))}
    (hb : bs.2.length = K) (k : ℕ) (key : Key) :
    (gibbsLoop true m false eb y0 ts k key x bs).E (fun out => F out.1) * π0 Set.univ
        ≤ ∫⁻ u, F u ∂π0 + (1 - refRate eb n β S ν ts Λ) ^ k * π0 Set.univ ∧
      ∫⁻ u, F u ∂π0 ≤ (gibbsLoop true m false eb y0 ts k key x bs).E (fun out => F out.1) * π0 Set.univ
        + (1 - refRate eb n β S ν ts Λ) ^ k * π0 Set.univ := by
  obtain ⟨G, a, -, -, hr, hE⟩ := ref_contract hS hm.trans hm.lik hm.normal hm.starts hsh hβ false eb hts
    (pathsLaw_of_fwd hm.starts hfm ts) hΛ hF h1 x k key
  have hI := C58_gibbs_loop_final hS hm hsh hfm hts eb hreg k key hb hF
  rw [lintegral_congr fun u => hE bs u hb] at hI
  rw [hE bs x hb]
  exact close_of_contract hI hr x

theorem gibbsConst_pos {eb : Bool} {N K : ℕ} {β : ℝ} (hN : 2 ≤ N) : gibbsConst eb N K β ≠ 0 := by
  have h2 : (2 : ℝ) ≤ N := by exact_mod_cast hN
  refine mul_ne_zero ?_ (pow_ne_zero _ ?_)
  · unfold moveFactor
    split_ifs
    · exact ENNReal.inv_ne_zero.2 (ENNReal.natCast_ne_top N)
    · exact one_ne_zero
  · have : 0 < ((N : ℝ) - 1) ^ 2 / N * (Real.exp (-β) / N) := by
      have h3 : (0 : ℝ) < (N : ℝ) - 1 := by linarith
      have h4 := Real.exp_pos (-β)
      positivity
    exact (ENNReal.ofReal_pos.2 this).ne'

/-- **C82, the rate is positive** as soon as there are two particles and something to start from. -/
theorem C82_pinned_rate_pos {K : ℕ} {S : StateSpace U V} (hS : S.JointMeas) {ts : Arr1 ℝ} (hts : ts.2.length = K)
    (eb : Bool) (hn : 2 ≤ n) (β : ℝ) {Λ : Measure (U × (Fin (K + 1) → V))} (hΛ : Λ ≠ 0) :
    0 < pinnedRate eb n β S ts Λ := by
  have h2 : (2 : ℝ) ≤ n := by exact_mod_cast hn
  refine pos_iff_ne_zero.2 (mul_ne_zero (mul_ne_zero (gibbsConst_pos hn) ?_) ?_)
  · have : 0 < 1 - 1 / (n : ℝ) := by
      rw [sub_pos, div_lt_one (by linarith)]
      linarith
    exact (ENNReal.ofReal_pos.2 this).ne'
  · intro h
    rw [lastInt, lintegral_eq_zero_iff (measurable_lastPath hS hts measurable_const)] at h
    refine hΛ (Measure.measure_univ_eq_zero.1 ?_)
    refine measure_mono_null (fun q _ => ?_) h
    exact (pathInt_pos _ q.1).ne'

/-- **C82, the rate is positive** with `explicit_final=True`, even with a single particle beside the reference. -/
theorem C82_ref_rate_pos {K : ℕ} [NeZero n] {S : StateSpace U V} (hS : S.JointMeas) {ν : Measure U} [IsProbabilityMeasure ν]
    {ts : Arr1 ℝ} (hts : ts.2.length = K) (eb : Bool) (β : ℝ) {Λ : Measure (Fin (K + 1) → V)} (hΛ : Λ ≠ 0) :
    0 < refRate eb n β S ν ts Λ := by
  have hn : 1 ≤ n := Nat.pos_of_ne_zero (NeZero.ne n)
  refine pos_iff_ne_zero.2 (mul_ne_zero (mul_ne_zero (gibbsConst_pos (by omega)) ?_) ?_)
  · have hn' : (0 : ℝ) < n := by exact_mod_cast hn
    have h4 := Real.exp_pos (-β)
    exact (ENNReal.ofReal_pos.2 (by positivity)).ne'
  · intro h
    have hm := measurable_refPath hS hts (F := fun _ : U => 1) measurable_const
    rw [refInt, lintegral_eq_zero_iff hm.lintegral_prod_right'] at h
    refine hΛ (Measure.measure_univ_eq_zero.1 ?_)
    refine measure_mono_null (fun v _ => ?_) h
    intro h0
    have h0' := (lintegral_eq_zero_iff (hm.comp measurable_prodMk_left)).1 h0
    have h1 : ν Set.univ = 0 := by
      refine measure_mono_null (fun u _ => ?_) h0'
      refine mul_ne_zero (ENNReal.ofReal_pos.2 (Real.exp_pos _)).ne' ?_
      exact (pathInt_pos _ u).ne'
    simp at h1

theorem tendsto_of_close {ε I M : ℝ≥0∞} (hε : 0 < ε) (hM : M ≠ 0) (hM' : M ≠ ∞) (hI : I ≠ ∞) {e : ℕ → ℝ≥0∞}
    (h : ∀ k, e k * M ≤ I + (1 - ε) ^ k * M ∧ I ≤ e k * M + (1 - ε) ^ k * M) :
    Filter.Tendsto e Filter.atTop (nhds (I / M)) := by
  have hlt : 1 - ε < 1 := ENNReal.sub_lt_self ENNReal.one_ne_top one_ne_zero hε.ne'
  have hp := ENNReal.tendsto_pow_atTop_nhds_zero_of_lt_one hlt
  have hIM : I / M ≠ ∞ := ENNReal.div_ne_top hI hM
  have hu : Filter.Tendsto (fun k => I / M + (1 - ε) ^ k) Filter.atTop (nhds (I / M)) := by
    simpa using tendsto_const_nhds.add hp
  have hl : Filter.Tendsto (fun k => I / M - (1 - ε) ^ k) Filter.atTop (nhds (I / M)) := by
    simpa using ENNReal.Tendsto.sub tendsto_const_nhds hp (Or.inl hIM)
  refine tendsto_of_tendsto_of_tendsto_of_le_of_le hl hu (fun k => ?_) fun k => ?_
  · show I / M - (1 - ε) ^ k ≤ e k
    rw [tsub_le_iff_right, ENNReal.div_le_iff hM hM', add_mul]
    exact (h k).2
  · show e k ≤ I / M + (1 - ε) ^ k
    rw [← ENNReal.mul_le_mul_iff_left hM hM', add_mul, ENNReal.div_mul_cancel hM hM']
    exact (h k).1

/-- **C82, the limit, `explicit_final=False`.** -/
theorem C82_gibbs_limit {K : ℕ} [NeZero n] (hn : 2 ≤ n) {m : Gibbs.Funs (rows n false) U V Z} {S : StateSpace U V}
    (hS : S.JointMeas) {π0 : Measure U} [IsFiniteMeasure π0] (hπ : π0 ≠ 0) {y0 : V} {ts : Arr1 ℝ}
    (hm : BackwardExact m S π0 y0 ts K)
    (hsh : PathShape m K) (hfm : FwdMeas m y0 K) (hts : ts.2.length = K) (eb : Bool)
    (hreg : eb = true → ∀ v v' t (x : Fin (rows n false) → U), Regular (normalise fun i => S.logG v v' t (x i)))
    {β : ℝ} (hβ : ∀ v v' t u, S.logG v v' t u ≤ β)
    {Λ : Measure (U × (Fin (K + 1) → V))} (hΛ : MinorPinned m false y0 ts Λ) (hΛ0 : Λ ≠ 0)
    {F : U → ℝ≥0∞} (hF : Measurable F) (h1 : ∀ x, F x ≤ 1) (x : U) {bs : Arr1 (Fin (rows n false))}
    (hb : bs.2.length = K) (key : Key) :
    Filter.Tendsto (fun k => (gibbsLoop false m false eb y0 ts k key x bs).E (fun out => F out.1)) Filter.atTop
      (nhds ((∫⁻ u, F u ∂π0) / π0 Set.univ)) := by
  refine tendsto_of_close (C82_pinned_rate_pos hS hts eb hn β hΛ0) (by simpa using hπ) (measure_ne_top _ _) ?_ fun k =>
    C82_gibbs_converges hS hm hsh hfm hts eb hreg hβ hΛ hF h1 x hb k key
  refine ne_top_of_le_ne_top (measure_ne_top π0 Set.univ) ((lintegral_mono h1).trans ?_)
  simp

/-- **C82, the limit, `explicit_final=True`.** -/
theorem C82_gibbs_final_limit {K : ℕ} [NeZero n] {m : Gibbs.Funs (rows n true) U V Z} {S : StateSpace U V}
    (hS : S.JointMeas) {ν : Measure U} [IsProbabilityMeasure ν] {π0 : Measure U} [IsFiniteMeasure π0] (hπ : π0 ≠ 0)
    {y0 : V} {ts : Arr1 ℝ}
    (hm : ReferenceExact m S ν π0 y0 ts K fun v u => S.logG (arr v).1 ((arr v).2.headD (arr v).1) ts.1 u)
    (hsh : PathShape m K) (hfm : FwdMeas m y0 K) (hts : ts.2.length = K) (eb : Bool)
    (hreg : eb = true → ∀ v v' t (x : Fin (rows n true) → U), Regular (normalise fun i => S.logG v v' t (x i)))
    {β : ℝ} (hβ : ∀ v v' t u, S.logG v v' t u ≤ β)
    {Λ : Measure (Fin (K + 1) → V)} (hΛ : MinorObs m false y0 ts Λ) (hΛ0 : Λ ≠ 0)
    {F : U → ℝ≥0∞} (hF : Measurable F) (h1 : ∀ x, F x ≤ 1) (x : U) {bs : Arr1 (Fin (rows n true))}
    (hb : bs.2.length = K) (key : Key) :
    Filter.Tendsto (fun k => (gibbsLoop true m false eb y0 ts k key x bs).E (fun out => F out.1)) Filter.atTop
      (nhds ((∫⁻ u, F u ∂π0) / π0 Set.univ)) := by
  refine tendsto_of_close (C82_ref_rate_pos hS hts eb β hΛ0) (by simpa using hπ) (measure_ne_top _ _) ?_ fun k =>
    C82_gibbs_final_converges hS hm hsh hfm hts eb hreg hβ hΛ hF h1 x hb k key
  refine ne_top_of_le_ne_top (measure_ne_top π0 Set.univ) ((lintegral_mono h1).trans ?_)
  simp

/-! ### When the chain does not move -/

theorem Cf_one [NeZero N] (hs : ∀ i j : Fin N, i = j) (eb : Bool) (F : U → ℝ≥0∞) :
    ∀ (ss : List (FKStep U)) (l : List (U × Fin N)) (st : St N U) (b : Fin N) (u : U), l.length = ss.length →
      Weights st.W → (st.P 0).getLast? = some (u, 0) →
      Cf killingScheme.cond (moveΨ eb F) ss l st b = F ((l.map Prod.fst).getLastD u)
  | [], [], st, b, u, _, hW, hP => by
    simp only [Cf, List.map_nil, List.getLastD_nil]
    exact move_of_last eb st b hW fun a => by rw [hs a 0]; exact lastF_eq hP
  | s :: ss, (u', b') :: l, st, b, u, hlen, hW, hP => by
    have h : ∀ A y, Cf killingScheme.cond (moveΨ eb F) ss l (next s st A (Function.update y b' u')) b'
        = F ((l.map Prod.fst).getLastD u') := fun A y => by
      refine Cf_one hs eb F ss l _ b' u' (by simpa using hlen) (normalise_weights _) ?_
      rw [hs b' 0]
      simp [next]
    simp only [Cf, h, lintegral_const, measure_univ, mul_one, List.map_cons, List.getLastD_cons]
    rw [← Finset.sum_mul, killingScheme.sum_cond _ hW, one_mul]
  | [], _ :: _, _, _, _, hlen, _, _ => by simp at hlen
  | _ :: _, [], _, _, _, hlen, _, _ => by simp at hlen

omit [MeasurableSpace U] [MeasurableSpace V] in
theorem reverse_getLastD (a : Arr1 U) : a.reverse.2.getLastD a.reverse.1 = a.1 := by
  obtain ⟨x, l⟩ := a
  rcases List.eq_nil_or_concat l with h | ⟨l', b, h⟩
  · subst h
    rfl
  · subst h
    simp [Arr1.reverse, List.getLastD_eq_getLast?]

omit [MeasurableSpace V] in
/-- **C82, one particle.** With `nparticles = 1` and `explicit_final=False` the only particle is the reference, and the kernel
returns the state it was given, whatever the model. -/
theorem C82_one_particle_stuck {m : Gibbs.Funs (rows 1 false) U V Z} {S : StateSpace U V} {y0 : V} {K : ℕ}
    (htr : ∀ xs v t k (F : (Fin (rows 1 false) → U) → ℝ≥0∞), Measurable F →
      (m.transSampler xs v t k).E F = ∫⁻ x, F x ∂(Measure.pi fun i => S.trans v t (xs i)))
    (hlik : ∀ v xs v' t i, m.lik v xs v' t i = S.logG v v' t (xs i))
    (hst : ∀ key x (F : U → ℝ≥0∞), Measurable F → (m.fwd key x y0).E (fun p => F (m.unpack p).1.1) = F x)
    (hsh : PathShape m K) (eb : Bool) {ts : Arr1 ℝ} (hts : ts.2.length = K)
    (key : Key) (x : U) {bs : Arr1 (Fin (rows 1 false))} (hb : bs.2.length = K) {F : U → ℝ≥0∞} (hF : Measurable F) :
    (gibbsKernel false m false eb key x y0 bs ts).E (fun out => F out.1) = F x := by
  rw [E_gibbs_x0 hst false eb key x bs ts hF]
  simp only [gibbsPaths, Rand.E_bind, Rand.pure_eq, Rand.E_ret, Bool.false_eq_true, if_false]
  rw [← hst (split key 3 0) x F hF]
  refine Rand.E_congr_leaves (hsh.fwd _ _ _) fun p hp => ?_
  have hu : (m.unpack p).1.reverse.2.length = K := by simp [arr1_reverse_len, hp]
  have hv : (m.unpack p).2.reverse.2.length = K := by simp [arr1_reverse_len, hp]
  rw [E_forwardPass_pinned htr hlik _ ts.1 _ bs _ ts (hu.trans hv.symm) (hb.trans hv.symm) (hts.trans hv.symm)
    (measFun_move eb hF)]
  have hlen : (S.steps (m.unpack p).2.reverse.1 (m.unpack p).2.reverse.2 ts.toList).length = K := by
    rw [Csmc.steps_length _ _ _ _ (by simp [Arr1.toList, hts, hv]), hv]
  refine (Cf_one (fun i j => Fin.ext (by have h1 : rows 1 false = 1 := rfl; have := i.2; have := j.2; omega)) eb F _ _ _ _
    (m.unpack p).1.reverse.1 (by rw [hlen]; simp [hu, hb]) (normalise_weights _) ?_).trans ?_
  · rfl
  · rw [List.map_fst_zip (by omega)]
    congr 1
    exact reverse_getLastD _

theorem Cf_still [NeZero N] (eb : Bool) (F : ℝ → ℝ≥0∞) (s : FKStep ℝ) (hs : s.M = Kernel.id) (x : ℝ) (b b' : Fin N) (c : ℝ) :
    Cf killingScheme.cond (moveΨ eb F) [s] [(x, b')] (startSt N c x) b = F x := by
  have h : ∀ A : Fin N → Fin N, (Measure.pi fun i => s.M ((startSt N c x).x (A i))) = Measure.dirac fun _ => x := by
    intro A
    simp only [hs, Kernel.id_apply]
    exact pi_dirac fun i => (startSt N c x).x (A i)
  have h2 : ∀ A : Fin N → Fin N, moveΨ eb F (next s (startSt N c x) A (Function.update (fun _ => x) b' x)) b' = F x :=
    fun A => move_of_last eb _ b' (normalise_weights _) fun a => by
      refine lastF_eq (u := x) (i := a) ?_
      simp [next]
  have hW : Weights (startSt N c x).W := normalise_weights _
  simp only [Cf, h, lintegral_dirac, h2]
  rw [← Finset.sum_mul, killingScheme.sum_cond _ hW, one_mul]

/-- **C82, the hypothesis on the end of the noising path is needed.** In the exact model `exFuns`, whose noising leaves `x`
alone, the chain with `explicit_final=False` never leaves its start, however many particles and iterations. -/
theorem C82_pinned_stuck [NeZero n] {g : ℝ → ℝ → ℝ} (hg : Measurable fun p : ℝ × ℝ => g p.1 p.2) (eb : Bool) (y0 t0 t1 : ℝ)
    {F : ℝ → ℝ≥0∞} (hF : Measurable F) : ∀ (k : ℕ) (key : Key) (x : ℝ) (bs : Arr1 (Fin (rows n false))), bs.2.length = 1 →
      (gibbsLoop false (exFuns g (rows n false)) false eb y0 (t0, [t1]) k key x bs).E (fun out => F out.1) = F x
  | 0, _, _, _, _ => rfl
  | k + 1, key, x, bs, hb => by
    have hm := exFuns_exact hg (rows n false) y0 t0 t1
    have hsh := exFuns_shape g (rows n false)
    simp only [gibbsLoop, Rand.E_bind]
    have h1 : ∀ key, (gibbsKernel false (exFuns g (rows n false)) false eb key x y0 bs (t0, [t1])).E (fun out => F out.1)
        = F x := by
      intro key
      rw [E_gibbs_x0 hm.starts false eb key x bs _ hF]
      simp only [gibbsPaths, Rand.E_bind, Rand.pure_eq, Rand.E_ret, Bool.false_eq_true, if_false]
      rw [← hm.starts (split key 3 0) x F hF]
      have hl : ((exFuns g (rows n false)).fwd (split key 3 0) x y0).Leaves
          fun p => ∃ y1, p = ((x, y0), [(x, y1)]) :=
        (Rand.leaves_true (Rand.sample (split key 3 0) Set.univ (gaussianReal 0 1))).bind fun y1 _ =>
          (⟨y1, rfl⟩ : ∃ z1, _ = ((x, y0), [(x, z1)]))
      refine Rand.E_congr_leaves hl ?_
      rintro p ⟨y1, rfl⟩
      obtain ⟨b, bl⟩ := bs
      obtain ⟨b', rfl⟩ := List.length_eq_one_iff.1 hb
      refine (E_forwardPass_pinned hm.trans hm.lik (passKey eb key) t0 ((x, [x]) : Arr1 ℝ) (b, [b'])
        ((y1, [y0]) : Arr1 ℝ) (t0, [t1]) rfl rfl rfl (measFun_move eb hF)).trans ?_
      exact Cf_still eb F _ rfl x b b' _
    rw [← h1 (split key 2 1)]
    refine Rand.E_congr_leaves (leaves_gibbs_length hsh false eb _ x y0 hb rfl) fun out ho => ?_
    refine C82_pinned_stuck hg eb y0 t0 t1 hF k _ _ _ ?_
    match h : out.2.2.1 with
    | [] => simp [h] at ho
    | b :: l => simpa [h, asIdx] using ho

/-! ### The hypotheses can be met -/

/-- The law of the reversed observation path in `exFuns`. -/
noncomputable def exObs (y0 : ℝ) : Measure (Fin 2 → ℝ) := (gaussianReal 0 1).map fun y1 => ![y1, y0]

theorem measurable_exObs (y0 : ℝ) : Measurable fun y1 : ℝ => (![y1, y0] : Fin 2 → ℝ) := by
  refine measurable_pi_iff.2 fun i => ?_
  fin_cases i
  · exact measurable_id
  · exact measurable_const

theorem exFuns_minorObs {ef : Bool} (g : ℝ → ℝ → ℝ) (y0 t0 t1 : ℝ) :
    MinorObs (n := n) (exFuns g (rows n ef)) false y0 (t0, [t1]) (exObs y0) := by
  intro key x H hH
  rw [exObs, lintegral_map hH (measurable_exObs y0)]
  refine le_of_eq ?_
  simp only [gibbsPaths, exFuns, Rand.E_bind, Rand.E_map, Rand.E_sample, Rand.pure_eq, Rand.E_ret, Bool.false_eq_true,
    if_false]
  rfl

theorem exObs_ne (y0 : ℝ) : exObs y0 ≠ 0 := by
  intro h
  have : exObs y0 Set.univ = 1 := by
    rw [exObs, Measure.map_apply (measurable_exObs y0) MeasurableSet.univ]
    simp
  rw [h] at this
  simp at this

theorem exTarget_finite (a : ℝ) : IsFiniteMeasure ((gaussianReal 0 1).withDensity fun u =>
    ENNReal.ofReal (Real.exp (Real.cos u)) * ENNReal.ofReal (Real.exp (Real.cos (a * u)))) := by
  refine isFiniteMeasure_withDensity (ne_top_of_le_ne_top (b := ENNReal.ofReal (Real.exp 1) * ENNReal.ofReal (Real.exp 1)) ?_ ?_)
  · exact ENNReal.mul_ne_top ENNReal.ofReal_ne_top ENNReal.ofReal_ne_top
  · refine (lintegral_mono (g := fun _ => ENNReal.ofReal (Real.exp 1) * ENNReal.ofReal (Real.exp 1)) fun u => ?_).trans ?_
    · exact mul_le_mul' (ENNReal.ofReal_le_ofReal (Real.exp_le_exp.2 (Real.cos_le_one _)))
        (ENNReal.ofReal_le_ofReal (Real.exp_le_exp.2 (Real.cos_le_one _)))
    · simp

/-- Five particles beside the reference, forced move: the chain forgets where it started. -/
example (key : Key) (x x' : ℝ) (b b' c c' : Fin (rows 5 true)) (k : ℕ) {F : ℝ → ℝ≥0∞} (hF : Measurable F)
    (h1 : ∀ x, F x ≤ 1) :
    (gibbsLoop true (exFuns (fun _ u => Real.cos u) (rows 5 true)) false true 2 (0, [1]) k key x (b, [c])).E
        (fun out => F out.1)
      ≤ (gibbsLoop true (exFuns (fun _ u => Real.cos u) (rows 5 true)) false true 2 (0, [1]) k key x' (b', [c'])).E
        (fun out => F out.1)
        + (1 - refRate true 5 1 (exS (fun _ u => Real.cos u) fun _ => Real.measurable_cos) (gaussianReal 0 1)
            ((0, [1]) : Arr1 ℝ) (exObs 2)) ^ k :=
  have hg : Measurable fun p : ℝ × ℝ => Real.cos p.2 := by fun_prop
  have hm := exFuns_reference (g := fun _ u => Real.cos u) hg Real.measurable_cos (rows 5 true) 2 0 1
  C82_gibbs_final_forgets (exS_jointMeas (g := fun _ u => Real.cos u) hg) hm.trans hm.lik hm.normal hm.starts
    (exFuns_shape _ _) (fun _ _ _ u => Real.cos_le_one u) false true rfl
    (pathsLaw_of_fwd hm.starts (exFuns_fwdMeas _ _ _) _) (exFuns_minorObs _ _ _ _) hF h1 x x' rfl rfl k key

/-- And its law converges to the target, from every start. -/
example (key : Key) (x : ℝ) (b c : Fin (rows 5 true)) {F : ℝ → ℝ≥0∞} (hF : Measurable F) (h1 : ∀ x, F x ≤ 1) :
    Filter.Tendsto (fun k => (gibbsLoop true (exFuns (fun _ u => Real.cos u) (rows 5 true)) false false 2 (0, [1]) k key x
        (b, [c])).E (fun out => F out.1)) Filter.atTop
      (nhds ((∫⁻ u, F u ∂((gaussianReal 0 1).withDensity fun u =>
          ENNReal.ofReal (Real.exp (Real.cos u)) * ENNReal.ofReal (Real.exp (Real.cos u))))
        / ((gaussianReal 0 1).withDensity fun u =>
          ENNReal.ofReal (Real.exp (Real.cos u)) * ENNReal.ofReal (Real.exp (Real.cos u))) Set.univ)) := by
  have hg : Measurable fun p : ℝ × ℝ => Real.cos p.2 := by fun_prop
  have hm := exFuns_reference (g := fun _ u => Real.cos u) hg Real.measurable_cos (rows 5 true) 2 0 1
  have : IsFiniteMeasure ((gaussianReal 0 1).withDensity fun u =>
    ENNReal.ofReal (Real.exp (Real.cos u)) * ENNReal.ofReal (Real.exp (Real.cos u))) := by
    simpa using exTarget_finite 1
  refine C82_gibbs_final_limit (exS_jointMeas (g := fun _ u => Real.cos u) hg) ?_ hm (exFuns_shape _ _)
    (exFuns_fwdMeas _ _ _) rfl false (by simp) (β := 1) (fun _ _ _ u => Real.cos_le_one u)
    (exFuns_minorObs _ _ _ _) (exObs_ne 2) hF h1 x rfl key
  rw [Ne, withDensity_eq_zero_iff (by fun_prop)]
  intro h
  have h2 : gaussianReal 0 1 Set.univ = 0 := by
    refine measure_mono_null (fun u _ => ?_) h
    exact mul_ne_zero (ENNReal.ofReal_pos.2 (Real.exp_pos _)).ne' (ENNReal.ofReal_pos.2 (Real.exp_pos _)).ne'
  simp at h2

/-- A model whose noising forgets the state: everything is drawn afresh. -/
noncomputable def freshFuns (g : ℝ → ℝ → ℝ) (N : ℕ) : Gibbs.Funs N ℝ ℝ (ℝ × ℝ) where
  fwd k x y := (fun p => ((x, y), [p])) <$> Rand.sample k Set.univ ((gaussianReal 0 1).prod (gaussianReal 0 1))
  unpack p := (p.map Prod.fst, p.map Prod.snd)
  bridge _ y y' _ := pure (y, [y'])
  normal k _ := Rand.sample k Set.univ (Measure.pi fun _ => gaussianReal 0 1)
  transSampler _ _ _ k := Rand.sample k Set.univ (Measure.pi fun _ => gaussianReal 0 1)
  transLogpdf _ _ _ _ := fun _ => 0
  lik v xs _ _ := fun i => g v (xs i)

/-- Its state space model. -/
noncomputable def freshS (g : ℝ → ℝ → ℝ) (hg : ∀ v, Measurable (g v)) : StateSpace ℝ ℝ where
  init := gaussianReal 0 1
  prob := inferInstance
  trans _ _ := Kernel.const ℝ (gaussianReal 0 1)
  markov _ _ := inferInstance
  logG v _ _ u := g v u
  measG v _ _ := hg v
  logG0 _ _ _ := 0
  measG0 _ _ := measurable_const

theorem freshS_jointMeas {g : ℝ → ℝ → ℝ} (hg : Measurable fun p : ℝ × ℝ => g p.1 p.2) :
    (freshS g fun _ => hg.comp measurable_prodMk_left).JointMeas := by
  refine ⟨fun t => ?_, fun t => ?_⟩
  · exact measurable_const
  · show Measurable fun p : ℝ × ℝ × ℝ => g p.1 p.2.2
    have h : Measurable fun p : ℝ × ℝ × ℝ => (p.1, p.2.2) := by fun_prop
    exact hg.comp h

/-- The law of the end of the noising path and of the reversed observations. -/
noncomputable def freshEnd (y0 : ℝ) : Measure (ℝ × (Fin 2 → ℝ)) :=
  ((gaussianReal 0 1).prod (gaussianReal 0 1)).map fun p => (p.1, ![p.2, y0])

theorem measurable_freshEnd (y0 : ℝ) : Measurable fun p : ℝ × ℝ => ((p.1, ![p.2, y0]) : ℝ × (Fin 2 → ℝ)) :=
  measurable_fst.prodMk ((measurable_exObs y0).comp measurable_snd)

theorem freshFuns_minor {ef : Bool} (g : ℝ → ℝ → ℝ) (y0 t0 t1 : ℝ) :
    MinorPinned (n := n) (freshFuns g (rows n ef)) false y0 (t0, [t1]) (freshEnd y0) := by
  intro key x H hH
  rw [freshEnd, lintegral_map hH (measurable_freshEnd y0)]
  refine le_of_eq ?_
  simp only [gibbsPaths, freshFuns, Rand.E_bind, Rand.E_map, Rand.E_sample, Rand.pure_eq, Rand.E_ret, Bool.false_eq_true,
    if_false]
  rfl

theorem freshEnd_ne (y0 : ℝ) : freshEnd y0 ≠ 0 := by
  intro h
  have : freshEnd y0 Set.univ = 1 := by
    rw [freshEnd, Measure.map_apply (measurable_freshEnd y0) MeasurableSet.univ]
    simp
  rw [h] at this
  simp at this

theorem freshFuns_shape (g : ℝ → ℝ → ℝ) (N : ℕ) : PathShape (freshFuns g N) 1 where
  fwd k _ _ := (Rand.leaves_true (Rand.sample k Set.univ ((gaussianReal 0 1).prod (gaussianReal 0 1)))).bind
    fun _ _ => ⟨rfl, rfl⟩
  bridge _ _ _ _ := rfl

theorem freshFuns_fwdMeas (g : ℝ → ℝ → ℝ) (N : ℕ) (y0 : ℝ) : FwdMeas (freshFuns g N) y0 1 := by
  intro key φ hφ
  have hL : ∀ x, ((freshFuns g N).fwd key x y0).E
      (fun p => φ ((freshFuns g N).unpack p).1.reverse ((freshFuns g N).unpack p).2.reverse)
        = ∫⁻ p, φ (p.1, [x]) (p.2, [y0]) ∂((gaussianReal 0 1).prod (gaussianReal 0 1)) := by
    intro x
    simp only [freshFuns, Rand.E_map, Rand.E_sample]
    rfl
  simp only [hL]
  unfold MeasPaths at hφ
  have h2 : Measurable fun p : ℝ × (ℝ × ℝ) => ((![p.2.1, p.1], ![p.2.2, y0]) : (Fin 2 → ℝ) × (Fin 2 → ℝ)) := by
    refine (measurable_pi_iff.2 fun i => ?_).prodMk (measurable_pi_iff.2 fun i => ?_)
    · fin_cases i <;> simp <;> fun_prop
    · fin_cases i <;> simp; fun_prop
  exact (hφ.comp h2).lintegral_prod_right'

theorem freshFuns_exact {g : ℝ → ℝ} (hg : Measurable g) (N : ℕ) (y0 t0 t1 : ℝ) :
    BackwardExact (freshFuns (fun v _ => g v) N) (freshS (fun v _ => g v) fun _ => measurable_const)
      (ENNReal.ofReal (Real.exp (g y0)) • gaussianReal 0 1) y0 (t0, [t1]) 1 where
  trans xs v t k F hF := by
    simp only [freshFuns, freshS, Rand.E_sample, Kernel.const_apply]
  lik _ _ _ _ _ := rfl
  starts key x F hF := by
    simp [freshFuns, Rand.E_map, Rand.E_sample, Arr1.map]
  factor := by
    refine ⟨freshEnd y0, fun key φ hφ => ?_⟩
    have hL : ∀ x, ((freshFuns (fun v _ => g v) N).fwd key x y0).E
        (fun p => φ ((freshFuns (fun v _ => g v) N).unpack p).1.reverse ((freshFuns (fun v _ => g v) N).unpack p).2.reverse)
          = ∫⁻ p, φ (p.1, [x]) (p.2, [y0]) ∂((gaussianReal 0 1).prod (gaussianReal 0 1)) := by
      intro x
      simp only [freshFuns, Rand.E_map, Rand.E_sample]
      rfl
    unfold MeasPaths at hφ
    have h2 : Measurable fun p : ℝ × (ℝ × ℝ) => ((![p.2.1, p.1], ![p.2.2, y0]) : (Fin 2 → ℝ) × (Fin 2 → ℝ)) := by
      refine (measurable_pi_iff.2 fun i => ?_).prodMk (measurable_pi_iff.2 fun i => ?_)
      · fin_cases i <;> simp <;> fun_prop
      · fin_cases i <;> simp; fun_prop
    have h3 : Measurable fun p : ℝ × (ℝ × ℝ) => φ (p.2.1, [p.1]) (p.2.2, [y0]) := hφ.comp h2
    have h4 : Measurable fun p : (ℝ × (Fin 2 → ℝ)) × ℝ =>
        ((![p.1.1, p.2], p.1.2) : (Fin 2 → ℝ) × (Fin 2 → ℝ)) := by
      refine (measurable_pi_iff.2 fun i => ?_).prodMk (by fun_prop)
      fin_cases i <;> simp <;> fun_prop
    have h5 : Measurable fun p : (ℝ × (Fin 2 → ℝ)) × ℝ => φ (p.1.1, [p.2]) (arr p.1.2) := hφ.comp h4
    have hstep : ∀ q : ℝ × (Fin 2 → ℝ), pathInt ((freshS (fun v _ => g v) fun _ => measurable_const).steps
        (arr q.2).1 (arr q.2).2 (Arr1.toList ((t0, [t1]) : Arr1 ℝ))) q.1 (fun l => φ (q.1, l) (arr q.2))
          = ENNReal.ofReal (Real.exp (g (q.2 1))) * ∫⁻ x, φ (q.1, [x]) (arr q.2) ∂(gaussianReal 0 1) := fun q => rfl
    have hR : Measurable fun q : ℝ × (Fin 2 → ℝ) =>
        ENNReal.ofReal (Real.exp (g (q.2 1))) * ∫⁻ x, φ (q.1, [x]) (arr q.2) ∂(gaussianReal 0 1) := by
      refine Measurable.mul ?_ h5.lintegral_prod_right'
      have h : Measurable fun q : ℝ × (Fin 2 → ℝ) => q.2 1 := by fun_prop
      exact ENNReal.measurable_ofReal.comp (Real.measurable_exp.comp (hg.comp h))
    simp only [hL, hstep]
    rw [freshEnd, lintegral_map hR (measurable_freshEnd y0), lintegral_smul_measure,
      lintegral_lintegral_swap h3.aemeasurable, smul_eq_mul, ← lintegral_const_mul]
    · rfl
    · exact (h3.comp measurable_swap).lintegral_prod_right'

/-- Five particles, scanning backward pass, a likelihood that depends on the state. -/
example (key : Key) (x x' : ℝ) (b b' c c' : Fin (rows 5 false)) (k : ℕ) {F : ℝ → ℝ≥0∞} (hF : Measurable F)
    (h1 : ∀ x, F x ≤ 1) :
    (gibbsLoop false (freshFuns (fun _ u => Real.cos u) (rows 5 false)) false false 2 (0, [1]) k key x (b, [c])).E
        (fun out => F out.1)
      ≤ (gibbsLoop false (freshFuns (fun _ u => Real.cos u) (rows 5 false)) false false 2 (0, [1]) k key x' (b', [c'])).E
        (fun out => F out.1)
        + (1 - pinnedRate false 5 1 (freshS (fun _ u => Real.cos u) fun _ => Real.measurable_cos)
            ((0, [1]) : Arr1 ℝ) (freshEnd 2)) ^ k :=
  have hg : Measurable fun p : ℝ × ℝ => Real.cos p.2 := by fun_prop
  have hst : ∀ key x (F : ℝ → ℝ≥0∞), Measurable F → ((freshFuns (fun _ u => Real.cos u) (rows 5 false)).fwd key x 2).E
      (fun p => F ((freshFuns (fun _ u => Real.cos u) (rows 5 false)).unpack p).1.1) = F x := fun key x F _ => by
    simp [freshFuns, Rand.E_map, Rand.E_sample, Arr1.map]
  C82_gibbs_forgets (freshS_jointMeas (g := fun _ u => Real.cos u) hg)
    (fun xs v t k F hF => by simp only [freshFuns, freshS, Rand.E_sample, Kernel.const_apply]) (fun _ _ _ _ _ => rfl) hst
    (freshFuns_shape _ _) (fun _ _ _ u => Real.cos_le_one u) false false rfl
    (pathsLaw_of_fwd hst (freshFuns_fwdMeas _ _ _) _) (freshFuns_minor _ _ _ _) hF h1 x x' rfl rfl k key

/-- The limit in the exact model in which `x` and `y` are independent. -/
example (key : Key) (x : ℝ) (b c : Fin (rows 5 false)) {F : ℝ → ℝ≥0∞} (hF : Measurable F) (h1 : ∀ x, F x ≤ 1) :
    Filter.Tendsto (fun k => (gibbsLoop false (freshFuns (fun v _ => Real.cos v) (rows 5 false)) false true 2 (0, [1]) k key x
        (b, [c])).E (fun out => F out.1)) Filter.atTop
      (nhds ((∫⁻ u, F u ∂(ENNReal.ofReal (Real.exp (Real.cos 2)) • gaussianReal 0 1))
        / (ENNReal.ofReal (Real.exp (Real.cos 2)) • gaussianReal 0 1) Set.univ)) := by
  have hg : Measurable fun p : ℝ × ℝ => Real.cos p.1 := by fun_prop
  have : IsFiniteMeasure (ENNReal.ofReal (Real.exp (Real.cos 2)) • gaussianReal 0 1) := by
    refine ⟨?_⟩
    simp
  refine C82_gibbs_limit (by norm_num) (freshS_jointMeas (g := fun v _ => Real.cos v) hg) ?_
    (freshFuns_exact Real.measurable_cos _ 2 0 1) (freshFuns_shape _ _)
    (freshFuns_fwdMeas _ _ _) rfl true (fun _ v v' t x => regular_of_bounded fun i => Real.abs_cos_le_one _) (β := 1)
    (fun v _ _ _ => Real.cos_le_one v) (freshFuns_minor _ _ _ _) (freshEnd_ne 2) hF h1 x rfl key
  intro h
  have h2 := congrArg (fun μ : Measure ℝ => μ Set.univ) h
  simp at h2
  exact absurd (Real.exp_pos _) (not_lt.2 h2)

/-- Conditional SMC with four particles in the model `freshS`. -/
example (key : Key) (us : Arr1 ℝ) (bs : Arr1 (Fin 4)) (vs : Arr1 ℝ) (ts : Arr1 ℝ) (hl : us.2.length = vs.2.length)
    (hb : bs.2.length = vs.2.length) (ht : ts.2.length = vs.2.length) {φ : List ℝ → ℝ≥0∞}
    (hφ : MeasList (1 + vs.2.length) φ) :
    ENNReal.ofReal ((((4 : ℕ) : ℝ) - 1) ^ 2 / (4 : ℕ) * (Real.exp (-1) / (4 : ℕ))) ^ vs.2.length *
        (ENNReal.ofReal ((((4 : ℕ) : ℝ) - 1) * (Real.exp (-0) / (4 : ℕ))) *
          ∫⁻ u, ENNReal.ofReal (Real.exp 0) * pathInt ((freshS (fun v u => Real.cos (v * u)) fun _ => by fun_prop).steps
            vs.1 vs.2 ts.toList) u (fun l => φ (u :: l)) ∂(gaussianReal 0 1))
      ≤ (Csmc.kernel (modelFuns (freshS (fun v u => Real.cos (v * u)) fun _ => by fun_prop) 4) CsmcResampling.killing 4
          false key us bs vs ts).E fun out => φ out.1 :=
  C82_csmc_minorisation (implements_modelFuns _ 4) killingScheme spreads_killing (fun _ _ _ _ => Real.cos_le_one _)
    (fun _ _ _ => le_refl (0 : ℝ)) 4 key us bs vs ts hl hb ht hφ

/-- One particle. -/
example (key : Key) (x : ℝ) (b c : Fin (rows 1 false)) {F : ℝ → ℝ≥0∞} (hF : Measurable F) :
    (gibbsKernel false (freshFuns (fun v _ => Real.cos v) (rows 1 false)) false true key x 2 (b, [c]) (0, [1])).E
      (fun out => F out.1) = F x :=
  have hm := freshFuns_exact Real.measurable_cos (rows 1 false) 2 0 1
  C82_one_particle_stuck hm.trans hm.lik hm.starts (freshFuns_shape _ _) true rfl key x rfl hF

end

end Props
end Fbs
