import Verif.Props.Linear
import Verif.Lemmas.Gauss
import Verif.Spec.Paths

/-!
# C31: exactness of the forward simulation
-/

open MeasureTheory ProbabilityTheory
open scoped ENNReal NNReal

namespace Fbs
namespace Spec

open Linear

variable {ι : Type} [Fintype ι]

/-- The transition law of the SDE from state `x` at time `s` to time `t`. -/
noncomputable def transLaw (sde : SDE) (t s : ℝ) (x : ι → ℝ) : Measure (ι → ℝ) :=
  Measure.pi fun i => gaussianReal ((discretise sde t s).1 * x i) (discretise sde t s).2.toNNReal

/-- Integral over the states of the Markov chain that moves from `x` at time `s` through the given times. -/
noncomputable def chainInt (sde : SDE) : ℝ → List ℝ → (ι → ℝ) → (List (ι → ℝ) → ℝ≥0∞) → ℝ≥0∞
  | _, [], _, φ => φ []
  | s, t :: ts, x, φ => ∫⁻ y, chainInt sde t ts y (fun l => φ (y :: l)) ∂(transLaw sde t s x)

/-- All transition variances along the grid are non-negative. -/
def GridOk (sde : SDE) : ℝ → List ℝ → Prop
  | _, [] => True
  | s, t :: ts => 0 ≤ (discretise sde t s).2 ∧ GridOk sde t ts

end Spec

namespace Props

open Linear Spec Jax

variable {ι : Type} [Fintype ι]

instance (sde : SDE) (t s : ℝ) (x : ι → ℝ) : IsProbabilityMeasure (transLaw sde t s x) := by
  unfold transLaw; infer_instance

/-- The scan over the grid. -/
noncomputable def fwdScan (sde : SDE) (x : ι → ℝ) (s : ℝ) (ts : List ℝ) (rnds : List (ι → ℝ)) : List (ι → ℝ) :=
  (Jax.scan (fwdBody sde) x (ts.zip (Arr1.init (s, ts) |>.zip rnds))).2

omit [Fintype ι] in
theorem fwdScan_cons (sde : SDE) (x : ι → ℝ) (s t : ℝ) (ts : List ℝ) (r : ι → ℝ) (rnds : List (ι → ℝ)) :
    fwdScan sde x s (t :: ts) (r :: rnds) =
      (fun i => (discretise sde t s).1 * x i + Real.sqrt (discretise sde t s).2 * r i) ::
        fwdScan sde (fun i => (discretise sde t s).1 * x i + Real.sqrt (discretise sde t s).2 * r i) t ts rnds := rfl

omit [Fintype ι] in
theorem fwdScan_length (sde : SDE) : ∀ (ts : List ℝ) (x : ι → ℝ) (s : ℝ) (rnds : List (ι → ℝ)),
    rnds.length = ts.length → (fwdScan sde x s ts rnds).length = ts.length
  | [], x, s, rnds, _ => by simp [fwdScan, Jax.scan]
  | t :: ts, x, s, [], h => by simp at h
  | t :: ts, x, s, r :: rnds, h => by
    rw [fwdScan_cons, List.length_cons, fwdScan_length sde ts _ t rnds (by simpa using h), List.length_cons]

/-- **C31, shape.**  The path starts at `x0` and has the length of `ts`. -/
theorem C31_shape (sde : SDE) (key : Key) (x0 : ι → ℝ) (ts : Arr1 ℝ) {p : List (ι → ℝ)}
    (h : (simulatePath sde key x0 ts).Returns p) : p.head? = some x0 ∧ p.length = ts.toList.length := by
  simp only [simulatePath, normalRows, Rand.returns_bind, Rand.returns_map, Rand.pure_eq, Rand.returns_ret] at h
  obtain ⟨_, ⟨w, -, rfl⟩, rfl⟩ := h
  refine ⟨rfl, ?_⟩
  have := fwdScan_length sde ts.2 x0 ts.1 (List.ofFn w) (by simp)
  simpa [Arr1.toList, fwdScan] using this

omit [Fintype ι] in
theorem measurable_fwdScan (sde : SDE) : ∀ (ts : List ℝ) (s : ℝ) (Z : Type) [MeasurableSpace Z]
    (φ : Z → List (ι → ℝ) → ℝ≥0∞), (Measurable fun q : Z × (Fin ts.length → ι → ℝ) => φ q.1 (List.ofFn q.2)) →
    Measurable fun q : (Z × (ι → ℝ)) × (Fin ts.length → ι → ℝ) => φ q.1.1 (fwdScan sde q.1.2 s ts (List.ofFn q.2))
  | [], s, Z, _, φ, hφ => by
    have : (fun q : (Z × (ι → ℝ)) × (Fin 0 → ι → ℝ) => φ q.1.1 (fwdScan sde q.1.2 s [] (List.ofFn q.2))) =
        fun q => φ q.1.1 (List.ofFn q.2) := by
      funext q; simp [fwdScan, Jax.scan]
    exact this ▸ hφ.comp ((measurable_fst.comp measurable_fst).prodMk measurable_snd)
  | t :: ts, s, Z, _, φ, hφ => by
    have hstep : Measurable fun q : (Z × (ι → ℝ)) × (Fin (ts.length + 1) → ι → ℝ) =>
        (fun i => (discretise sde t s).1 * q.1.2 i + Real.sqrt (discretise sde t s).2 * q.2 0 i : ι → ℝ) :=
      measurable_pi_iff.2 fun i => by fun_prop
    have hφ' : Measurable fun q : (Z × (ι → ℝ)) × (Fin ts.length → ι → ℝ) =>
        (fun (z : Z × (ι → ℝ)) l => φ z.1 (z.2 :: l)) q.1 (List.ofFn q.2) := by
      have h : Measurable fun q : (Z × (ι → ℝ)) × (Fin ts.length → ι → ℝ) =>
          (q.1.1, (Fin.cons q.1.2 q.2 : Fin (ts.length + 1) → ι → ℝ)) := by
        refine (measurable_fst.comp measurable_fst).prodMk (measurable_pi_iff.2 fun j => ?_)
        refine Fin.cases ?_ (fun j => ?_) j
        · simp only [Fin.cons_zero]; exact measurable_snd.comp measurable_fst
        · simp only [Fin.cons_succ]; exact (measurable_pi_apply j).comp measurable_snd
      have := hφ.comp h
      simpa [Function.comp_def, List.ofFn_succ] using this
    have ih := measurable_fwdScan sde ts t (Z × (ι → ℝ)) (fun z l => φ z.1 (z.2 :: l)) hφ'
    have hg : Measurable fun q : (Z × (ι → ℝ)) × (Fin (ts.length + 1) → ι → ℝ) =>
        ((((q.1.1, fun i => (discretise sde t s).1 * q.1.2 i + Real.sqrt (discretise sde t s).2 * q.2 0 i),
          fun i => (discretise sde t s).1 * q.1.2 i + Real.sqrt (discretise sde t s).2 * q.2 0 i),
          fun j : Fin ts.length => q.2 j.succ) :
        ((Z × (ι → ℝ)) × (ι → ℝ)) × (Fin ts.length → ι → ℝ)) :=
      (((measurable_fst.comp measurable_fst).prodMk hstep).prodMk hstep).prodMk
        (measurable_pi_iff.2 fun j => (measurable_pi_apply j.succ).comp measurable_snd)
    have h := ih.comp hg
    refine (congrArg Measurable ?_).mp h
    funext q
    simp only [Function.comp]
    rw [← fwdScan_cons, ← List.ofFn_succ (f := q.2)]

theorem lintegral_fwdScan (sde : SDE) : ∀ (ts : List ℝ) (s : ℝ), GridOk sde s ts → ∀ (x : ι → ℝ)
    (φ : List (ι → ℝ) → ℝ≥0∞), MeasList ts.length φ →
    ∫⁻ w, φ (fwdScan sde x s ts (List.ofFn w)) ∂(Measure.pi fun _ : Fin ts.length => stdNormal ι) =
      chainInt sde s ts x φ
  | [], s, _, x, φ, _ => by
    simp [fwdScan, Jax.scan, chainInt]
  | t :: ts, s, hg, x, φ, hφ => by
    have hφ' : Measurable fun q : (ι → ℝ) × (Fin ts.length → ι → ℝ) =>
        (fun (y : ι → ℝ) l => φ (y :: l)) q.1 (List.ofFn q.2) := by
      have h : Measurable fun q : (ι → ℝ) × (Fin ts.length → ι → ℝ) =>
          (Fin.cons q.1 q.2 : Fin (ts.length + 1) → ι → ℝ) := by
        refine measurable_pi_iff.2 fun j => ?_
        refine Fin.cases ?_ (fun j => ?_) j
        · simpa using measurable_fst
        · simp only [Fin.cons_succ]; exact (measurable_pi_apply j).comp measurable_snd
      have := Measurable.comp (g := fun p : Fin (ts.length + 1) → ι → ℝ => φ (List.ofFn p)) hφ h
      simpa [Function.comp_def, List.ofFn_succ] using this
    have hm := measurable_fwdScan sde (t :: ts) s Unit (fun _ => φ)
      (Measurable.comp (g := fun p : Fin (ts.length + 1) → ι → ℝ => φ (List.ofFn p)) hφ measurable_snd)
    have hm1 : Measurable fun w : Fin (ts.length + 1) → ι → ℝ => φ (fwdScan sde x s (t :: ts) (List.ofFn w)) :=
      hm.comp (measurable_prodMk_left (x := ((), x)))
    have hcons : ∀ (z : ι → ℝ) (w : Fin ts.length → ι → ℝ),
        φ (fwdScan sde x s (t :: ts) (List.ofFn (Fin.cons z w : Fin (ts.length + 1) → ι → ℝ))) =
        (fun y : ι → ℝ => φ (y :: fwdScan sde y t ts (List.ofFn w)))
          (fun i => (discretise sde t s).1 * x i + Real.sqrt (discretise sde t s).2 * z i) := by
      intro z w
      rw [List.ofFn_succ]
      simp only [Fin.cons_zero, Fin.cons_succ]
      rw [fwdScan_cons]
    have ih : ∀ y : ι → ℝ, ∫⁻ w, φ (y :: fwdScan sde y t ts (List.ofFn w))
        ∂(Measure.pi fun _ : Fin ts.length => stdNormal ι) = chainInt sde t ts y (fun l => φ (y :: l)) := fun y =>
      lintegral_fwdScan sde ts t hg.2 y (fun l => φ (y :: l)) (hφ'.comp measurable_prodMk_left)
    have hm2 : Measurable fun y : ι → ℝ => chainInt sde t ts y (fun l => φ (y :: l)) := by
      have h := measurable_fwdScan sde ts t (ι → ℝ) (fun y l => φ (y :: l)) hφ'
      have h2 : Measurable fun q : (ι → ℝ) × (Fin ts.length → ι → ℝ) =>
          φ (q.1 :: fwdScan sde q.1 t ts (List.ofFn q.2)) :=
        h.comp ((measurable_fst.prodMk measurable_fst).prodMk measurable_snd)
      have h3 := h2.lintegral_prod_right' (ν := Measure.pi fun _ : Fin ts.length => stdNormal ι)
      exact (funext ih) ▸ h3
    show ∫⁻ w, φ (fwdScan sde x s (t :: ts) (List.ofFn w)) ∂(Measure.pi fun _ : Fin (ts.length + 1) => stdNormal ι) = _
    rw [lintegral_rows _ _ hm1]
    simp only [hcons]
    rw [lintegral_congr fun z => ih _]
    exact lintegral_stdNormal hg.1 (fun i => (discretise sde t s).1 * x i) hm2

/-- **C31, joint law.**  The path is the Markov chain with the exact transition laws of the SDE. -/
theorem C31_joint (sde : SDE) (key : Key) (x0 : ι → ℝ) (ts : Arr1 ℝ) (hg : GridOk sde ts.1 ts.2)
    {φ : List (ι → ℝ) → ℝ≥0∞} (hφ : MeasList ts.toList.length φ) :
    (simulatePath sde key x0 ts).E φ = chainInt sde ts.1 ts.2 x0 (fun l => φ (x0 :: l)) := by
  have hφ' : MeasList ts.2.length (fun l => φ (x0 :: l)) := by
    have h : Measurable fun q : Fin ts.2.length → ι → ℝ => (Fin.cons x0 q : Fin (ts.2.length + 1) → ι → ℝ) := by
      refine measurable_pi_iff.2 fun j => ?_
      refine Fin.cases ?_ (fun j => ?_) j
      · simp
      · simpa using measurable_pi_apply j
    have := Measurable.comp (g := fun p : Fin (ts.2.length + 1) → ι → ℝ => φ (List.ofFn p)) hφ h
    simpa [MeasList, Function.comp_def, List.ofFn_succ] using this
  simp only [simulatePath, normalRows, Rand.E_bind, Rand.E_map, Rand.E_sample, Rand.pure_eq, Rand.E_ret]
  exact lintegral_fwdScan sde ts.2 ts.1 hg x0 _ hφ'

theorem transLaw_eq (sde : SDE) (t s : ℝ) (x : ι → ℝ) :
    transLaw sde t s x = gaussProd (fun i => 0 + (discretise sde t s).1 * x i) (discretise sde t s).2.toNNReal := by
  simp [transLaw, gaussProd]

/-- Chapman–Kolmogorov for the transition law. -/
theorem transLaw_comp {sde : SDE} (h : Defined sde) {t s r : ℝ} (h1 : 0 ≤ (discretise sde t s).2)
    (h2 : 0 ≤ (discretise sde s r).2) (x : ι → ℝ) {f : (ι → ℝ) → ℝ≥0∞} (hf : Measurable f) :
    ∫⁻ y, ∫⁻ z, f z ∂(transLaw sde t s y) ∂(transLaw sde s r x) = ∫⁻ z, f z ∂(transLaw sde t r x) := by
  obtain ⟨-, hF, hQ⟩ := C26_flow h t s r
  simp only [transLaw_eq]
  rw [lintegral_gaussProd_comp (discretise sde t s).1 hf, hF, hQ, Real.toNNReal_add (by positivity) h1,
    Real.toNNReal_mul (by positivity)]
  simp [mul_assoc]

theorem chainInt_const (sde : SDE) : ∀ (ts : List ℝ) (s : ℝ) (x : ι → ℝ) (c : ℝ≥0∞),
    chainInt sde s ts x (fun _ => c) = c
  | [], _, _, _ => rfl
  | t :: ts, s, x, c => by
    simp only [chainInt, chainInt_const sde ts]
    simp

theorem getD_of_lt {α : Type} (l : List α) (d : α) {k : ℕ} (h : k < l.length) : l.getD k d = l[k] := by
  simp [h]

theorem chainInt_marginal {sde : SDE} (h : Defined sde) : ∀ (ts : List ℝ) (s : ℝ), GridOk sde s ts →
    ∀ (k : ℕ), k ≤ ts.length → ∀ (x : ι → ℝ) (f : (ι → ℝ) → ℝ≥0∞), Measurable f →
    0 ≤ (discretise sde ((s :: ts).getD k s) s).2 ∧
    chainInt sde s ts x (fun l => f ((x :: l).getD k x)) = ∫⁻ y, f y ∂(transLaw sde ((s :: ts).getD k s) s x)
  | ts, s, _, 0, _, x, f, hf => by
    have h0 := (C26_flow h s s s).1
    have hd := lintegral_stdNormal le_rfl x hf
    simp only [List.getD_cons_zero, chainInt_const]
    refine ⟨by rw [h0], ?_⟩
    rw [transLaw_eq, h0]
    simp only [one_mul, zero_add]
    rw [← hd]
    simp
  | [], s, _, k + 1, hk, _, _, _ => by simp at hk
  | t :: ts, s, hg, k + 1, hk, x, f, hf => by
    have ih := fun y : ι → ℝ => chainInt_marginal h ts t hg.2 k (by simpa using hk) y f hf
    have e : ((s :: t :: ts).getD (k + 1) s) = (t :: ts).getD k t := by
      simp only [List.getD_cons_succ]
      rw [getD_of_lt _ _ (by simp at hk ⊢; omega), getD_of_lt _ _ (by simp at hk ⊢; omega)]
    have e2 : ∀ (y : ι → ℝ) (l : List (ι → ℝ)), l.length = ts.length →
        ((x :: y :: l).getD (k + 1) x) = (y :: l).getD k y := by
      intro y l hl
      simp only [List.getD_cons_succ]
      rw [getD_of_lt _ _ (by simp at hk ⊢; omega), getD_of_lt _ _ (by simp at hk ⊢; omega)]
    have hcongr : ∀ (ts : List ℝ) (s : ℝ) (x : ι → ℝ) (φ ψ : List (ι → ℝ) → ℝ≥0∞),
        (∀ l, l.length = ts.length → φ l = ψ l) → chainInt sde s ts x φ = chainInt sde s ts x ψ := by
      intro ts
      induction ts with
      | nil => intro s x φ ψ hh; exact hh [] rfl
      | cons t ts ih =>
        intro s x φ ψ hh
        simp only [chainInt]
        exact lintegral_congr fun y => ih t y _ _ fun l hl => hh (y :: l) (by simp [hl])
    rw [e]
    obtain ⟨hQ, -⟩ := ih x
    refine ⟨?_, ?_⟩
    · rw [(C26_flow h _ t s).2.2]
      exact add_nonneg (mul_nonneg (sq_nonneg _) hg.1) hQ
    · show ∫⁻ y, chainInt sde t ts y (fun l => f ((x :: y :: l).getD (k + 1) x)) ∂(transLaw sde t s x) = _
      rw [← transLaw_comp h hQ hg.1 x hf]
      refine lintegral_congr fun y => ?_
      rw [← (ih y).2]
      exact hcongr ts t y _ _ fun l hl => by rw [e2 y l hl]

/-- **C31, marginals.**  Whatever the grid, the state at `ts[k]` has the transition law from `ts[0]`. -/
theorem C31_marginal {sde : SDE} (h : Defined sde) (key : Key) (x0 : ι → ℝ) (ts : Arr1 ℝ)
    (hg : GridOk sde ts.1 ts.2) (k : ℕ) (hk : k ≤ ts.2.length) {f : (ι → ℝ) → ℝ≥0∞} (hf : Measurable f) :
    (simulatePath sde key x0 ts).E (fun p => f (p.getD k x0)) =
      ∫⁻ y, f y ∂(transLaw sde (ts.toList.getD k ts.1) ts.1 x0) := by
  rw [C31_joint sde key x0 ts hg]
  · exact (chainInt_marginal h ts.2 ts.1 hg k hk x0 f hf).2
  · have : (fun p : Fin ts.toList.length → ι → ℝ => f ((List.ofFn p).getD k x0)) = fun p =>
        f (p ⟨k, by simp [Arr1.toList]; omega⟩) := by
      funext p
      rw [getD_of_lt _ _ (by rw [List.length_ofFn]; simp only [Arr1.toList, List.length_cons]; omega)]
      simp
    unfold MeasList
    rw [this]
    exact hf.comp (measurable_pi_apply _)

/-- **C31, single time.**  `keep_path=False` at one time has that same law. -/
theorem C31_single (sde : SDE) (key : Key) (x0 : ι → ℝ) (t t0 : ℝ) (hQ : 0 ≤ (discretise sde t t0).2)
    {f : (ι → ℝ) → ℝ≥0∞} (hf : Measurable f) :
    (simulateMarginal sde key x0 t (some t0)).E (fun r => r.toOption.elim 0 f) =
      ∫⁻ y, f y ∂(transLaw sde t t0 x0) := by
  simp only [simulateMarginal, Jax.normal, Rand.E_bind, Rand.E_sample, Rand.pure_eq, Rand.E_ret, Except.toOption,
    Option.elim]
  exact lintegral_stdNormal hQ (fun i => (discretise sde t t0).1 * x0 i) hf

/-- **C31, what fails.**  The documented default `t0=None` does not mean `ts[0]` when `keep_path=False`: the call
raises. -/
theorem C31_default_t0_raises (sde : SDE) (key : Key) (x0 : ι → ℝ) (t : ℝ) {r}
    (h : (simulateMarginal sde key x0 t none).Returns r) : ∃ e, r = .error e := by
  simp only [simulateMarginal, Rand.pure_eq, Rand.returns_ret] at h
  exact ⟨_, h⟩

/-- Increasing grids of admissible times have non-negative variances. -/
theorem gridOk_of_increasing {sde : SDE} : ∀ (ts : List ℝ) (s : ℝ), Admissible sde s → (∀ t ∈ ts, Admissible sde t) →
    (s :: ts).Pairwise (· < ·) → GridOk sde s ts
  | [], _, _, _, _ => trivial
  | t :: ts, s, hs, h, hp => by
    obtain ⟨h1, h2⟩ := List.pairwise_cons.1 hp
    exact ⟨(C29_bounds (h t (by simp)) hs (h1 t (by simp))).2.1.le,
      gridOk_of_increasing ts t (h t (by simp)) (fun t' ht' => h t' (by simp [ht'])) h2⟩

/-- **C31, `make_ou_sde` with `keep_path=False`.**  At the given (absolute) times the states are independent, each with
the transition law from time `0`. -/
theorem C31_ou_marginals (a b : ℝ) (key : Key) (x0 : ι → ℝ) (ts : List ℝ)
    (hQ : ∀ k : Fin ts.length, 0 ≤ (discretise (.const a b) ts[k] 0).2) {φ : List (ι → ℝ) → ℝ≥0∞}
    (hφ : MeasList ts.length φ) :
    (simulateMarginalOu a b key x0 ts).E φ =
      ∫⁻ w, φ (List.ofFn w) ∂(Measure.pi fun k : Fin ts.length => transLaw (.const a b) ts[k] 0 x0) := by
  have hd : ∀ t, discretiseOu a b t = discretise (.const a b) t 0 := fun t => by
    simp [discretiseOu, discretise]
  let g : Fin ts.length → (ι → ℝ) → ι → ℝ := fun k z i =>
    (discretise (.const a b) ts[k] 0).1 * x0 i + Real.sqrt (discretise (.const a b) ts[k] 0).2 * z i
  have hg : ∀ k, Measurable (g k) := fun k => measurable_pi_iff.2 fun i =>
    measurable_const.add ((measurable_pi_apply i).const_mul _)
  have hlaw : ∀ k : Fin ts.length, (stdNormal ι).map (g k) = transLaw (.const a b) ts[k] 0 x0 := by
    intro k
    simp only [g]
    rw [stdNormal_eq, gaussProd_map, Real.sq_sqrt (hQ k), mul_one]
    simp [transLaw, gaussProd]
  have hsf : ∀ k : Fin ts.length, SigmaFinite ((stdNormal ι).map (g k)) := fun k => by rw [hlaw]; infer_instance
  have hpi := Measure.pi_map_pi (μ := fun _ : Fin ts.length => stdNormal ι) (f := g) (fun k => (hg k).aemeasurable)
  simp only [hlaw] at hpi
  have hgm : Measurable fun (x : Fin ts.length → ι → ℝ) k => g k (x k) :=
    measurable_pi_iff.2 fun k => (hg k).comp (measurable_pi_apply k)
  rw [← hpi, lintegral_map hφ hgm]
  simp only [simulateMarginalOu, normalRows, Rand.E_bind, Rand.E_map, Rand.E_sample, Rand.pure_eq, Rand.E_ret, hd]
  refine lintegral_congr fun w => ?_
  congr 1
  refine List.ext_getElem (by simp) fun k h1 h2 => ?_
  simp [g]

/-- **C32, `keep_path=False`.**  Row `k` of what `make_ou_sde` returns has the law of what `make_linear_sde` returns for the single
time `ts[k]` and the initial time `0`, whatever the keys. -/
theorem C32_marginal (a b : ℝ) (key key' : Key) (x0 : ι → ℝ) (ts : List ℝ)
    (hQ : ∀ k : Fin ts.length, 0 ≤ (discretise (.const a b) ts[k] 0).2) (k : Fin ts.length) {f : (ι → ℝ) → ℝ≥0∞} (hf : Measurable f) :
    (simulateMarginalOu a b key x0 ts).E (fun l => f (l.getD k 0)) =
      (simulateMarginal (.const a b) key' x0 ts[k] (some 0)).E (fun r => r.toOption.elim 0 f) := by
  have hofn : ∀ w : Fin ts.length → ι → ℝ, (List.ofFn w).getD k 0 = w k := fun w => by simp [List.getD]
  rw [C31_ou_marginals a b key x0 ts hQ (by unfold MeasList; simp only [hofn]; exact hf.comp (measurable_pi_apply k)),
    C31_single _ key' x0 _ 0 (hQ k) hf]
  simp only [hofn]
  have hp : ∀ k : Fin ts.length, IsProbabilityMeasure (transLaw (.const a b) ts[k] 0 x0) := fun k => by
    unfold transLaw; infer_instance
  rw [← lintegral_map hf (measurable_pi_apply k), (measurePreserving_eval _ k).map_eq]

/-- **C31, a vector of times with `keep_path=False`: error.**  If the number of times is not the dimension, and neither is
one, the call raises. -/
theorem C31_times_raises {d : ℕ} (sde : SDE) (key : Key) (x0 : Fin d → ℝ) (ts : List ℝ) (t0 : Option ℝ)
    (h1 : ts.length ≠ d) (h2 : ts.length ≠ 1) (h3 : d ≠ 1) {r} (h : (simulateMarginals sde key x0 ts t0).Returns r) :
    ∃ e, r = .error e := by
  cases t0 with
  | none =>
    simp only [simulateMarginals, Rand.pure_eq, Rand.returns_ret] at h
    exact ⟨_, h⟩
  | some t0 =>
    simp only [simulateMarginals, bcastLen, if_neg h1, if_neg h2, if_neg h3, Rand.returns_bind, Rand.pure_eq,
      Rand.returns_ret] at h
    obtain ⟨_, -, rfl⟩ := h
    exact ⟨_, rfl⟩

theorem view_ofFn {d : ℕ} (z : Fin d → ℝ) (i : Fin d) : view (List.ofFn z) i = z i := by
  unfold view
  split_ifs with h
  · rw [List.length_ofFn] at h
    subst h
    rw [getD_of_lt _ _ (by simp)]
    simp [Subsingleton.elim i 0]
  · rw [getD_of_lt _ _ (by simp)]
    simp

theorem view_singleton (a : ℝ) (i : ℕ) : view [a] i = a := rfl

theorem map_range_ofFn {d : ℕ} {g : ℕ → ℝ} {h : Fin d → ℝ} (e : ∀ i : Fin d, g i = h i) :
    (List.range d).map g = List.ofFn h := by
  refine List.ext_getElem (by simp) fun k h1 h2 => ?_
  have hk : k < d := by simpa using h1
  simpa using e ⟨k, hk⟩

/-- **C31, a vector with one time.**  Then the result is one row with the transition law. -/
theorem C31_times_one {d : ℕ} (sde : SDE) (key : Key) (x0 : Fin d → ℝ) (t t0 : ℝ) (hQ : 0 ≤ (discretise sde t t0).2)
    {φ : List (List ℝ) → ℝ≥0∞} (hφ : Measurable fun y : Fin d → ℝ => φ [List.ofFn y]) :
    (simulateMarginals sde key x0 [t] (some t0)).E (fun r => r.toOption.elim 0 φ) =
      ∫⁻ y, φ [List.ofFn y] ∂(transLaw sde t t0 x0) := by
  have hb : bcastLen 1 d = some d := by
    by_cases h : 1 = d
    · subst h; rfl
    · simp [bcastLen, h]
  have hrow : ∀ rnd : Fin d → ℝ, ((List.range d).map fun i => view [(discretise sde t t0).1] i * view (List.ofFn x0) i +
      Real.sqrt (view [(discretise sde t t0).2] i) * view (List.ofFn rnd) i) =
      List.ofFn fun i => (discretise sde t t0).1 * x0 i + Real.sqrt (discretise sde t t0).2 * rnd i := fun rnd =>
    map_range_ofFn fun i => by rw [view_ofFn, view_ofFn, view_singleton, view_singleton]
  have key' := lintegral_stdNormal hQ (fun i => (discretise sde t t0).1 * x0 i) hφ
  have hmp : MeasurePreserving (fun w : Fin 1 → Fin d → ℝ => w 0) (Measure.pi fun _ : Fin 1 => stdNormal (Fin d))
    (stdNormal (Fin d)) := measurePreserving_eval (fun _ : Fin 1 => stdNormal (Fin d)) 0
  have hm : Measurable fun z : Fin d → ℝ => φ [List.ofFn fun i => (discretise sde t t0).1 * x0 i +
      Real.sqrt (discretise sde t t0).2 * z i] :=
    hφ.comp (measurable_pi_iff.2 fun i => measurable_const.add ((measurable_pi_apply i).const_mul _))
  refine Eq.trans ?_ key'
  rw [← hmp.lintegral_comp hm]
  simp only [simulateMarginals, List.length_singleton, List.map_cons, List.map_nil, normalRows, Rand.E_bind, Rand.E_map,
    Rand.E_sample, hb, Rand.pure_eq, Rand.E_ret, Except.toOption, Option.elim]
  refine lintegral_congr fun w => ?_
  have hw : List.ofFn w = [w 0] := by simp
  rw [hw, List.map_cons, List.map_nil, hrow]

/-- **C31, as many times as entries.**  The rows are independent, but in every row entry `i` has the transition law to
`ts[i]`: the times run along the wrong axis. -/
theorem C31_times_square (sde : SDE) (key : Key) (ts : List ℝ) (x0 : Fin ts.length → ℝ) (t0 : ℝ)
    (hQ : ∀ i : Fin ts.length, 0 ≤ (discretise sde ts[i] t0).2)
    {φ : List (List ℝ) → ℝ≥0∞} (hφ : Measurable fun y : Fin ts.length → Fin ts.length → ℝ => φ (List.ofFn fun k => List.ofFn (y k))) :
    (simulateMarginals sde key x0 ts (some t0)).E (fun r => r.toOption.elim 0 φ) =
      ∫⁻ y, φ (List.ofFn fun k => List.ofFn (y k)) ∂(Measure.pi fun _ : Fin ts.length => Measure.pi fun i : Fin ts.length =>
        gaussianReal ((discretise sde ts[i] t0).1 * x0 i) (discretise sde ts[i] t0).2.toNNReal) := by
  let g : Fin ts.length → ℝ → ℝ := fun i z => (discretise sde ts[i] t0).1 * x0 i + Real.sqrt (discretise sde ts[i] t0).2 * z
  have hg : ∀ i, Measurable (g i) := fun i => measurable_const.add (measurable_id.const_mul _)
  have hlaw : ∀ i, (gaussianReal 0 1).map (g i) =
      gaussianReal ((discretise sde ts[i] t0).1 * x0 i) (discretise sde ts[i] t0).2.toNNReal := by
    intro i
    have e : g i = (fun y => (discretise sde ts[i] t0).1 * x0 i + y) ∘ fun z => Real.sqrt (discretise sde ts[i] t0).2 * z := rfl
    rw [e, ← Measure.map_map (measurable_const_add _) (measurable_const_mul _), gaussianReal_map_const_mul,
      gaussianReal_map_const_add]
    congr 1
    · ring
    · have h := hQ i
      ext
      simp only [NNReal.coe_mk, mul_one]
      rw [Real.sq_sqrt h, Real.coe_toNNReal _ h]
  have hrowlaw : (stdNormal (Fin ts.length)).map (fun z i => g i (z i)) = Measure.pi fun i : Fin ts.length =>
      gaussianReal ((discretise sde ts[i] t0).1 * x0 i) (discretise sde ts[i] t0).2.toNNReal := by
    have hsf : ∀ i, SigmaFinite ((gaussianReal 0 1).map (g i)) := fun i => by rw [hlaw]; infer_instance
    have hpi := Measure.pi_map_pi (μ := fun _ : Fin ts.length => gaussianReal 0 1) (f := g) (fun k => (hg k).aemeasurable)
    simp only [hlaw] at hpi
    exact hpi
  have hgr : Measurable fun (z : Fin ts.length → ℝ) i => g i (z i) :=
    measurable_pi_iff.2 fun i => (hg i).comp (measurable_pi_apply i)
  have hpi2 : (Measure.pi fun _ : Fin ts.length => stdNormal (Fin ts.length)).map (fun (w : Fin ts.length → Fin ts.length → ℝ) k i => g i (w k i)) =
      Measure.pi fun _ : Fin ts.length => Measure.pi fun i : Fin ts.length =>
        gaussianReal ((discretise sde ts[i] t0).1 * x0 i) (discretise sde ts[i] t0).2.toNNReal := by
    have hsf : ∀ _ : Fin ts.length, SigmaFinite ((stdNormal (Fin ts.length)).map (fun z i => g i (z i))) := fun i => by
      rw [hrowlaw]; infer_instance
    have hpi := Measure.pi_map_pi (μ := fun _ : Fin ts.length => stdNormal (Fin ts.length)) (f := fun _ z i => g i (z i))
      (fun _ => hgr.aemeasurable)
    simp only [hrowlaw] at hpi
    exact hpi
  have hgm : Measurable fun (w : Fin ts.length → Fin ts.length → ℝ) k i => g i (w k i) :=
    measurable_pi_iff.2 fun k => hgr.comp (measurable_pi_apply k)
  rw [← hpi2, lintegral_map hφ hgm]
  have hb : bcastLen ts.length ts.length = some ts.length := if_pos rfl
  simp only [simulateMarginals, normalRows, Rand.E_bind, Rand.E_map, Rand.E_sample, hb, Rand.pure_eq,
    Rand.E_ret, Except.toOption, Option.elim]
  refine lintegral_congr fun w => ?_
  congr 1
  refine List.ext_getElem (by simp) fun k h1 h2 => ?_
  rw [List.getElem_map]
  simp only [List.getElem_ofFn]
  refine map_range_ofFn fun i => ?_
  have hF : ∀ f : ℝ → ℝ, view (ts.map f) i = f ts[i] := fun f => by
    have e : ts.map f = List.ofFn fun j : Fin ts.length => f ts[j] := by
      refine List.ext_getElem (by simp) fun k h1 h2 => ?_
      simp
    rw [e, view_ofFn]
  rw [hF, hF, view_ofFn, view_ofFn]

/-- **C31, the times run along the wrong axis.**  Two different times and two entries, `StationaryConstLinearSDE`: the row of
the first time does not have the transition law to that time. -/
theorem C31_times_wrong {a b t t' t0 : ℝ} (ha : a ≠ 0) (hb : b ≠ 0) (htt : t ≠ t')
    (hQ : 0 ≤ (discretise (.const a b) t t0).2) (hQ' : 0 ≤ (discretise (.const a b) t' t0).2) (key : Key) (x0 : Fin 2 → ℝ) :
    ∃ f : (Fin 2 → ℝ) → ℝ≥0∞, Measurable f ∧
      (simulateMarginals (.const a b) key x0 [t, t'] (some t0)).E
          (fun r => r.toOption.elim 0 fun l => f fun i => (l.getD 0 []).getD i 0) ≠
        ∫⁻ y, f y ∂(transLaw (.const a b) t t0 x0) := by
  by_contra hcon
  push Not at hcon
  have hQs : ∀ i : Fin [t, t'].length, 0 ≤ (discretise (.const a b) [t, t'][i] t0).2 := by
    intro i
    fin_cases i
    · exact hQ
    · exact hQ'
  let ρ : Measure (Fin 2 → ℝ) := Measure.pi fun i : Fin 2 =>
    gaussianReal ((discretise (.const a b) [t, t'][i] t0).1 * x0 i) (discretise (.const a b) [t, t'][i] t0).2.toNNReal
  have hlaw : ρ = transLaw (.const a b) t t0 x0 := by
    refine Measure.ext_of_lintegral _ fun f hf => ?_
    rw [← hcon f hf]
    have e : ∀ y : Fin 2 → Fin 2 → ℝ, (fun i : Fin 2 => (((List.ofFn fun k => List.ofFn (y k)).getD 0 []).getD i 0 : ℝ)) = y 0 := by
      intro y
      funext i
      fin_cases i <;> simp
    have hφ : Measurable fun y : Fin 2 → Fin 2 → ℝ =>
        f fun i => ((List.ofFn fun k => List.ofFn (y k)).getD 0 []).getD i 0 := by
      simp only [e]
      exact hf.comp (measurable_pi_apply 0)
    refine Eq.trans ?_ (C31_times_square (.const a b) key [t, t'] x0 t0 hQs hφ).symm
    simp only [List.length_cons, List.length_nil] at e ⊢
    exact ((measurePreserving_eval (fun _ : Fin 2 => ρ) 0).lintegral_comp hf).symm.trans
      (lintegral_congr fun y => (congrArg f (e y)).symm)
  have h1 := congrArg (fun μ => μ.map (Function.eval (1 : Fin 2))) hlaw
  simp only [ρ, transLaw] at h1
  rw [(measurePreserving_eval _ 1).map_eq, (measurePreserving_eval _ 1).map_eq] at h1
  have h2 := (gaussianReal_ext_iff.1 h1).2
  have h3 := congrArg NNReal.toReal h2
  rw [Real.coe_toNNReal _ (hQs 1), Real.coe_toNNReal _ hQ] at h3
  simp only [discretise] at h3
  have h4 : b ^ 2 / (2 * a) ≠ 0 := div_ne_zero (pow_ne_zero 2 hb) (mul_ne_zero two_ne_zero ha)
  have h5 := Real.exp_injective (sub_left_inj.1 (mul_left_cancel₀ h4 h3))
  have h6 := mul_left_cancel₀ (mul_ne_zero two_ne_zero ha) h5
  exact htt (sub_left_inj.1 h6).symm

/-- **C31, one entry.**  With `x0` of shape `(1, )` the result has shape `(n, n)` instead of `(n, 1)`. -/
theorem C31_times_column (sde : SDE) (key : Key) (x0 : Fin 1 → ℝ) (ts : List ℝ) (t0 : ℝ) {l : List (List ℝ)}
    (h : (simulateMarginals sde key x0 ts (some t0)).Returns (.ok l)) :
    l.length = ts.length ∧ ∀ row ∈ l, row.length = ts.length := by
  have hb : bcastLen ts.length 1 = some ts.length := by
    by_cases h1 : ts.length = 1
    · simp [bcastLen, h1]
    · simp [bcastLen, h1]
  simp only [simulateMarginals, hb, Rand.returns_bind, Rand.pure_eq, Rand.returns_ret, normalRows, Rand.returns_map] at h
  obtain ⟨rnds, ⟨w, -, rfl⟩, h⟩ := h
  cases h
  refine ⟨by simp, fun row hr => ?_⟩
  obtain ⟨rnd, -, rfl⟩ := List.mem_map.1 hr
  simp


/-! ### The hypotheses can be met -/

example (key : Key) (x0 : Fin 2 → ℝ) : ∃ f : (Fin 2 → ℝ) → ℝ≥0∞, Measurable f ∧
    (simulateMarginals (.const (-1) 1) key x0 [1, 2] (some 0)).E
        (fun r => r.toOption.elim 0 fun l => f fun i => (l.getD 0 []).getD i 0) ≠
      ∫⁻ y, f y ∂(transLaw (.const (-1) 1) 1 0 x0) := by
  have h : ∀ t : ℝ, 0 < t → 0 ≤ (discretise (.const (-1) 1) t 0).2 := fun t ht =>
    (C29_bounds (sde := .const (-1) 1) ⟨by norm_num, by norm_num⟩ ⟨by norm_num, by norm_num⟩ ht).2.1.le
  exact C31_times_wrong (by norm_num) (by norm_num) (by norm_num) (h 1 (by norm_num)) (h 2 (by norm_num)) key x0

example (key : Key) (x0 : Fin 3 → ℝ) {r} (h : (simulateMarginals (.const (-1) 1) key x0 [1, 2] (some 0)).Returns r) :
    ∃ e, r = .error e :=
  C31_times_raises _ key x0 [1, 2] (some 0) (by norm_num) (by norm_num) (by norm_num) h

example (k : Fin [(0.5 : ℝ), 1].length) : 0 ≤ (discretise (.const (-1) 1) [(0.5 : ℝ), 1][k] 0).2 := by
  have h : (0 : ℝ) < [(0.5 : ℝ), 1][k] := by fin_cases k <;> norm_num
  exact (C29_bounds (sde := .const (-1) 1) ⟨by norm_num, by norm_num⟩ ⟨by norm_num, by norm_num⟩ h).2.1.le

example : Defined (.lin 0.02 5 0 2) ∧ GridOk (.lin 0.02 5 0 2) 0 [0.1, 0.5, 2] :=
  ⟨by norm_num [Defined], gridOk_of_increasing _ _ (by norm_num [Admissible]) (by norm_num [Admissible])
    (by norm_num)⟩

end Props
end Fbs
