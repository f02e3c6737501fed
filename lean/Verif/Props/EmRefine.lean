import Verif.Props.EndToEnd

/-!
# C33, C86, C87 with more than one integration step per interval
-/

open MeasureTheory ProbabilityTheory InformationTheory Matrix Filter Set Topology
open scoped ENNReal NNReal BoundedContinuousFunction

namespace Fbs
namespace Props

open Jax Simulators Spec Mvn

section Refine
variable {ι : Type} [Fintype ι] {drift : (ι → ℝ) → ℝ → (ι → ℝ)} (disp : ℝ → ℝ)

omit [Fintype ι] in
theorem measurable_eulerGrid (hd : ∀ t, Measurable fun x => drift x t) : ∀ (n : ℕ) (l : List ℝ) (t : ℝ),
    Measurable fun p : (ι → ℝ) × (Fin n → ι → ℝ) => eulerGrid drift disp p.1 t l (List.ofFn p.2)
  | _, [], t => by simpa [eulerGrid] using measurable_fst
  | 0, t' :: l, t => by simpa [eulerGrid] using measurable_fst
  | n + 1, t' :: l, t => by
    have ih := measurable_eulerGrid hd n l t'
    have h : Measurable fun p : (ι → ℝ) × (Fin (n + 1) → ι → ℝ) =>
        ((fun i => p.1 i + drift p.1 t i * (t' - t) + disp t * Real.sqrt (t' - t) * p.2 0 i : ι → ℝ),
          fun (k : Fin n) => p.2 k.succ) := by
      refine Measurable.prodMk (measurable_pi_iff.2 fun i => ?_) (measurable_pi_iff.2 fun k => ?_)
      · have h1 : Measurable fun p : (ι → ℝ) × (Fin (n + 1) → ι → ℝ) => p.1 i := (measurable_pi_apply i).comp measurable_fst
        have h2 : Measurable fun p : (ι → ℝ) × (Fin (n + 1) → ι → ℝ) => drift p.1 t i :=
          (measurable_pi_apply i).comp ((hd t).comp measurable_fst)
        have h3 : Measurable fun p : (ι → ℝ) × (Fin (n + 1) → ι → ℝ) => p.2 0 i :=
          (measurable_pi_apply i).comp ((measurable_pi_apply 0).comp measurable_snd)
        exact (h1.add (h2.mul_const _)).add (h3.const_mul _)
      · exact (measurable_pi_apply _).comp measurable_snd
    simp only [List.ofFn_succ, eulerGrid]
    exact ih.comp h

/-- The Euler scheme on a list of times, averaged over its normals, is the chain of one-step transitions. -/
theorem lintegral_eulerGrid (hd : ∀ t, Measurable fun x => drift x t) {f : (ι → ℝ) → ℝ≥0∞} (hf : Measurable f) :
    ∀ (n : ℕ) (l : List ℝ) (t : ℝ) (x : ι → ℝ), l.length = n → (t :: l).Pairwise (· ≤ ·) →
    ∫⁻ w, f (eulerGrid drift disp x t l (List.ofFn w)) ∂(Measure.pi fun _ : Fin n => stdNormal ι) =
      emE drift disp 1 ((Arr1.init (t, l)).zip l) x f
  | 0, [], t, x, _, _ => by simp [eulerGrid, emE]
  | n + 1, t' :: l, t, x, hl, hp => by
    have hp' := (List.pairwise_cons.1 hp)
    have hle : t ≤ t' := hp'.1 t' (by simp)
    have hm : Measurable fun w : Fin (n + 1) → ι → ℝ => f (eulerGrid drift disp x t (t' :: l) (List.ofFn w)) :=
      hf.comp ((measurable_eulerGrid disp hd (n + 1) (t' :: l) t).comp (measurable_const.prodMk measurable_id))
    rw [lintegral_rows _ n hm]
    have hi : Arr1.init (t, t' :: l) = t :: Arr1.init (t', l) := by simp [Arr1.init]
    rw [hi, List.zip_cons_cons, emE]
    have hmp : MeasurePreserving (fun w : Fin 1 → ι → ℝ => w 0) (Measure.pi fun _ : Fin 1 => stdNormal ι) (stdNormal ι) :=
      measurePreserving_eval (fun _ : Fin 1 => stdNormal ι) 0
    have ih := fun z : ι → ℝ => lintegral_eulerGrid hd hf n l t'
      (fun i => x i + drift x t i * (t' - t) + disp t * Real.sqrt (t' - t) * z i) (by simpa using hl) hp'.2
    have e1 : ∀ z : ι → ℝ, ∫⁻ w, f (eulerGrid drift disp x t (t' :: l) (List.ofFn (Fin.cons z w : Fin (n + 1) → ι → ℝ)))
        ∂(Measure.pi fun _ : Fin n => stdNormal ι) = emE drift disp 1 ((Arr1.init (t', l)).zip l)
          (fun i => x i + drift x t i * (t' - t) + disp t * Real.sqrt (t' - t) * z i) f := fun z => by
      rw [← ih z]
      refine lintegral_congr fun w => ?_
      rw [List.ofFn_succ]
      simp [eulerGrid]
    simp only [e1]
    have hmz : Measurable fun z : ι → ℝ => emE drift disp 1 ((Arr1.init (t', l)).zip l)
        (fun i => x i + drift x t i * (t' - t) + disp t * Real.sqrt (t' - t) * z i) f := by
      simp only [← e1]
      have h2 : Measurable fun p : (ι → ℝ) × (Fin n → ι → ℝ) =>
          f (eulerGrid drift disp x t (t' :: l) (List.ofFn (Fin.cons p.1 p.2 : Fin (n + 1) → ι → ℝ))) := by
        refine hm.comp (measurable_pi_iff.2 fun k => ?_)
        refine Fin.cases ?_ (fun k => ?_) k
        · simpa using measurable_fst
        · simp only [Fin.cons_succ]
          exact (measurable_pi_apply k).comp measurable_snd
      exact h2.lintegral_prod_right'
    refine Eq.trans (hmp.lintegral_comp hmz).symm (lintegral_congr fun w => ?_)
    rw [emStep_unit, abs_of_nonneg (sub_nonneg.2 hle)]

theorem refineInterval_pairwise {n : ℕ} {t t' : ℝ} (h : t ≤ t') : (t :: refineInterval n t t').Pairwise (· ≤ ·) := by
  have hdt : 0 ≤ (t' - t) / n := div_nonneg (by linarith) (by positivity)
  have e : t :: refineInterval n t t' = (List.range (n + 1)).map fun i : ℕ => t + i * ((t' - t) / n) := by
    rw [List.range_succ_eq_map, refineInterval]
    simp [List.map_map, Function.comp_def]
  rw [e, List.pairwise_map]
  refine List.pairwise_lt_range.imp fun {a b} hab => ?_
  have : (a : ℝ) ≤ b := by exact_mod_cast hab.le
  nlinarith

theorem measurable_emE_grid (hd : ∀ t, Measurable fun x => drift x t) {f : (ι → ℝ) → ℝ≥0∞} (hf : Measurable f) (l : List ℝ) (t : ℝ)
    (hl : (t :: l).Pairwise (· ≤ ·)) : Measurable fun x => emE drift disp 1 ((Arr1.init (t, l)).zip l) x f := by
  simp only [← lintegral_eulerGrid disp hd hf l.length l t _ rfl hl]
  exact (hf.comp (measurable_eulerGrid disp hd l.length l t)).lintegral_prod_right'

theorem mem_refineInterval {n : ℕ} {t t' s : ℝ} (h : t ≤ t') (hs : s ∈ refineInterval n t t') : t ≤ s ∧ s ≤ t' := by
  obtain ⟨i, hi, rfl⟩ := List.mem_map.1 hs
  have hi' := List.mem_range.1 hi
  have hn : (0 : ℝ) < n := by exact_mod_cast (by omega : 0 < n)
  have h1 : ((i + 1 : ℕ) : ℝ) ≤ n := by exact_mod_cast hi'
  have h2 : ((i + 1 : ℕ) : ℝ) * ((t' - t) / n) ≤ t' - t := by
    rw [mul_div_assoc', div_le_iff₀ hn]
    nlinarith
  have h3 : 0 ≤ ((i + 1 : ℕ) : ℝ) * ((t' - t) / n) := by
    have : 0 ≤ t' - t := by linarith
    positivity
  constructor <;> linarith

theorem refineGrid_pairwise {n : ℕ} : ∀ (l : List ℝ) (t : ℝ), (t :: l).Pairwise (· ≤ ·) →
    (t :: refineGrid n t l).Pairwise (· ≤ ·)
  | [], t, _ => by simp [refineGrid]
  | t' :: l, t, h => by
    have h1 := List.pairwise_cons.1 h
    have hle : t ≤ t' := h1.1 t' (by simp)
    have ih := List.pairwise_cons.1 (refineGrid_pairwise (n := n) l t' h1.2)
    rw [refineGrid, ← List.cons_append, List.pairwise_append]
    refine ⟨refineInterval_pairwise hle, ih.2, fun a ha b hb => ?_⟩
    have ha' : a ≤ t' := by
      rcases List.mem_cons.1 ha with rfl | ha
      · exact hle
      · exact (mem_refineInterval hle ha).2
    exact ha'.trans (ih.1 b hb)

theorem emE_refine (hd : ∀ t, Measurable fun x => drift x t) {n : ℕ} (hn : 1 ≤ n) {f : (ι → ℝ) → ℝ≥0∞} (hf : Measurable f) :
    ∀ (l : List ℝ) (t : ℝ) (x : ι → ℝ), (t :: l).Pairwise (· ≤ ·) →
    emE drift disp n ((Arr1.init (t, l)).zip l) x f =
      emE drift disp 1 ((Arr1.init (t, refineGrid n t l)).zip (refineGrid n t l)) x f
  | [], t, x, _ => by simp [refineGrid, emE]
  | t' :: l, t, x, h => by
    have h1 := List.pairwise_cons.1 h
    have hle : t ≤ t' := h1.1 t' (by simp)
    have hi : Arr1.init (t, t' :: l) = t :: Arr1.init (t', l) := by simp [Arr1.init]
    rw [hi, List.zip_cons_cons, emE, refineGrid, init_append, refineInterval_last hn,
      List.zip_append (by simp [Arr1.init]), emE_append]
    have hm := measurable_emE_grid disp hd hf _ _ (refineGrid_pairwise (n := n) l t' h1.2)
    rw [← lintegral_eulerGrid disp hd hm n (refineInterval n t t') t x (by simp [refineInterval]) (refineInterval_pairwise hle)]
    refine lintegral_congr fun w => ?_
    rw [emE_refine hd hn hf l t' _ h1.2, emStep_eq drift disp hn hle]

/-- **C33, refinement, in law** (increasing grids).  `euler_maruyama` with `n` integration steps per interval has the law of
`euler_maruyama` with one step per interval on the uniformly refined grid, whatever the two keys. -/
theorem C33_refinement_law_partial (hd : ∀ t, Measurable fun x => drift x t) {n : ℕ} (hn : 1 ≤ n) (key key' : Key) (x0 : ι → ℝ)
    (ts : Arr1 ℝ) (hts : ts.toList.Pairwise (· ≤ ·)) {f : (ι → ℝ) → ℝ≥0∞} (hf : Measurable f) :
    (eulerLast key x0 ts drift disp n).E f = (eulerLast key' x0 (ts.1, refineGrid n ts.1 ts.2) drift disp 1).E f := by
  rw [E_eulerLast, E_eulerLast]
  exact emE_refine disp hd hn hf ts.2 ts.1 x0 hts

omit [Fintype ι] in
theorem refineGrid_uniform {n : ℕ} (hn : 1 ≤ n) (h : ℝ) : ∀ (N : ℕ) (a : ℝ),
    refineGrid n a ((List.range N).map fun i : ℕ => a + (i + 1 : ℕ) * h) =
      (List.range (n * N)).map fun i : ℕ => a + (i + 1 : ℕ) * (h / n)
  | 0, a => by simp [refineGrid]
  | N + 1, a => by
    have hn0 : (n : ℝ) ≠ 0 := by positivity
    have ih := refineGrid_uniform hn h N (a + h)
    rw [List.range_succ_eq_map, List.map_cons, List.map_map, refineGrid]
    have e0 : a + ((0 + 1 : ℕ) : ℝ) * h = a + h := by simp
    have e1 : (fun i : ℕ => a + (i + 1 : ℕ) * h) ∘ Nat.succ = fun i : ℕ => a + h + (i + 1 : ℕ) * h := by
      funext i; simp; ring
    rw [e0, e1, ih, refineInterval, Nat.mul_succ, Nat.add_comm, List.range_add, List.map_append, List.map_map]
    congr 1
    · simp
    · refine List.map_congr_left fun i _ => ?_
      simp only [Function.comp_apply]
      push_cast
      field_simp
      ring

omit [Fintype ι] in
/-- Refining the grid of the experiments gives the grid with more points. -/
theorem refineGrid_linspace {n N : ℕ} (hn : 1 ≤ n) {T : ℝ} {ts : Arr1 ℝ} (hts : ts.toList = linspace 0 T (N + 1)) :
    Arr1.toList (ts.1, refineGrid n ts.1 ts.2) = linspace 0 T (n * N + 1) := by
  have h : ∀ K : ℕ, linspace 0 T (K + 1) = 0 :: (List.range K).map fun i : ℕ => 0 + (i + 1 : ℕ) * (T / K) := fun K => by
    rw [linspace, List.range_succ_eq_map]
    simp [List.map_map, Function.comp_def]
  have h2 : ts.1 :: ts.2 = 0 :: (List.range N).map fun i : ℕ => 0 + (i + 1 : ℕ) * (T / N) := by rw [← h]; exact hts
  obtain ⟨h3, h4⟩ := List.cons.inj h2
  have h5 := refineGrid_uniform hn (T / N) N 0
  show ts.1 :: refineGrid n ts.1 ts.2 = _
  rw [h, h3, h4, h5, div_div]
  push_cast
  rw [mul_comm (N : ℝ) n]

omit [Fintype ι] in
theorem linspace_pairwise {T : ℝ} (hT : 0 ≤ T) (N : ℕ) : (linspace 0 T (N + 1)).Pairwise (· ≤ ·) := by
  rw [linspace, List.pairwise_map]
  refine List.pairwise_lt_range.imp fun {a b} hab => ?_
  have h1 : (a : ℝ) ≤ b := by exact_mod_cast hab.le
  have h2 : 0 ≤ (T - 0) / ((N + 1 - 1 : ℕ) : ℝ) := by simpa using div_nonneg hT (Nat.cast_nonneg N)
  nlinarith

theorem eulerLast_substeps (hd : ∀ t, Measurable fun x => drift x t) {n N : ℕ} (hn : 1 ≤ n) {T : ℝ} (hT : 0 ≤ T) (key key' : Key)
    (x0 : ι → ℝ) {ts : Arr1 ℝ} (hts : ts.toList = linspace 0 T (N + 1)) {f : (ι → ℝ) → ℝ≥0∞} (hf : Measurable f) :
    (eulerLast key x0 ts drift disp n).E f = (eulerLast key' x0 (linGrid T (n * N)) drift disp 1).E f := by
  rw [C33_refinement_law_partial disp hd hn key key' x0 ts (by rw [hts]; exact linspace_pairwise hT N) hf]
  have h := (refineGrid_linspace hn hts).trans (linGrid_toList T (n * N)).symm
  have e : ((ts.1, refineGrid n ts.1 ts.2) : Arr1 ℝ) = linGrid T (n * N) := by
    obtain ⟨h1, h2⟩ := List.cons.inj h
    exact Prod.ext h1 h2
  rw [e]

/-- Convergence as the number of steps grows carries over to sub-steps: only the total number of steps matters. -/
theorem tendsto_substeps (hd : ∀ t, Measurable fun x => drift x t) {T : ℝ} (hT : 0 ≤ T) (μ : Measure (ι → ℝ)) {L : ℝ≥0∞}
    {f : (ι → ℝ) → ℝ≥0∞} (hf : Measurable f)
    (h : Tendsto (fun M => ∫⁻ x0, (eulerLast [] x0 (linGrid T M) drift disp 1).E f ∂μ) atTop (𝓝 L)) {n N : ℕ → ℕ}
    (hnN : Tendsto (fun k => n k * N k) atTop atTop) (key : ℕ → Key) {ts : ℕ → Arr1 ℝ}
    (hts : ∀ k, (ts k).toList = linspace 0 T (N k + 1)) :
    Tendsto (fun k => ∫⁻ x0, (eulerLast (key k) x0 (ts k) drift disp (n k)).E f ∂μ) atTop (𝓝 L) := by
  refine (h.comp hnN).congr' ?_
  filter_upwards [hnN.eventually_ge_atTop 1] with k hk
  have hn : 1 ≤ n k := Nat.one_le_iff_ne_zero.2 fun h0 => by simp [h0] at hk
  exact lintegral_congr fun x0 => (eulerLast_substeps disp hd hn hT (key k) [] x0 (hts k) hf).symm

end Refine

/-- **C86 with sub-steps.**  As `C86_converges`, with `n k` integration steps on each of `N k` intervals: the limit is the same
as soon as the total number of steps grows, in particular for a fixed grid and a growing number of sub-steps. -/
theorem C86_substeps {n : Type} [Fintype n] [DecidableEq n] {drift : (n → ℝ) → ℝ → (n → ℝ)} {disp : ℝ → ℝ} {T : ℝ} (hT : 0 ≤ T)
    {m : ℝ → n → ℝ} {P : ℝ → Matrix n n ℝ} (hd : ∀ t, Measurable fun z => drift z t)
    (hode : ∀ t ∈ Icc 0 T, ∃ (A : Matrix n n ℝ) (c : n → ℝ), (∀ z, drift z t = A *ᵥ z + c) ∧
      (∀ i, HasDerivAt (fun t => m t i) ((A *ᵥ m t + c) i) t) ∧
      ∀ i j, HasDerivAt (fun t => P t i j) ((A * P t + P t * Aᵀ + disp t ^ 2 • (1 : Matrix n n ℝ)) i j) t)
    (hdc : ∀ z i, ContinuousOn (fun t => drift z t i) (Icc 0 T)) (hg : ContinuousOn disp (Icc 0 T))
    (hP0 : (P 0).PosSemidef) {r N : ℕ → ℕ} (hrN : Tendsto (fun k => r k * N k) atTop atTop) (key : ℕ → Key) {ts : ℕ → Arr1 ℝ}
    (hts : ∀ k, (ts k).toList = linspace 0 T (N k + 1)) (f : (n → ℝ) →ᵇ ℝ≥0) :
    Tendsto (fun k => ∫⁻ x0, (eulerLast (key k) x0 (ts k) drift disp (r k)).E (fun x => f x) ∂(mvn (m 0) (P 0))) atTop
      (𝓝 (∫⁻ x, f x ∂(mvn (m T) (P T)))) :=
  tendsto_substeps disp hd hT _ f.continuous.measurable.coe_nnreal_ennreal
    ((C86_converges hT hode hdc hg hP0 (fun _ => []) (linGrid_toList T)).2 f) hrN key hts

section Gauss
variable {q : ℕ} {cho : Matrix (Fin q) (Fin q) ℝ → Matrix (Fin q) (Fin q) ℝ} {sde : Linear.SDE}

/-- **C86, the reverse sampler with sub-steps.** -/
theorem C86_reverse_substeps (hc : IsChol cho) (hsde : Defined sde) {T : ℝ} (hT : 0 ≤ T)
    (hr : ∀ s ∈ Icc 0 T, RealDisp sde s) (hQ : ∀ s ∈ Icc 0 T, 0 ≤ (Linear.discretise sde s 0).2) (m : Fin q → ℝ)
    {C : Matrix (Fin q) (Fin q) ℝ} (hC : C.PosDef) {n N : ℕ → ℕ} (hnN : Tendsto (fun k => n k * N k) atTop atTop)
    (key : ℕ → Key) {ts : ℕ → Arr1 ℝ} (hts : ∀ k, (ts k).toList = linspace 0 T (N k + 1)) (f : (Fin q → ℝ) →ᵇ ℝ≥0) :
    Tendsto (fun k => ∫⁻ x0, (eulerLast (key k) x0 (ts k) (Gp.reverseDrift cho sde 0 T m C)
        (Gp.reverseDispersion sde T) (n k)).E (fun x => f x)
        ∂(mvn (Gp.forwardMCov sde 0 m C T).1 (Gp.forwardMCov sde 0 m C T).2)) atTop (𝓝 (∫⁻ x, f x ∂(mvn m C))) :=
  tendsto_substeps _ (measurable_reverseDrift cho sde 0 T m C) hT _ f.continuous.measurable.coe_nnreal_ennreal
    (C86_reverse_exact hc hsde hT hr hQ m hC (fun _ => []) (linGrid_toList T) f) hnN key hts

/-- **C87, end to end, with sub-steps.**  As `C87_end_to_end`, with `n k` integration steps on each of `N k` intervals. -/
theorem C87_end_to_end_substeps (hc : IsChol cho) (hsde : Defined sde) {T : ℝ} (hT : 0 < T)
    (hr : ∀ s ∈ Icc 0 T, RealDisp sde s) (hQ : ∀ s ∈ Icc 0 T, 0 ≤ (Linear.discretise sde s 0).2)
    (hg : ∀ s ∈ Ioc 0 T, Linear.dispersion sde s ≠ 0) (m : Fin q → ℝ)
    {C : Matrix (Fin q) (Fin q) ℝ} (hC : C.PosDef) {s' : (Fin q → ℝ) → ℝ → (Fin q → ℝ)}
    (hs' : ∀ t, Measurable fun x => s' x t) {ε : ℝ}
    (hε : ∀ t ∈ Ioc 0 T, ∀ x, ∑ i, (Gp.score cho sde 0 m C x t i - s' x t i) ^ 2 ≤ ε ^ 2)
    (μ : Fin q → ℝ) {S : Matrix (Fin q) (Fin q) ℝ} (hS : S.PosDef) {n N : ℕ → ℕ}
    (hnN : Tendsto (fun k => n k * N k) atTop atTop) (key : ℕ → Key) {ts : ℕ → Arr1 ℝ}
    (hts : ∀ k, (ts k).toList = linspace 0 T (N k + 1)) (f : (Fin q → ℝ) →ᵇ ℝ≥0) (hf : ∀ x, f x ≤ 1)
    {δ : ℝ} (hδ : 0 < δ) :
    ∀ᶠ k in atTop,
      |(∫⁻ x0, (reverseSimulator (key k) x0 (ts k) s' (fun x t i => Linear.drift sde (x i) t) (Linear.dispersion sde) (n k)
          "euler-maruyama").E (onOk fun x => f x) ∂(mvn μ S)).toReal -
        (∫⁻ x, f x ∂(mvn m C)).toReal| ≤
      Real.sqrt (Utils.kl cho (Gp.forwardMCov sde 0 m C T).1 (Gp.forwardMCov sde 0 m C T).2 μ S +
        ε ^ 2 * ∫ t in (0 : ℝ)..T, Linear.dispersion sde t ^ 2) / 2 + δ := by
  have h := C87_end_to_end hc hsde hT hr hQ hg m hC hs' hε μ hS (fun _ => []) (linGrid_toList T) f hf hδ
  filter_upwards [hnN.eventually h, hnN.eventually_ge_atTop 1] with k h1 hk
  have hn : 1 ≤ n k := Nat.one_le_iff_ne_zero.2 fun h0 => by simp [h0] at hk
  have hN : 0 < N k := Nat.pos_of_ne_zero fun h0 => by simp [h0] at hk
  have e : ∀ x0 : Fin q → ℝ, (reverseSimulator (key k) x0 (ts k) s' (fun x t i => Linear.drift sde (x i) t)
      (Linear.dispersion sde) (n k) "euler-maruyama").E (onOk fun x => f x) =
      (reverseSimulator [] x0 (linGrid T (n k * N k)) s' (fun x t i => Linear.drift sde (x i) t)
        (Linear.dispersion sde) 1 "euler-maruyama").E (onOk fun x => f x) := fun x0 => by
    simp only [reverseSimulator, if_true, Rand.E_map, linspace_last hN (hts k), linspace_last hk (linGrid_toList T _)]
    exact eulerLast_substeps _ (measurable_reverseDrift_of _ hs' (measurable_linDrift sde) T) hn hT.le (key k) [] x0 (hts k)
      f.continuous.measurable.coe_nnreal_ennreal
  simpa only [e] using h1

/-- Ten sub-steps per interval, growing number of intervals; and ten intervals, growing number of sub-steps. -/
example : ∃ cho : Matrix (Fin 2) (Fin 2) ℝ → Matrix (Fin 2) (Fin 2) ℝ, IsChol cho ∧ ∀ f : (Fin 2 → ℝ) →ᵇ ℝ≥0,
    Tendsto (fun k => ∫⁻ x0, (eulerLast [] x0 (linGrid 2 k) (Gp.reverseDrift cho (.const (-1 / 2) 1) 0 2 0 1)
        (Gp.reverseDispersion (.const (-1 / 2) 1) 2) 10).E (fun x => f x)
        ∂(mvn (Gp.forwardMCov (.const (-1 / 2) 1) 0 0 1 2).1 (Gp.forwardMCov (.const (-1 / 2) 1) 0 0 1 2).2)) atTop
      (𝓝 (∫⁻ x, f x ∂(mvn 0 1))) ∧
    Tendsto (fun k => ∫⁻ x0, (eulerLast [] x0 (linGrid 2 10) (Gp.reverseDrift cho (.const (-1 / 2) 1) 0 2 0 1)
        (Gp.reverseDispersion (.const (-1 / 2) 1) 2) k).E (fun x => f x)
        ∂(mvn (Gp.forwardMCov (.const (-1 / 2) 1) 0 0 1 2).1 (Gp.forwardMCov (.const (-1 / 2) 1) 0 0 1 2).2)) atTop
      (𝓝 (∫⁻ x, f x ∂(mvn 0 1))) := by
  obtain ⟨cho, hc⟩ := exists_isChol 2
  have hd : Defined (.const (-1 / 2) 1) := by show (-1 / 2 : ℝ) ≠ 0; norm_num
  refine ⟨cho, hc, fun f => ⟨?_, ?_⟩⟩
  · exact C86_reverse_substeps (T := 2) hc hd zero_le_two (fun _ _ => trivial) const_Q_nonneg 0 PosDef.one (n := fun _ => 10)
      (N := fun k => k) (tendsto_id.const_mul_atTop' (by norm_num)) (fun _ => []) (linGrid_toList 2) f
  · exact C86_reverse_substeps (T := 2) hc hd zero_le_two (fun _ _ => trivial) const_Q_nonneg 0 PosDef.one (n := fun k => k)
      (N := fun _ => 10) (tendsto_id.atTop_mul_const' (by norm_num)) (fun _ => []) (fun _ => linGrid_toList 2 10) f

/-- A drift that is not affine, on an uneven grid, three sub-steps. -/
example (key key' : Key) (x0 : Fin 2 → ℝ) : (eulerLast key x0 (0, [1 / 4, 1, 3]) (fun x t i => Real.sin (x i) * t) (fun t => 1 + t) 3).E
    (fun x => ENNReal.ofReal (x 0 ^ 2)) = (eulerLast key' x0 (0, refineGrid 3 0 [1 / 4, 1, 3])
      (fun x t i => Real.sin (x i) * t) (fun t => 1 + t) 1).E fun x => ENNReal.ofReal (x 0 ^ 2) := by
  refine C33_refinement_law_partial _ (fun t => measurable_pi_iff.2 fun i => ?_) (by norm_num) key key' x0 (0, [1 / 4, 1, 3]) ?_
    ((measurable_pi_apply 0).pow_const 2).ennreal_ofReal
  · exact (Real.continuous_sin.measurable.comp (measurable_pi_apply i)).mul_const t
  · norm_num [Arr1.toList]

end Gauss

end Props
end Fbs
