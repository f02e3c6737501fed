import Verif.Model.Simulators
import Verif.Props.Linear
import Mathlib.Probability.Distributions.Gaussian.Real

/-!
# C33–C35: Euler–Maruyama, time reversal, Doob bridges
-/

open MeasureTheory ProbabilityTheory
open scoped ENNReal

namespace Fbs
namespace Spec

variable {ι : Type}

/-- The Euler scheme with one step per grid point: from `x` at time `t` through the times `ts` with normals `zs`. -/
noncomputable def eulerGrid (drift : (ι → ℝ) → ℝ → (ι → ℝ)) (disp : ℝ → ℝ) :
    (ι → ℝ) → ℝ → List ℝ → List (ι → ℝ) → (ι → ℝ)
  | x, t, t' :: ts, z :: zs =>
    eulerGrid drift disp (fun i => x i + drift x t i * (t' - t) + disp t * Real.sqrt (t' - t) * z i) t' ts zs
  | x, _, _, _ => x

/-- The `n` equidistant points that follow `t` up to `t'`. -/
noncomputable def refineInterval (n : ℕ) (t t' : ℝ) : List ℝ :=
  (List.range n).map fun i => t + (i + 1 : ℕ) * ((t' - t) / n)

/-- The uniformly refined grid. -/
noncomputable def refineGrid (n : ℕ) : ℝ → List ℝ → List ℝ
  | _, [] => []
  | t, t' :: ts => refineInterval n t t' ++ refineGrid n t' ts

end Spec

namespace Props

open Simulators Spec Jax Linear

variable {ι : Type}

/-! ### C33 -/

section Programs
variable [Fintype ι] (drift : (ι → ℝ) → ℝ → (ι → ℝ)) (disp : ℝ → ℝ)

theorem arr1_last_cons {α : Type} (a b : α) (l : List α) : Arr1.last (a, b :: l) = Arr1.last (b, l) := by
  simp [Arr1.last]

theorem scan_emit (n : ℕ) : ∀ (is : List (Key × ℝ × ℝ)) (x : ι → ℝ),
    (fun r => Arr1.last (x, r.2)) <$> Rand.scan (emBody drift disp n id) x is =
      (fun r => r.1) <$> Rand.scan (emBody drift disp n fun _ => ()) x is
  | [], x => rfl
  | i :: is, x => by
    simp only [Rand.scan, emBody, map_bind, bind_assoc, pure_bind, map_pure, id]
    congr 1
    funext rnds
    have := scan_emit n is (emStep drift disp n x i.2.1 i.2.2 rnds)
    simp only [map_eq_pure_bind] at this
    simpa [arr1_last_cons] using this

/-- **C33, path and terminal value.**  `return_path=False` returns the last state of the path: the programs are equal. -/
theorem C33_last (key : Key) (x0 : ι → ℝ) (ts : Arr1 ℝ) (n : ℕ) :
    Arr1.last <$> eulerPath key x0 ts drift disp n = eulerLast key x0 ts drift disp n := by
  have := scan_emit drift disp n (emInputs key ts) x0
  simpa [eulerPath, eulerLast, map_eq_pure_bind] using this

theorem scan_length {σ ι' ο : Type} {body : σ → ι' → Rand (σ × ο)} : ∀ (is : List ι') (s : σ) {r},
    (Rand.scan body s is).Returns r → r.2.length = is.length
  | [], s, r, h => by simp [Rand.scan] at h; simp [h]
  | i :: is, s, r, h => by
    simp only [Rand.scan, Rand.returns_bind, Rand.pure_eq, Rand.returns_ret] at h
    obtain ⟨r1, -, r2, h2, rfl⟩ := h
    simp [scan_length is _ h2]

theorem emInputs_length (key : Key) (ts : Arr1 ℝ) : (emInputs key ts).length = ts.2.length := by
  simp [emInputs, splitAll, Arr1.init]

/-- **C33, shape.**  The path starts at `x0` and has the length of `ts`. -/
theorem C33_shape (key : Key) (x0 : ι → ℝ) (ts : Arr1 ℝ) (n : ℕ) {p : Arr1 (ι → ℝ)}
    (h : (eulerPath key x0 ts drift disp n).Returns p) : p.1 = x0 ∧ p.toList.length = ts.toList.length := by
  simp only [eulerPath, Rand.returns_bind, Rand.pure_eq, Rand.returns_ret] at h
  obtain ⟨r, hr, rfl⟩ := h
  exact ⟨rfl, by simp [Arr1.toList, scan_length _ _ hr, emInputs_length]⟩

/-- Expectation over the noise along a list of intervals, without keys. -/
noncomputable def emE (n : ℕ) : List (ℝ × ℝ) → (ι → ℝ) → ((ι → ℝ) → ℝ≥0∞) → ℝ≥0∞
  | [], x, f => f x
  | (t, t') :: is, x, f => ∫⁻ w, emE n is (emStep drift disp n x t t' (List.ofFn w)) f
      ∂(Measure.pi fun _ : Fin n => stdNormal ι)

theorem E_scan_em {ο : Type} (emit : (ι → ℝ) → ο) (n : ℕ) (f : (ι → ℝ) → ℝ≥0∞) :
    ∀ (keys : List Key) (is : List (ℝ × ℝ)), keys.length = is.length → ∀ (x : ι → ℝ),
    (Rand.scan (emBody drift disp n emit) x (keys.zip is)).E (fun r => f r.1) = emE drift disp n is x f
  | [], [], _, x => rfl
  | k :: keys, (t, t') :: is, h, x => by
    have ih := E_scan_em emit n f keys is (by simpa using h)
    simp only [List.zip_cons_cons, Rand.scan, emBody, Rand.E_bind, Rand.pure_eq, Rand.E_ret, normalRows, Rand.E_map,
      Rand.E_sample, emE]
    exact lintegral_congr fun w => ih _

theorem emE_append (n : ℕ) (f : (ι → ℝ) → ℝ≥0∞) : ∀ (is js : List (ℝ × ℝ)) (x : ι → ℝ),
    emE drift disp n (is ++ js) x f = emE drift disp n is x (fun y => emE drift disp n js y f)
  | [], _, _ => rfl
  | _ :: is, js, _ => lintegral_congr fun _ => emE_append n f is js _

theorem E_eulerLast (key : Key) (x0 : ι → ℝ) (ts : Arr1 ℝ) (n : ℕ) (f : (ι → ℝ) → ℝ≥0∞) :
    (eulerLast key x0 ts drift disp n).E f = emE drift disp n (ts.init.zip ts.2) x0 f := by
  simp only [eulerLast, Rand.E_bind, Rand.pure_eq, Rand.E_ret]
  exact E_scan_em drift disp _ n f _ _ (by simp [splitAll, Arr1.init]) x0

theorem init_append (t : ℝ) (l1 l2 : List ℝ) :
    Arr1.init (t, l1 ++ l2) = Arr1.init (t, l1) ++ Arr1.init (Arr1.last (t, l1), l2) := by
  induction l1 generalizing t with
  | nil => simp [Arr1.init, Arr1.last]
  | cons a l1 ih =>
    have := ih a
    simp only [Arr1.init, arr1_last_cons, List.cons_append] at this ⊢
    rw [List.dropLast_cons_of_ne_nil (List.cons_ne_nil a (l1 ++ l2)),
      List.dropLast_cons_of_ne_nil (List.cons_ne_nil a l1), this]
    rfl

/-- **C33, composition.**  Running over a concatenated grid has the law of running over the first part and then,
with other keys, over the second part from the state reached. -/
theorem C33_composition (key key1 key2 : Key) (x0 : ι → ℝ) (t : ℝ) (l1 l2 : List ℝ) (n : ℕ)
    (f : (ι → ℝ) → ℝ≥0∞) :
    (eulerLast key x0 (t, l1 ++ l2) drift disp n).E f =
      (eulerLast key1 x0 (t, l1) drift disp n).E fun y =>
        (eulerLast key2 y (Arr1.last (t, l1), l2) drift disp n).E f := by
  simp only [E_eulerLast]
  rw [init_append, List.zip_append (by simp [Arr1.init]), emE_append]

end Programs

variable (drift : (ι → ℝ) → ℝ → (ι → ℝ)) (disp : ℝ → ℝ)

theorem eulerGrid_append : ∀ (l1 l2 : List ℝ) (z1 z2 : List (ι → ℝ)) (x : ι → ℝ) (t : ℝ), z1.length = l1.length →
    eulerGrid drift disp x t (l1 ++ l2) (z1 ++ z2) =
      eulerGrid drift disp (eulerGrid drift disp x t l1 z1) (Arr1.last (t, l1)) l2 z2
  | [], l2, [], z2, x, t, _ => rfl
  | a :: l1, l2, z :: z1, z2, x, t, h => by
    simp only [List.cons_append, eulerGrid, arr1_last_cons]
    exact eulerGrid_append l1 l2 z1 z2 _ a (by simpa using h)

theorem scan_inner {dt : ℝ} (hdt : 0 ≤ dt) : ∀ (n : ℕ) (zs : List (ι → ℝ)) (x : ι → ℝ) (t : ℝ),
    (Jax.scan (emInner drift disp dt) x (zs.zip ((List.range n).map fun i : ℕ => t + i * dt))).1 =
      eulerGrid drift disp x t ((List.range n).map fun i : ℕ => t + (i + 1 : ℕ) * dt) zs
  | 0, zs, x, t => by cases zs <;> simp [Jax.scan, eulerGrid]
  | n + 1, [], x, t => by rw [List.range_succ_eq_map]; simp [Jax.scan, eulerGrid]
  | n + 1, z :: zs, x, t => by
    rw [List.range_succ_eq_map]
    simp only [List.map_cons, List.zip_cons_cons, Jax.scan, List.map_map, Function.comp_def, eulerGrid, emInner]
    have ih := scan_inner hdt n zs
      (fun i => x i + drift x (t + (0 : ℕ) * dt) i * dt + disp (t + (0 : ℕ) * dt) * Real.sqrt dt * z i) (t + dt)
    have e1 : (fun i : ℕ => t + dt + i * dt) = fun i : ℕ => t + (i.succ : ℕ) * dt := by
      funext i; push_cast; ring
    have e2 : (fun i : ℕ => t + dt + (i + 1 : ℕ) * dt) = fun i : ℕ => t + ((i.succ + 1 : ℕ) : ℝ) * dt := by
      funext i; push_cast; ring
    rw [e1, e2] at ih
    rw [ih]
    simp

theorem substepTimes_eq {n : ℕ} (hn : 1 ≤ n) {t t' : ℝ} (h : t ≤ t') :
    substepTimes n t t' = (List.range n).map fun i : ℕ => t + i * ((t' - t) / n) := by
  unfold substepTimes linspace
  rw [abs_of_nonneg (by linarith)]
  refine List.map_congr_left fun i hi => ?_
  rcases Nat.lt_or_ge 1 n with h1 | h1
  · have : ((n - 1 : ℕ) : ℝ) = n - 1 := by push_cast [Nat.cast_sub hn]; ring
    have h2 : (n : ℝ) - 1 ≠ 0 := by
      have : (1 : ℝ) < n := by exact_mod_cast h1
      linarith
    have h3 : (n : ℝ) ≠ 0 := by positivity
    rw [this]
    field_simp
    ring
  · have : i = 0 := by have := List.mem_range.1 hi; omega
    simp [this]

/-- One step of the code on an increasing interval is the Euler scheme on the refined interval. -/
theorem emStep_eq {n : ℕ} (hn : 1 ≤ n) {t t' : ℝ} (h : t ≤ t') (x : ι → ℝ) (zs : List (ι → ℝ)) :
    emStep drift disp n x t t' zs = eulerGrid drift disp x t (refineInterval n t t') zs := by
  have hdt : 0 ≤ (t' - t) / n := div_nonneg (by linarith) (by positivity)
  unfold emStep
  simp only
  rw [substepTimes_eq hn h, abs_of_nonneg (by linarith : 0 ≤ t' - t), scan_inner drift disp hdt, refineInterval]

theorem refineInterval_last {n : ℕ} (hn : 1 ≤ n) (t t' : ℝ) : Arr1.last (t, refineInterval n t t') = t' := by
  obtain ⟨n, rfl⟩ : ∃ m, n = m + 1 := ⟨n - 1, by omega⟩
  have h : ((n + 1 : ℕ) : ℝ) ≠ 0 := by positivity
  simp only [refineInterval, Arr1.last, List.range_succ, List.map_append, List.map_cons, List.map_nil]
  rw [List.getLast_cons (by simp), List.getLast_append_singleton]
  rw [mul_div_cancel₀ _ h]; ring

variable [Fintype ι]

theorem returns_normalRows {k : Key} {n : ℕ} {zs : List (ι → ℝ)} :
    (normalRows k n ι).Returns zs ↔ zs.length = n := by
  simp only [normalRows, Rand.returns_map, Rand.returns_sample]
  constructor
  · rintro ⟨w, -, rfl⟩; simp
  · rintro rfl
    exact ⟨fun i => zs[i], Set.mem_univ _, by simp⟩

theorem returns_scan_em {ο : Type} (emit : (ι → ℝ) → ο) {n : ℕ} (hn : 1 ≤ n) : ∀ (keys : List Key) (ts : List ℝ)
    (t : ℝ), keys.length = ts.length → (t :: ts).Pairwise (· ≤ ·) → ∀ (x x' : ι → ℝ),
    (∃ os, (Rand.scan (emBody drift disp n emit) x (keys.zip ((Arr1.init (t, ts)).zip ts))).Returns (x', os)) ↔
      ∃ zss : List (List (ι → ℝ)), zss.length = ts.length ∧ (∀ zs ∈ zss, zs.length = n) ∧
        x' = eulerGrid drift disp x t (refineGrid n t ts) zss.flatten
  | [], [], t, _, _, x, x' => by
    simp only [List.zip_nil_left, Rand.scan, Rand.pure_eq, Rand.returns_ret, Prod.mk.injEq, refineGrid, eulerGrid]
    constructor
    · rintro ⟨os, rfl, rfl⟩; exact ⟨[], rfl, by simp, rfl⟩
    · rintro ⟨zss, -, -, rfl⟩; exact ⟨[], rfl, rfl⟩
  | k :: keys, t' :: ts, t, hk, hp, x, x' => by
    obtain ⟨hp1, hp2⟩ := List.pairwise_cons.1 hp
    have hle : t ≤ t' := hp1 t' (by simp)
    have ih := fun y => returns_scan_em emit hn keys ts t' (by simpa using hk) hp2 y x'
    have hinit : Arr1.init (t, t' :: ts) = t :: Arr1.init (t', ts) := by
      simp [Arr1.init]
    rw [hinit]
    simp only [List.zip_cons_cons, Rand.scan, emBody, Rand.returns_bind, Rand.pure_eq, Rand.returns_ret,
      returns_normalRows]
    constructor
    · rintro ⟨os, _, ⟨zs, hzs, rfl⟩, ⟨y, os'⟩, hr, heq⟩
      obtain ⟨rfl, rfl⟩ := Prod.mk.inj heq
      obtain ⟨zss, h1, h2, h3⟩ := (ih _).1 ⟨os', hr⟩
      refine ⟨zs :: zss, by simp [h1], by simpa using ⟨hzs, h2⟩, ?_⟩
      rw [h3, List.flatten_cons, refineGrid, eulerGrid_append _ _ _ _ _ _ _ _ (by simp [refineInterval, hzs]),
        refineInterval_last hn, emStep_eq drift disp hn hle]
    · rintro ⟨zss, h1, h2, h3⟩
      match zss, h1 with
      | zs :: zss, h1 =>
        have hzs : zs.length = n := h2 zs (by simp)
        obtain ⟨os', hr⟩ := (ih (emStep drift disp n x t t' zs)).2 ⟨zss, by simpa using h1,
          fun z hz => h2 z (by simp [hz]), by
            rw [h3, List.flatten_cons, refineGrid, eulerGrid_append _ _ _ _ _ _ _ _ (by simp [refineInterval, hzs]),
              refineInterval_last hn, emStep_eq drift disp hn hle]⟩
        exact ⟨_, _, ⟨zs, hzs, rfl⟩, (x', os'), hr, rfl⟩

/-- **C33, refinement** (increasing grids).  The possible results of the code with `n` sub-steps are exactly the
results of the one-step Euler scheme on the uniformly refined grid, the normals being those drawn, in order. -/
theorem C33_refinement_partial {n : ℕ} (hn : 1 ≤ n) (key : Key) (x0 : ι → ℝ) (ts : Arr1 ℝ)
    (hts : ts.toList.Pairwise (· ≤ ·)) (x' : ι → ℝ) :
    (eulerLast key x0 ts drift disp n).Returns x' ↔
      ∃ zss : List (List (ι → ℝ)), zss.length = ts.2.length ∧ (∀ zs ∈ zss, zs.length = n) ∧
        x' = eulerGrid drift disp x0 ts.1 (refineGrid n ts.1 ts.2) zss.flatten := by
  rw [← returns_scan_em drift disp (fun _ => ()) hn (splitAll key ts.2.length) ts.2 ts.1 (by simp [splitAll]) hts]
  simp only [eulerLast, Rand.returns_bind, Rand.pure_eq, Rand.returns_ret, emInputs]
  constructor
  · rintro ⟨⟨x, os⟩, h, rfl⟩; exact ⟨os, h⟩
  · rintro ⟨os, h⟩; exact ⟨_, h, rfl⟩

omit [Fintype ι] in
/-- **C33, what fails.**  On a decreasing interval the sub-steps do not visit the refined grid: the second of two
sub-steps from 1 to 0 is evaluated at `-1/2`, outside the interval. -/
theorem C33_decreasing_overshoots :
    substepTimes 2 1 0 = [1, -1 / 2] ∧ substepTimes 2 1 0 ≠ ([0, 1].map fun i : ℕ => (1 : ℝ) + i * ((0 - 1) / 2)) := by
  have : substepTimes 2 1 0 = [1, -1 / 2] := by
    norm_num [substepTimes, linspace, List.range_succ]
  rw [this]
  refine ⟨rfl, ?_⟩
  norm_num

/-! ### C34 -/

omit [Fintype ι] in
/-- **C34, involution.**  Reversing the reversed drift, with the score of the reversed process, gives back the drift. -/
theorem C34_involution (T : ℝ) (score : (ι → ℝ) → ℝ → (ι → ℝ)) (u : ι → ℝ) (t : ℝ) :
    reverseDrift T (fun u t => score u (T - t)) (reverseDrift T score drift disp) (reverseDispersion T disp) u t
      = drift u t ∧ reverseDispersion T (reverseDispersion T disp) t = disp t := by
  constructor
  · funext i
    simp [reverseDrift, reverseDispersion]
  · simp [reverseDispersion]

/-- **C34, the simulator.**  On an increasing grid ending at `T` the terminal value is that of the Euler scheme for
`-f(x, T - t) + g(T - t)^2 score(x, T - t)` and `g(T - t)` on the refined grid. -/
theorem C34_simulator {n : ℕ} (hn : 1 ≤ n) (key : Key) (u0 : ι → ℝ) (ts : Arr1 ℝ)
    (hts : ts.toList.Pairwise (· ≤ ·)) (score : (ι → ℝ) → ℝ → (ι → ℝ)) (integrator : String) (r) :
    (reverseSimulator key u0 ts score drift disp n integrator).Returns r ↔
      (integrator = "euler-maruyama" ∧ ∃ x', r = .ok x' ∧
        ∃ zss : List (List (ι → ℝ)), zss.length = ts.2.length ∧ (∀ zs ∈ zss, zs.length = n) ∧
          x' = eulerGrid (fun u t i => -drift u (ts.last - t) i + disp (ts.last - t) ^ 2 * score u (ts.last - t) i)
            (fun t => disp (ts.last - t)) u0 ts.1 (refineGrid n ts.1 ts.2) zss.flatten) ∨
      (integrator ≠ "euler-maruyama" ∧ ∃ e, r = .error e ∧ e = "NotImplementedError") := by
  unfold reverseSimulator
  by_cases h : integrator = "euler-maruyama"
  · simp only [h, if_true, ne_eq, not_true, false_and, or_false, true_and, Rand.returns_map]
    constructor
    · rintro ⟨x', hx, rfl⟩
      exact ⟨x', rfl, (C33_refinement_partial _ _ hn key u0 ts hts x').1 hx⟩
    · rintro ⟨x', rfl, hx⟩
      exact ⟨x', (C33_refinement_partial _ _ hn key u0 ts hts x').2 hx, rfl⟩
  · simp [h]

/-- **C34, moments.**  For a linear SDE whose marginals have mean `m` and variance `P`, the reversed drift (an affine
function of the state) drives the reversed mean and variance. -/
theorem C34_moments (sde : SDE) (T : ℝ) {m P : ℝ → ℝ} {t : ℝ} (hP : P (T - t) ≠ 0)
    (hm : HasDerivAt m (Linear.drift sde (m (T - t)) (T - t)) (T - t))
    (hv : HasDerivAt P (2 * Linear.drift sde (P (T - t)) (T - t) + dispersion sde (T - t) ^ 2) (T - t)) :
    ∃ A c : ℝ, (∀ u : Unit → ℝ, reverseDrift T (fun u t i => -(u i - m t) / P t)
        (fun u t i => Linear.drift sde (u i) t) (dispersion sde) u t = fun i => A * u i + c) ∧
      HasDerivAt (fun t => m (T - t)) (A * m (T - t) + c) t ∧
      HasDerivAt (fun t => P (T - t)) (2 * A * P (T - t) + reverseDispersion T (dispersion sde) t ^ 2) t := by
  set a := Linear.drift sde 1 (T - t)
  set g2 := dispersion sde (T - t) ^ 2
  have hsub : HasDerivAt (fun t => T - t) (-1) t := by simpa using (hasDerivAt_id t).const_sub T
  refine ⟨-a - g2 / P (T - t), g2 * m (T - t) / P (T - t), fun u => ?_, ?_, ?_⟩
  · funext i
    simp only [reverseDrift]
    rw [drift_eq]
    field_simp
    ring
  · refine (hm.comp t hsub).congr_deriv ?_
    rw [drift_eq]
    field_simp
    ring
  · refine (hv.comp t hsub).congr_deriv ?_
    rw [drift_eq]
    simp only [reverseDispersion]
    field_simp
    ring

omit [Fintype ι] in
theorem scan_discrete : ∀ (ts : List ℝ) (t : ℝ) (zs : List (ι → ℝ)) (x : ι → ℝ), zs.length = ts.length →
    (Jax.scan (fun x (e : (ι → ℝ) × ℝ × ℝ) =>
      ((fun i => (fun (x : ι → ℝ) (t' t : ℝ) (i : ι) => x i + drift x t i * (t' - t)) x e.2.1 e.2.2 i
        + (fun t' t : ℝ => disp t * Real.sqrt (t' - t)) e.2.1 e.2.2 * e.1 i : ι → ℝ), ()))
      x (zs.zip (ts.zip (Arr1.init (t, ts))))).1 = eulerGrid drift disp x t ts zs
  | [], t, [], x, _ => rfl
  | t' :: ts, t, z :: zs, x, h => by
    have hinit : Arr1.init (t, t' :: ts) = t :: Arr1.init (t', ts) := by simp [Arr1.init]
    rw [hinit]
    simp only [List.zip_cons_cons, Jax.scan, eulerGrid]
    exact scan_discrete ts t' zs _ (by simpa using h)

/-- **C33, `discrete_time_simulator`.**  Given the one-step Euler mean and scale, its possible results are those of the
Euler scheme on the grid itself. -/
theorem C33_discrete_time (key : Key) (x0 : ι → ℝ) (ts : Arr1 ℝ) (x' : ι → ℝ) :
    (discreteTime key x0 ts (fun x t' t i => x i + drift x t i * (t' - t))
      (fun t' t => disp t * Real.sqrt (t' - t))).Returns x' ↔
      ∃ zs : List (ι → ℝ), zs.length = ts.2.length ∧ x' = eulerGrid drift disp x0 ts.1 ts.2 zs := by
  simp only [discreteTime, Rand.returns_bind, Rand.pure_eq, Rand.returns_ret, returns_normalRows]
  constructor
  · rintro ⟨zs, hz, rfl⟩
    exact ⟨zs, hz, scan_discrete drift disp ts.2 ts.1 zs x0 hz⟩
  · rintro ⟨zs, hz, rfl⟩
    exact ⟨zs, hz, (scan_discrete drift disp ts.2 ts.1 zs x0 hz).symm⟩

/-! ### C35 -/

/-- **C35, pinning.**  For a class with a bridge drift the simulated bridge has the length of the grid, starts at `x0`
(as soon as the grid has a second time) and, with `replace`, ends at the target. -/
theorem C35_pinned [DecidableEq ι] (key : Key) (sde : SDE) (x0 xT : ι → ℝ) (ts : Arr1 ℝ) (n : ℕ) (replace : Bool)
    (hsde : ∀ a b c z, sde ≠ .exp a b c z) {r} (h : (doobBridge key sde x0 xT ts n replace).Returns r) :
    ∃ p : Arr1 (ι → ℝ), r = .ok p ∧ p.toList.length = ts.toList.length ∧ (ts.2 ≠ [] → p.toList.head? = some x0) ∧
      (replace = true → p.toList.getLast? = some xT) := by
  obtain ⟨bd, hbd⟩ : ∃ bd, Linear.bridgeDrift (ι := ι) sde = some bd := by
    cases sde with
    | const a b => exact ⟨_, rfl⟩
    | lin bm bM t0 T => exact ⟨_, rfl⟩
    | exp a b c z => exact absurd rfl (hsde a b c z)
  rw [doobBridge, hbd] at h
  simp only [Rand.returns_map] at h
  obtain ⟨p, hp, rfl⟩ := h
  obtain ⟨h1, h2⟩ := C33_shape _ _ key x0 ts n hp
  obtain ⟨q, l⟩ := p
  obtain rfl : q = x0 := h1
  have hl : l.length = ts.2.length := by simpa [Arr1.toList] using h2
  refine ⟨_, rfl, ?_⟩
  cases replace with
  | false => exact ⟨h2, by simp [Arr1.toList], by simp⟩
  | true =>
    cases l with
    | nil =>
      simp only [List.length_nil] at hl
      have : ts.2 = [] := List.length_eq_zero_iff.1 hl.symm
      simp [setLast, Arr1.toList, this]
    | cons a l =>
      simp only [if_true, setLast, Arr1.toList]
      refine ⟨?_, by simp, fun _ => ?_⟩
      · have hl' : l.length + 1 = ts.2.length := by simpa using hl
        simp only [List.length_cons, List.length_append, List.length_dropLast, List.length_nil, ← hl']
        omega
      · rw [← List.cons_append, List.getLast?_append]; simp

/-- With a single time the replacement overwrites the initial value. -/
theorem C35_single [DecidableEq ι] (key : Key) (a b t : ℝ) (x0 xT : ι → ℝ) (n : ℕ) :
    (doobBridge key (.const a b) x0 xT (t, []) n true).Returns (.ok (xT, [])) := by
  simp only [doobBridge, Linear.bridgeDrift, Rand.returns_map]
  refine ⟨(x0, []), ?_, rfl⟩
  simp [eulerPath, emInputs, Rand.scan, Rand.pure_eq]

theorem log_pdf {m y Q : ℝ} (hQ : 0 < Q) :
    Real.log (gaussianPDFReal m Q.toNNReal y) = -(1 / 2) * Real.log (2 * Real.pi * Q) - (y - m) ^ 2 / (2 * Q) := by
  have hc : (√(2 * Real.pi * Q))⁻¹ ≠ 0 := by positivity
  rw [gaussianPDFReal, Real.coe_toNNReal _ hQ.le, Real.log_mul hc (Real.exp_pos _).ne', Real.log_exp, Real.log_inv,
    Real.log_sqrt (by positivity)]
  ring

theorem pdf_eq_exp {m y Q : ℝ} (hQ : 0 < Q) :
    gaussianPDFReal m Q.toNNReal y =
      Real.exp (-(1 / 2) * Real.log (2 * Real.pi * Q) - (y - m) ^ 2 / (2 * Q)) := by
  rw [← log_pdf hQ, Real.exp_log]
  exact gaussianPDFReal_pos _ _ _ (by simpa using hQ)

theorem normLogpdf_eq {m y Q : ℝ} (hQ : 0 < Q) :
    normLogpdf y m (Real.sqrt Q) = Real.log (gaussianPDFReal m Q.toNNReal y) := by
  rw [log_pdf hQ]
  unfold normLogpdf
  rw [Real.sq_sqrt hQ.le]
  field_simp
  ring

theorem hasDerivAt_log_pdf {F y Q : ℝ} (hQ : 0 < Q) (x : ℝ) :
    HasDerivAt (fun x => Real.log (gaussianPDFReal (F * x) Q.toNNReal y)) (F * (y - F * x) / Q) x := by
  simp only [log_pdf hQ]
  have h1 : HasDerivAt (fun x : ℝ => (y - F * x) ^ 2) (2 * (y - F * x) * -F) x := by
    refine ((((hasDerivAt_id x).const_mul F).const_sub y).pow 2).congr_deriv ?_
    simp
  refine ((h1.div_const (2 * Q)).const_sub (-(1 / 2) * Real.log (2 * Real.pi * Q))).congr_deriv ?_
  field_simp

theorem grad_logH [DecidableEq ι] {F Q : ℝ} (hQ : 0 < Q) {m : ℝ → ℝ} (hm : ∀ x, m x = F * x) (target x : ι → ℝ)
    (i : ι) : grad (logH m Q target) x i = F * (target i - F * x i) / Q := by
  unfold grad
  refine HasDerivAt.deriv ?_
  have : (fun y => logH m Q target (Function.update x i y)) = fun y =>
      Real.log (gaussianPDFReal (F * y) Q.toNNReal (target i)) +
        ∑ j ∈ Finset.univ.erase i, normLogpdf (target j) (m (x j)) (Real.sqrt Q) := by
    funext y
    unfold logH
    rw [← Finset.add_sum_erase _ _ (Finset.mem_univ i)]
    congr 1
    · rw [Function.update_self, normLogpdf_eq hQ, hm]
    · refine Finset.sum_congr rfl fun j hj => ?_
      rw [Function.update_of_ne (Finset.ne_of_mem_erase hj)]
  rw [this]
  exact (hasDerivAt_log_pdf hQ (x i)).add_const _

/-- **C35, the drift.**  The bridge drift is the drift plus the squared dispersion times the derivative of the log
transition density to the target. -/
theorem C35_drift [DecidableEq ι] {sde : SDE} {bd} (hbd : Linear.bridgeDrift (ι := ι) sde = some bd)
    {t T : ℝ} (ht : Admissible sde t) (hT : Admissible sde T) (htT : t < T) (x target : ι → ℝ) (i : ι) :
    ∃ g, HasDerivAt (fun y => Real.log (gaussianPDFReal ((discretise sde T t).1 * y) (discretise sde T t).2.toNNReal
        (target i))) g (x i) ∧
      bd x t target T i = Linear.drift sde (x i) t + dispersion sde t ^ 2 * g := by
  have hQ := (C29_bounds hT ht htT).2.1
  refine ⟨_, hasDerivAt_log_pdf hQ (x i), ?_⟩
  cases sde with
  | const a b =>
    obtain rfl := Option.some.inj hbd
    simp only
    congr 2
    have hq : b ^ 2 / (2 * a) * (Real.exp (2 * a * (T - t)) - 1) = (discretise (.const a b) T t).2 := by
      rw [Q_eq, stationaryVar, rate, ← mul_assoc]; ring
    rw [hq]
    refine grad_logH hQ (fun x => ?_) target x i
    rw [mul_comm]; rfl
  | lin bm bM t0 T' =>
    obtain rfl := Option.some.inj hbd
    simp only
    congr 2
    refine grad_logH hQ (fun x => ?_) target x i
    rw [mul_comm]; rfl
  | exp a b c z => simp [Linear.bridgeDrift] at hbd

theorem hasDerivAt_rate_left {sde : SDE} (h : Defined sde) (T t : ℝ) :
    HasDerivAt (fun s => rate sde T s) (-Linear.drift sde 1 t) t := by
  have e : (fun s => rate sde T s) = fun s => -rate sde s T := by
    funext s
    have h1 := rate_add sde T s T
    rw [rate_self] at h1
    linarith
  rw [e]
  exact (hasDerivAt_rate h t T).neg

/-- **C35, program.**  The bridge is the Euler path of the SDE whose drift is the h-transform towards `xT` at the last
time of the grid, with the last state replaced by `xT` if asked. -/
theorem C35_program [DecidableEq ι] (key : Key) {sde : SDE} (hsde : ∀ a b c z, sde ≠ .exp a b c z) (x0 xT : ι → ℝ)
    (ts : Arr1 ℝ) (n : ℕ) (replace : Bool) (hT : Admissible sde (ts.toList.getLast (by simp [Arr1.toList]))) :
    ∃ d : (ι → ℝ) → ℝ → ι → ℝ,
      (∀ t, Admissible sde t → t < ts.toList.getLast (by simp [Arr1.toList]) → ∀ x i,
        d x t i = Linear.drift sde (x i) t + dispersion sde t ^ 2 *
          deriv (fun y => Real.log (gaussianPDFReal ((discretise sde (ts.toList.getLast (by simp [Arr1.toList])) t).1 * y)
            (discretise sde (ts.toList.getLast (by simp [Arr1.toList])) t).2.toNNReal (xT i))) (x i)) ∧
      ∀ f : Except String (Arr1 (ι → ℝ)) → ℝ≥0∞, (doobBridge key sde x0 xT ts n replace).E f =
        (eulerPath key x0 ts d (dispersion sde) n).E fun p => f (.ok (if replace then setLast p xT else p)) := by
  obtain ⟨bd, hbd⟩ : ∃ bd, Linear.bridgeDrift (ι := ι) sde = some bd := by
    cases sde with
    | const a b => exact ⟨_, rfl⟩
    | lin bm bM t0 T => exact ⟨_, rfl⟩
    | exp a b c z => exact absurd rfl (hsde a b c z)
  refine ⟨fun x t => bd x t xT ts.last, fun t ht htT x i => ?_, fun f => ?_⟩
  · obtain ⟨g, hg, h⟩ := C35_drift hbd ht hT htT x xT i
    rw [hg.deriv]
    exact h
  · rw [doobBridge, hbd]
    simp only [Rand.E_map]

/-- **C35, the backward equation.**  The transition density `h(t, x) = p(y at T | x at t)` solves
`∂t h + f ∂x h + g² ∂xx h / 2 = 0`. -/
theorem C35_kolmogorov {sde : SDE} {t T : ℝ} (ht : Admissible sde t) (hT : Admissible sde T) (htT : t < T)
    (x y : ℝ) :
    ∃ (ht hxx : ℝ) (hx : ℝ → ℝ),
      HasDerivAt (fun s => gaussianPDFReal ((discretise sde T s).1 * x) (discretise sde T s).2.toNNReal y) ht t ∧
      (∀ z, HasDerivAt (fun z => gaussianPDFReal ((discretise sde T t).1 * z) (discretise sde T t).2.toNNReal y)
        (hx z) z) ∧
      HasDerivAt hx hxx x ∧
      ht + Linear.drift sde x t * hx x + dispersion sde t ^ 2 * hxx / 2 = 0 := by
  have hQ := (C29_bounds hT ht htT).2.1
  have hD := Admissible.defined ht
  have hr := hasDerivAt_rate_left hD T t
  set a := Linear.drift sde 1 t with ha
  set F := (discretise sde T t).1 with hF
  set Q := (discretise sde T t).2 with hQd
  set L : ℝ → ℝ := fun z => gaussianPDFReal (F * z) Q.toNNReal y with hL
  have hLx : ∀ z, HasDerivAt L (L z * (F * (y - F * z) / Q)) z := by
    intro z
    have h1 : HasDerivAt (fun z : ℝ => (y - F * z) ^ 2) (2 * (y - F * z) * -F) z := by
      refine ((((hasDerivAt_id z).const_mul F).const_sub y).pow 2).congr_deriv ?_
      simp
    have h2 := ((h1.div_const (2 * Q)).const_sub (-(1 / 2) * Real.log (2 * Real.pi * Q))).exp
    have e : L = fun z => Real.exp (-(1 / 2) * Real.log (2 * Real.pi * Q) - (y - F * z) ^ 2 / (2 * Q)) := by
      funext z; exact pdf_eq_exp hQ
    rw [e]
    refine h2.congr_deriv ?_
    field_simp
  have hLxx : HasDerivAt (fun z => L z * (F * (y - F * z) / Q))
      (L x * (F * (y - F * x) / Q) * (F * (y - F * x) / Q) + L x * (F * -F / Q)) x := by
    refine (hLx x).mul ?_
    have h1 : HasDerivAt (fun z : ℝ => y - F * z) (-F) x := by
      simpa using ((hasDerivAt_id x).const_mul F).const_sub y
    exact (h1.const_mul F).div_const Q
  have hFt : HasDerivAt (fun s => (discretise sde T s).1) (-(a * F)) t := by
    simp only [F_eq] at hF ⊢
    refine hr.exp.congr_deriv ?_
    rw [← hF]; ring
  have hQt : HasDerivAt (fun s => (discretise sde T s).2) (2 * a * stationaryVar sde * F ^ 2) t := by
    simp only [Q_eq]
    refine (((hr.const_mul 2).exp.const_sub 1).const_mul (stationaryVar sde)).congr_deriv ?_
    rw [hF, F_eq, ← Real.exp_nat_mul]
    push_cast
    ring
  have hLt : HasDerivAt (fun s => gaussianPDFReal ((discretise sde T s).1 * x) (discretise sde T s).2.toNNReal y)
      (L x * (-(1 / 2) * (2 * a * stationaryVar sde * F ^ 2) / Q
        - (2 * (y - F * x) * (a * F * x) * (2 * Q) - (y - F * x) ^ 2 * (2 * (2 * a * stationaryVar sde * F ^ 2)))
          / (2 * Q) ^ 2)) t := by
    have hlog : HasDerivAt (fun s => Real.log (2 * Real.pi * (discretise sde T s).2))
        (2 * Real.pi * (2 * a * stationaryVar sde * F ^ 2) / (2 * Real.pi * Q)) t :=
      (hQt.const_mul (2 * Real.pi)).log (by positivity)
    have hsq : HasDerivAt (fun s => (y - (discretise sde T s).1 * x) ^ 2) (2 * (y - F * x) * (a * F * x)) t := by
      refine (((hFt.mul_const x).const_sub y).pow 2).congr_deriv ?_
      simp [hF]
    have hdiv := hsq.div (hQt.const_mul 2) (by positivity)
    have h2 := ((hlog.const_mul (-(1 / 2))).sub hdiv).exp
    have hev : (fun s => gaussianPDFReal ((discretise sde T s).1 * x) (discretise sde T s).2.toNNReal y)
        =ᶠ[nhds t] fun s => Real.exp (-(1 / 2) * Real.log (2 * Real.pi * (discretise sde T s).2) -
          (y - (discretise sde T s).1 * x) ^ 2 / (2 * (discretise sde T s).2)) := by
      filter_upwards [hQt.continuousAt.eventually (lt_mem_nhds hQ)] with s hs
      exact pdf_eq_exp hs
    refine (h2.congr_of_eventuallyEq hev).congr_deriv ?_
    have : L x = Real.exp (-(1 / 2) * Real.log (2 * Real.pi * Q) - (y - F * x) ^ 2 / (2 * Q)) := pdf_eq_exp hQ
    simp only [Pi.sub_apply, Pi.div_apply, ← hF, ← hQd]
    rw [this]
    congr 1
    have := Real.pi_pos
    field_simp
  have hreal : RealDisp sde t := by
    cases sde with
    | const a b => trivial
    | exp a b c z => trivial
    | lin bm bM t0 T' => exact (ht.2.1.trans_le ((C28_beta ht.1 ht.2.2.1).2.2.2 t ht.2.2.2.1 ht.2.2.2.2).1).le
  refine ⟨_, _, _, hLt, hLx, hLxx, ?_⟩
  rw [disp_sq hD hreal, drift_eq sde x t, ← ha]
  field_simp
  ring

/-! ### Instances -/

/-- The hypotheses of C33 and C34: an increasing grid of three times. -/
example : (Arr1.toList ((0 : ℝ), [1, 2])).Pairwise (· ≤ ·) := by simp [Arr1.toList]

/-- C33: two sub-steps with unit drift over `[0, 1]`, `[1, 3]`: the refined grid. -/
example : refineGrid 2 0 [1, 3] = [1 / 2, 1, 2, 3] := by
  norm_num [refineGrid, refineInterval, List.range_succ]

/-- C34: the Ornstein–Uhlenbeck process started in its stationary law. -/
example : ∃ A c : ℝ, (∀ u : Unit → ℝ, reverseDrift 1 (fun u _ i => -(u i - 0) / 1)
    (fun u t i => Linear.drift (.const (-0.5) 1) (u i) t) (dispersion (.const (-0.5) 1)) u 0.3 = fun i => A * u i + c) :=
  (C34_moments (.const (-0.5) 1) 1 (m := fun _ => 0) (P := fun _ => 1) (t := 0.3) (by norm_num)
    (by simpa [Linear.drift] using hasDerivAt_const _ _)
    (by have := hasDerivAt_const (1 - 0.3 : ℝ) (1 : ℝ); norm_num [Linear.drift, dispersion] at this ⊢; exact this)).imp
    fun _ h => h.imp fun _ h => h.1

/-- C35: the linear schedule on `[0, 2]`. -/
example (x y : ℝ) := C35_kolmogorov (sde := .lin 0.02 5 0 2) (t := 0.5) (T := 1.5) (by norm_num [Admissible])
  (by norm_num [Admissible]) (by norm_num) x y

end Props
end Fbs
