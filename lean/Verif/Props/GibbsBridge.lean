import Verif.Model.GibbsBridge
import Verif.Props.Gibbs
import Verif.Props.GibbsLaw
import Verif.Props.CsmcBackward
import Verif.Props.Simulators

/-!
# C57: marginalising the path of `y` with a bridge (`marg_y=True`)
-/

open MeasureTheory ProbabilityTheory
open scoped ENNReal

namespace Fbs

namespace Spec

variable {U V Z : Type} [MeasurableSpace U] [MeasurableSpace V] {N : ℕ}

/-- The noising of `x` and `y` is separable and the bridge is exact:

* given `x0` and `y0` the two paths of the forward sampler are independent, with laws `A x0` and `B`;
* the bridge sampler draws from a kernel `κ` in the two end points, and `κ` is the conditional law of
  the `y` path given its end points. -/
def BridgeExact (m : Gibbs.Funs N U V Z) (y0 : V) (ts : Arr1 ℝ) (K : ℕ) : Prop :=
  ∃ (A : U → Measure (Fin (K + 1) → U)) (B : Measure (Fin (K + 1) → V)) (κ : Kernel (V × V) (Fin (K + 1) → V)),
    IsMarkovKernel κ ∧
    (∀ key x φ, MeasPaths K φ → (m.fwd key x y0).E (fun p => φ (m.unpack p).1 (m.unpack p).2)
      = ∫⁻ px, ∫⁻ py, φ (arr px) (arr py) ∂B ∂(A x)) ∧
    (∀ key y y' (F : Arr1 V → ℝ≥0∞), Measurable (fun p : Fin (K + 1) → V => F (arr p)) →
      (m.bridge key y y' ts).E F = ∫⁻ p, F (arr p) ∂(κ (y, y'))) ∧
    (∀ ψ : V × V → (Fin (K + 1) → V) → ℝ≥0∞, Measurable (fun q : (V × V) × (Fin (K + 1) → V) => ψ q.1 q.2) →
      ∫⁻ py, ∫⁻ b, ψ (py 0, py (Fin.last K)) b ∂(κ (py 0, py (Fin.last K))) ∂B
        = ∫⁻ py, ψ (py 0, py (Fin.last K)) py ∂B)

end Spec

namespace Props

open Jax Spec Csmc Gibbs

/-! ### The ends of the bridge -/

section ends
variable {n : ℕ} {U Z ι : Type} [Fintype ι] [DecidableEq ι]

theorem reverse_ends {α : Type} {a : Arr1 α} {x y : α} (h1 : a.toList.head? = some x) (h2 : a.toList.getLast? = some y) :
    a.reverse.1 = y ∧ a.reverse.last = x := by
  obtain ⟨a, l⟩ := a
  simp only [Arr1.toList, List.head?_cons, Option.some.injEq] at h1
  subst h1
  rw [Arr1.toList, List.getLast?_eq_some_getLast (List.cons_ne_nil _ _), Option.some.injEq] at h2
  refine ⟨h2, ?_⟩
  have h3 := reverse_toList ((a, l) : Arr1 α)
  have h4 : (Arr1.toList (Arr1.reverse (a, l))).getLast? = some (Arr1.last (Arr1.reverse (a, l))) :=
    List.getLast?_eq_some_getLast (List.cons_ne_nil _ _)
  rw [h3] at h4
  simpa [Arr1.toList] using h4.symm

/-- Any output of the library's bridge, for a class that has a bridge drift. -/
theorem bridge_ends {m : Gibbs.Funs n U (ι → ℝ) Z} {sde : Linear.SDE} {ts : Arr1 ℝ} (hts : ts.2 ≠ [])
    (hbr : ∀ k y y', (Except.ok <$> m.bridge k y y' ts : Rand (Except String _)) = bridgeSampler k y y' ts sde)
    {k : Key} {y y' : ι → ℝ} {b : Arr1 (ι → ℝ)} (h : (m.bridge k y y' ts).Returns b) :
    b.reverse.1 = y' ∧ b.reverse.last = y ∧ b.2.length = ts.2.length := by
  have h' : (bridgeSampler k y y' ts sde).Returns (.ok b) := by
    rw [← hbr, Rand.returns_map]
    exact ⟨b, h, rfl⟩
  have hsde : ∀ a b c z, sde ≠ .exp a b c z := by
    rintro a b' c z rfl
    simp [bridgeSampler, Simulators.doobBridge, Linear.bridgeDrift] at h'
  obtain ⟨p, hp, hl, h1, h2⟩ := C35_pinned k sde y y' ts 100 true hsde h'
  obtain rfl : b = p := by simpa using hp
  obtain ⟨e1, e2⟩ := reverse_ends (h1 hts) (h2 rfl)
  exact ⟨e1, e2, by simpa [Arr1.toList] using hl⟩

/-- **C57, end points.**  With `marg_y=True` and the library's bridge sampler every observation path handed to
conditional SMC runs from the terminal to the initial value of the forward `y` path, on the same grid; the `x` path
is the forward one. -/
theorem C57_bridge_ends {ef : Bool} {m : Gibbs.Funs (rows n ef) U (ι → ℝ) Z} {sde : Linear.SDE} {ts : Arr1 ℝ}
    (hts : ts.2 ≠ [])
    (hbr : ∀ k y y', (Except.ok <$> m.bridge k y y' ts : Rand (Except String _)) = bridgeSampler k y y' ts sde)
    {key : Key} {x0 : U} {y0 : ι → ℝ} {us : Arr1 U} {vs : Arr1 (ι → ℝ)}
    (h : (gibbsPaths m true key x0 y0 ts).Returns (us, vs)) :
    ∃ p, (m.fwd (split key 3 0) x0 y0).Returns p ∧ us.toList = (m.unpack p).1.toList.reverse ∧
      vs.1 = (m.unpack p).2.last ∧ vs.last = (m.unpack p).2.1 ∧ vs.2.length = ts.2.length := by
  simp only [gibbsPaths, Rand.returns_bind, if_true, Rand.pure_eq, Rand.returns_ret] at h
  obtain ⟨p, hp, b, hb, e⟩ := h
  obtain ⟨rfl, rfl⟩ := Prod.mk.inj e
  obtain ⟨e1, e2, e3⟩ := bridge_ends hts hbr hb
  exact ⟨p, hp, reverse_toList _, e1, e2, by rw [arr1_reverse_len, e3]⟩

/-- **C57, end points in the initialiser.**  The same for the path handed to the bootstrap filter by
`gibbs_init(marg_y=True)`. -/
theorem C57_init_bridge_ends [NeZero n] {m : Gibbs.Funs n U (ι → ℝ) Z} {sde : Linear.SDE} {ts : Arr1 ℝ}
    (hts : ts.2 ≠ [])
    (hbr : ∀ k y y', (Except.ok <$> m.bridge k y y' ts : Rand (Except String _)) = bridgeSampler k y y' ts sde)
    {method : String} {key : Key} {x0 : U} {y0 : ι → ℝ} {out}
    (h : (gibbsInit m method true key y0 x0 ts).Returns out) :
    ∃ p vs, (m.fwd (split key 6 0) x0 y0).Returns p ∧ (gibbsInitRest m method key y0 ts vs).Returns out ∧
      vs.1 = (m.unpack p).2.last ∧ vs.last = (m.unpack p).2.1 ∧ vs.2.length = ts.2.length := by
  simp only [gibbsInit, Rand.returns_bind, if_true, Rand.returns_map] at h
  obtain ⟨p, hp, vs, ⟨b, hb, rfl⟩, hr⟩ := h
  obtain ⟨e1, e2, e3⟩ := bridge_ends hts hbr hb
  exact ⟨p, _, hp, hr, e1, e2, by rw [arr1_reverse_len, e3]⟩

/-- Functions using the library's bridge of the Ornstein–Uhlenbeck class; `x` is a real number, `y` a vector. -/
noncomputable def ouBridgeFuns (N : ℕ) : Gibbs.Funs N ℝ (Fin 2 → ℝ) (ℝ × (Fin 2 → ℝ)) where
  fwd _ x y := pure ((x, y), [(x / 2, y + ![1, 1]), (x / 4, y + ![3, 3])])
  unpack p := (p.map Prod.fst, p.map Prod.snd)
  bridge k y y' ts :=
    match Linear.bridgeDrift (.const (-1) 1) with
    | none => pure (y, [])
    | some bd => (fun p => Simulators.setLast p y') <$>
        Simulators.eulerPath k y ts (fun x t => bd x t y' ts.last) (Linear.dispersion (.const (-1) 1)) 100
  normal _ _ := pure fun _ => 0
  transSampler xs _ _ _ := pure xs
  transLogpdf _ _ _ _ := fun _ => 0
  lik _ _ _ _ := fun _ => 0

theorem ouBridgeFuns_bridge (N : ℕ) (k : Key) (y y' : Fin 2 → ℝ) (ts : Arr1 ℝ) :
    (Except.ok <$> (ouBridgeFuns N).bridge k y y' ts : Rand (Except String _))
      = bridgeSampler k y y' ts (.const (-1) 1) := by
  simp [ouBridgeFuns, bridgeSampler, Simulators.doobBridge, Linear.bridgeDrift, Functor.map_map]

example (key : Key) {us : Arr1 ℝ} {vs : Arr1 (Fin 2 → ℝ)}
    (h : (gibbsPaths (n := 5) (ef := true) (ouBridgeFuns 6) true key 7 ![1, 2] (0, [1, 2])).Returns (us, vs)) :
    us.toList = [7 / 4, 7 / 2, 7] ∧ vs.1 = ![4, 5] ∧ vs.last = ![1, 2] ∧ vs.2.length = 2 := by
  obtain ⟨p, hp, h1, h2, h3, h4⟩ := C57_bridge_ends (ts := (0, [1, 2])) (by simp)
    (fun k y y' => ouBridgeFuns_bridge 6 k y y' (0, [1, 2])) h
  simp only [ouBridgeFuns, Rand.pure_eq, Rand.returns_ret] at hp
  subst hp
  refine ⟨by simpa [ouBridgeFuns, Arr1.map, Arr1.toList] using h1, ?_, h3, h4⟩
  rw [h2]
  ext i
  fin_cases i <;> simp [ouBridgeFuns, Arr1.map, Arr1.last] <;> norm_num

end ends

/-! ### The law -/

variable {n N : ℕ} {U V Z : Type} [MeasurableSpace U] [MeasurableSpace V]

omit [MeasurableSpace U] [MeasurableSpace V] in
theorem arr_toList {α : Type} {K : ℕ} (p : Fin (K + 1) → α) : (arr p).toList = List.ofFn p := by
  rw [arr, Arr1.toList, List.ofFn_succ]

theorem arr1_ext {α : Type} {a b : Arr1 α} (h : a.toList = b.toList) : a = b := by
  obtain ⟨x, l⟩ := a
  obtain ⟨y, k⟩ := b
  simp only [Arr1.toList, List.cons.injEq] at h
  exact Prod.ext h.1 h.2

theorem arr_reverse {α : Type} {K : ℕ} (p : Fin (K + 1) → α) : (arr p).reverse = arr fun j => p j.rev := by
  apply arr1_ext
  rw [reverse_toList, arr_toList, arr_toList]
  apply List.ext_getElem
  · simp
  · intro i h1 h2
    simp only [List.getElem_reverse, List.getElem_ofFn, List.length_ofFn]
    congr 1
    ext
    simp only [Fin.val_rev]
    omega

theorem arr_last {α : Type} {K : ℕ} (p : Fin (K + 1) → α) : (arr p).last = p (Fin.last K) := by
  have : (arr p).last = (List.ofFn p).getLast (by simp) := by
    simp only [← arr_toList]
    rfl
  rw [this, List.getLast_ofFn]
  rfl

theorem MeasPaths.reverse {K : ℕ} {φ : Arr1 U → Arr1 V → ℝ≥0∞} (hφ : MeasPaths K φ) :
    MeasPaths K fun u v => φ u.reverse v.reverse := by
  unfold MeasPaths at *
  simp only [arr_reverse]
  have h : Measurable fun q : (Fin (K + 1) → U) × (Fin (K + 1) → V) =>
      ((fun j : Fin (K + 1) => q.1 j.rev, fun j : Fin (K + 1) => q.2 j.rev) : (Fin (K + 1) → U) × (Fin (K + 1) → V)) :=
    (measurable_pi_iff.2 fun j => (measurable_pi_apply j.rev).comp measurable_fst).prodMk
      (measurable_pi_iff.2 fun j => (measurable_pi_apply j.rev).comp measurable_snd)
  exact hφ.comp h

/-- Resampling the `y` path by the bridge does not change the joint law of the two paths. -/
theorem bridge_law {K : ℕ} {m : Gibbs.Funs N U V Z} {y0 : V} {ts : Arr1 ℝ} (hb : BridgeExact m y0 ts K)
    (key kb : Key) (x : U) {φ : Arr1 U → Arr1 V → ℝ≥0∞} (hφ : MeasPaths K φ) :
    (m.fwd key x y0).E (fun p => (m.bridge kb (m.unpack p).2.1 (m.unpack p).2.last ts).E
        (fun b => φ (m.unpack p).1 b))
      = (m.fwd key x y0).E (fun p => φ (m.unpack p).1 (m.unpack p).2) := by
  obtain ⟨A, B, κ, hκ, hfwd, hbr, hcond⟩ := hb
  have hφm : Measurable fun q : (Fin (K + 1) → U) × (Fin (K + 1) → V) => φ (arr q.1) (arr q.2) := hφ
  have hsec : ∀ u : Fin (K + 1) → U, Measurable fun p : Fin (K + 1) → V => φ (arr u) (arr p) := fun u =>
    hφm.comp measurable_prodMk_left
  have hends : Measurable fun q : (Fin (K + 1) → U) × (Fin (K + 1) → V) => (q.2 0, q.2 (Fin.last K)) :=
    ((measurable_pi_apply 0).comp measurable_snd).prodMk ((measurable_pi_apply _).comp measurable_snd)
  -- the bridge as a function of the two paths
  let φ' : Arr1 U → Arr1 V → ℝ≥0∞ := fun u v => (m.bridge kb v.1 v.last ts).E (φ u)
  have e : ∀ (u : Fin (K + 1) → U) (v : Fin (K + 1) → V), φ' (arr u) (arr v)
      = ∫⁻ b, φ (arr u) (arr b) ∂(κ (v 0, v (Fin.last K))) := by
    intro u v
    simp only [φ', arr_last]
    exact hbr kb _ _ _ (hsec u)
  have hφ' : MeasPaths K φ' := by
    unfold MeasPaths
    simp only [e]
    refine measurable_lintegral_kernel κ hends ?_
    have : Measurable fun r : ((Fin (K + 1) → U) × (Fin (K + 1) → V)) × (Fin (K + 1) → V) => (r.1.1, r.2) :=
      (measurable_fst.comp measurable_fst).prodMk measurable_snd
    exact hφm.comp this
  have h1 := hfwd key x φ' hφ'
  rw [hfwd key x φ hφ]
  refine h1.trans (lintegral_congr fun px => ?_)
  simp only [e]
  exact hcond (fun _ b => φ (arr px) (arr b)) ((hsec px).comp measurable_snd)

/-- The sampler whose forward paths have the `y` part replaced by the bridge. -/
noncomputable def bridged (m : Gibbs.Funs N U V Z) (ts : Arr1 ℝ) (kb : Key) : Gibbs.Funs N U V (Arr1 U × Arr1 V) where
  fwd k x y := do
    let p ← m.fwd k x y
    let b ← m.bridge kb (m.unpack p).2.1 (m.unpack p).2.last ts
    pure (((m.unpack p).1, b), [])
  unpack p := p.1
  bridge := m.bridge
  normal := m.normal
  transSampler := m.transSampler
  transLogpdf := m.transLogpdf
  lik := m.lik

theorem bridge_prob {K : ℕ} {m : Gibbs.Funs N U V Z} {y0 : V} {ts : Arr1 ℝ} (hb : BridgeExact m y0 ts K)
    (kb : Key) (y y' : V) (c : ℝ≥0∞) : (m.bridge kb y y' ts).E (fun _ => c) = c := by
  obtain ⟨A, B, κ, hκ, hfwd, hbr, hcond⟩ := hb
  rw [hbr kb y y' (fun _ => c) measurable_const]
  simp

omit [MeasurableSpace U] [MeasurableSpace V] in
theorem E_bridged_fwd (m : Gibbs.Funs N U V Z) (ts : Arr1 ℝ) (kb k : Key) (x : U) (y : V)
    (f : Arr1 (Arr1 U × Arr1 V) → ℝ≥0∞) :
    ((bridged m ts kb).fwd k x y).E f = (m.fwd k x y).E (fun p =>
      (m.bridge kb (m.unpack p).2.1 (m.unpack p).2.last ts).E fun b => f (((m.unpack p).1, b), [])) := by
  simp only [bridged, Rand.E_bind, Rand.pure_eq, Rand.E_ret]

theorem bridged_exact {K : ℕ} {m : Gibbs.Funs N U V Z} {S : StateSpace U V} {π0 : Measure U} {y0 : V}
    {ts : Arr1 ℝ} (hm : BackwardExact m S π0 y0 ts K) (hb : BridgeExact m y0 ts K) (kb : Key) :
    BackwardExact (bridged m ts kb) S π0 y0 ts K where
  trans := hm.trans
  lik := hm.lik
  starts key x F hF := by
    rw [E_bridged_fwd]
    rw [← hm.starts key x F hF]
    exact Rand.E_congr _ fun p => bridge_prob hb kb _ _ (F (m.unpack p).1.1)
  factor := by
    obtain ⟨Λ, hΛ⟩ := hm.factor
    refine ⟨Λ, fun key φ hφ => ?_⟩
    rw [← hΛ key φ hφ]
    refine lintegral_congr fun x => ?_
    rw [E_bridged_fwd]
    exact bridge_law hb key kb x (MeasPaths.reverse hφ)

/-- The kernel with `marg_y=True` is the kernel with `marg_y=False` for the bridged forward sampler. -/
theorem E_gibbsKernel_bridged {K : ℕ} [NeZero n] {ef : Bool} {m : Gibbs.Funs (rows n ef) U V Z} {y0 : V} {ts : Arr1 ℝ}
    (hb : BridgeExact m y0 ts K) (eb : Bool) (key : Key) (x : U) (bs : Arr1 (Fin (rows n ef)))
    (f : U × List U × List (Fin (rows n ef)) × List Bool → ℝ≥0∞) :
    (gibbsKernel ef m true eb key x y0 bs ts).E f
      = (gibbsKernel ef (bridged m ts (split key 3 2)) false eb key x y0 bs ts).E f := by
  cases eb
  · simp only [gibbsKernel, gibbsPaths, Rand.E_bind, Rand.pure_eq, Rand.E_ret, Bool.false_eq_true, if_false,
      if_true, E_bridged_fwd]
    rfl
  · simp only [gibbsKernel, gibbsPaths, Rand.E_bind, Rand.pure_eq, Rand.E_ret, Bool.false_eq_true, if_false,
      if_true, E_bridged_fwd]
    refine Rand.E_congr _ fun p => Rand.E_congr _ fun b => Rand.E_congr _ fun out => Rand.E_congr _ fun i =>
      Rand.E_congr _ fun q => ?_
    exact (bridge_prob hb _ _ _ _).symm

/-- **C57, law.**  If the noising is separable and the bridge draws the conditional law of the `y` path given
its end points, `gibbs_kernel(marg_y=True)` leaves the law of `x0` given `y0` invariant. -/
theorem C57_marg_y_invariant {K : ℕ} [NeZero n] {m : Gibbs.Funs (rows n false) U V Z} {S : StateSpace U V}
    (hS : S.JointMeas) {π0 : Measure U} {y0 : V} {ts : Arr1 ℝ} (hm : BackwardExact m S π0 y0 ts K)
    (hb : BridgeExact m y0 ts K) (hts : ts.2.length = K) (key : Key)
    {F : U → List (Fin (rows n false)) → ℝ≥0∞} (hF : ∀ bl, Measurable fun x => F x bl) :
    avgBs (rows n false) K (fun bs => ∫⁻ x, (gibbsKernel false m true false key x y0 bs ts).E
        (fun out => F out.1 out.2.2.1) ∂π0)
      = avgBs (rows n false) K (fun bs => ∫⁻ x, F x bs.toList ∂π0) := by
  simp only [E_gibbsKernel_bridged hb]
  exact C14_gibbs_invariant hS (bridged_exact hm hb (split key 3 2)) hts key hF

/-- **C57, law with `explicit_backward=True`.** -/
theorem C57_marg_y_explicit_backward {K : ℕ} [NeZero n] {m : Gibbs.Funs (rows n false) U V Z} {S : StateSpace U V}
    (hS : S.JointMeas) {π0 : Measure U} {y0 : V} {ts : Arr1 ℝ} (hm : BackwardExact m S π0 y0 ts K)
    (hb : BridgeExact m y0 ts K) (hts : ts.2.length = K)
    (hreg : ∀ v v' t (x : Fin (rows n false) → U), Regular (normalise fun i => S.logG v v' t (x i)))
    (key : Key) {F : U → List (Fin (rows n false)) → ℝ≥0∞} (hF : ∀ bl, Measurable fun x => F x bl) :
    avgBs (rows n false) K (fun bs => ∫⁻ x, (gibbsKernel false m true true key x y0 bs ts).E
        (fun out => F out.1 out.2.2.1) ∂π0)
      = avgBs (rows n false) K (fun bs => ∫⁻ x, F x bs.toList ∂π0) := by
  simp only [E_gibbsKernel_bridged hb]
  exact C14_gibbs_explicit_backward hS (bridged_exact hm hb (split key 3 2)) hts hreg key hF

/-! ### The hypotheses can be met

Fair coins: `x` is a coin which is kept, `y0 | x` has likelihood proportional to `exp(g y0 x)`, and `y` is replaced by
a fresh coin in each of two noising steps; the bridge draws the middle coin. -/

/-- The backward model. -/
noncomputable def flipS (g : Bool → Bool → ℝ) : StateSpace Bool Bool where
  init := coin
  prob := inferInstance
  trans _ _ := Kernel.id
  markov _ _ := inferInstance
  logG v _ t u := if t = 0 then 0 else g v u
  measG _ _ _ := measurable_of_finite _
  logG0 _ _ _ := 0
  measG0 _ _ := measurable_const

/-- The functions of the example. -/
noncomputable def flipFuns (g : Bool → Bool → ℝ) (N : ℕ) : Gibbs.Funs N Bool Bool (Bool × Bool) where
  fwd k x y := do
    let y1 ← Rand.sample (split k 2 0) Set.univ coin
    let y2 ← Rand.sample (split k 2 1) Set.univ coin
    pure ((x, y), [(x, y1), (x, y2)])
  unpack p := (p.map Prod.fst, p.map Prod.snd)
  bridge k y y' _ := (fun y1 => (y, [y1, y'])) <$> Rand.sample k Set.univ coin
  normal k _ := Rand.sample k Set.univ (Measure.pi fun _ => coin)
  transSampler xs _ _ _ := pure xs
  transLogpdf _ _ _ _ := fun _ => 0
  lik v xs _ t := fun i => if t = 0 then 0 else g v (xs i)

theorem flipS_jointMeas (g : Bool → Bool → ℝ) : (flipS g).JointMeas :=
  ⟨fun _ => (Kernel.id (α := Bool)).measurable.comp measurable_snd, fun _ => measurable_of_finite _⟩

theorem flipFuns_exact (g : Bool → Bool → ℝ) (N : ℕ) (y0 : Bool) :
    BackwardExact (flipFuns g N) (flipS g)
      (coin.withDensity fun u => ENNReal.ofReal (Real.exp (g y0 u))) y0 (0, [1, 2]) 2 where
  trans xs v t k F hF := by
    have h : (Measure.pi fun i => (flipS g).trans v t (xs i)) = Measure.dirac xs := by
      have : ∀ i, (flipS g).trans v t (xs i) = Measure.dirac (xs i) := fun i => Kernel.id_apply _
      simp only [this]
      exact pi_dirac xs
    rw [h, lintegral_dirac' _ hF]
    rfl
  lik _ _ _ _ _ := rfl
  starts key x F hF := by
    simp only [flipFuns, Rand.E_bind, Rand.E_sample, Rand.pure_eq, Rand.E_ret, Arr1.map, lintegral_const,
      measure_univ, mul_one]
  factor := by
    refine ⟨((coin.prod coin).prod coin).map fun p => (p.1.1, ![p.1.2, p.2, y0]), fun key φ hφ => ?_⟩
    rw [lintegral_map (measurable_of_finite _) (measurable_of_finite _),
      lintegral_prod _ (measurable_of_finite _).aemeasurable, lintegral_prod _ (measurable_of_finite _).aemeasurable,
      lintegral_withDensity_eq_lintegral_mul _ (measurable_of_finite _) (measurable_of_finite _)]
    simp only [lintegral_coin, Pi.mul_apply]
    have hid : ∀ v t u (f : Bool → ℝ≥0∞), ∫⁻ u', f u' ∂((flipS g).trans v t u) = f u := fun v t u f => by
      show ∫⁻ u', f u' ∂(Kernel.id u) = _
      rw [Kernel.id_apply, lintegral_dirac' _ (measurable_of_finite _)]
    have h0 : ∀ v v' u, (flipS g).logG v v' 0 u = 0 := fun _ _ _ => if_pos rfl
    have h1 : ∀ v v' u, (flipS g).logG v v' 1 u = g v u := fun _ _ _ => if_neg one_ne_zero
    simp only [flipFuns, Rand.E_bind, Rand.E_sample, Rand.pure_eq, Rand.E_ret, lintegral_coin, arr, Arr1.toList,
      StateSpace.steps, List.ofFn_succ, List.ofFn_zero, pathInt, hid, h0, h1, Arr1.map, Arr1.reverse, Arr1.last,
      Matrix.cons_val_zero, Matrix.cons_val_succ, Real.exp_zero, ENNReal.ofReal_one, one_mul, List.map_cons,
      List.map_nil]
    simp
    ring

/-- The bridge of the example draws the middle coin. -/
theorem flipFuns_bridge (g : Bool → Bool → ℝ) (N : ℕ) (y0 : Bool) :
    BridgeExact (flipFuns g N) y0 (0, [1, 2]) 2 := by
  let κ : Kernel (Bool × Bool) (Fin 3 → Bool) :=
    ⟨fun p => coin.map fun y1 => ![p.1, y1, p.2], measurable_of_finite _⟩
  have hκ : ∀ p (f : (Fin 3 → Bool) → ℝ≥0∞), ∫⁻ b, f b ∂(κ p) = ∫⁻ y1, f ![p.1, y1, p.2] ∂coin := fun p f =>
    lintegral_map (measurable_of_finite _) (measurable_of_finite _)
  have hB : ∀ f : (Fin 3 → Bool) → ℝ≥0∞, ∫⁻ b, f b ∂((coin.prod coin).map fun p => ![y0, p.1, p.2])
      = ∫⁻ y1, ∫⁻ y2, f ![y0, y1, y2] ∂coin ∂coin := fun f => by
    rw [lintegral_map (measurable_of_finite _) (measurable_of_finite _),
      lintegral_prod _ (measurable_of_finite _).aemeasurable]
  refine ⟨fun x => Measure.dirac fun _ => x, (coin.prod coin).map fun p => ![y0, p.1, p.2], κ,
    ⟨fun p => (Measure.isProbabilityMeasure_map (measurable_of_finite _).aemeasurable : IsProbabilityMeasure
      (coin.map fun y1 => ![p.1, y1, p.2]))⟩, ?_, ?_, ?_⟩
  · intro key x φ _
    rw [lintegral_dirac' _ (measurable_of_finite _), hB]
    simp only [flipFuns, Rand.E_bind, Rand.E_sample, Rand.pure_eq, Rand.E_ret, arr, Arr1.map, List.ofFn_succ,
      List.ofFn_zero]
    rfl
  · intro key y y' F _
    rw [hκ]
    simp only [flipFuns, Rand.E_map, Rand.E_sample, arr, List.ofFn_succ, List.ofFn_zero]
    rfl
  · intro ψ _
    simp only [hκ, hB, lintegral_coin]
    have h2 : ∀ a : ℝ≥0∞, 2⁻¹ ^ 3 * a * 2 = 2⁻¹ ^ 2 * a := fun a => by
      rw [mul_right_comm, pow_succ, mul_assoc (2⁻¹ ^ 2),
        ENNReal.inv_mul_cancel two_ne_zero ENNReal.ofNat_ne_top, mul_one]
    simp [Fin.last]
    ring_nf
    simp only [h2]

section
variable (key : Key) {F : Bool → List (Fin (rows 5 false)) → ℝ≥0∞}

example (y0 : Bool) :
    avgBs (rows 5 false) 2 (fun bs => ∫⁻ x, (gibbsKernel false (flipFuns (fun v u => if v = u then 1 else 0) (rows 5 false))
        true false key x y0 bs (0, [1, 2])).E (fun out => F out.1 out.2.2.1)
          ∂(coin.withDensity fun u => ENNReal.ofReal (Real.exp (if y0 = u then 1 else 0))))
      = avgBs (rows 5 false) 2 (fun bs => ∫⁻ x, F x bs.toList
          ∂(coin.withDensity fun u => ENNReal.ofReal (Real.exp (if y0 = u then 1 else 0)))) :=
  C57_marg_y_invariant (flipS_jointMeas _) (flipFuns_exact (fun v u => if v = u then 1 else 0) _ y0)
    (flipFuns_bridge _ _ y0) rfl key fun _ => measurable_of_finite _

example (y0 : Bool) :
    avgBs (rows 5 false) 2 (fun bs => ∫⁻ x, (gibbsKernel false (flipFuns (fun v u => if v = u then 1 else 0) (rows 5 false))
        true true key x y0 bs (0, [1, 2])).E (fun out => F out.1 out.2.2.1)
          ∂(coin.withDensity fun u => ENNReal.ofReal (Real.exp (if y0 = u then 1 else 0))))
      = avgBs (rows 5 false) 2 (fun bs => ∫⁻ x, F x bs.toList
          ∂(coin.withDensity fun u => ENNReal.ofReal (Real.exp (if y0 = u then 1 else 0)))) :=
  C57_marg_y_explicit_backward (flipS_jointMeas _) (flipFuns_exact (fun v u => if v = u then 1 else 0) _ y0)
    (flipFuns_bridge _ _ y0) rfl
    (fun v v' t x => regular_of_bounded fun i => by
      show |if t = 0 then (0 : ℝ) else if v = x i then 1 else 0| ≤ 1
      split_ifs <;> simp) key fun _ => measurable_of_finite _

end

end Props
end Fbs
