import Verif.Props.InitGuessBound
import Verif.Lemmas.GibbsLaw
import Mathlib.Probability.Distributions.Gaussian.Real

/-!
# C89: the guess does matter in general, and the chain forgets it
-/

open MeasureTheory ProbabilityTheory
open scoped ENNReal

namespace Fbs
namespace Props

open Jax Spec Gibbs Simulators Smc SbImgs

/-! ### A forward process which mixes the two parts -/

/-- `dv = u dt + dw`, `du = dw`. -/
def mixDrift (z : Unit ⊕ Unit → ℝ) (_ : ℝ) : Unit ⊕ Unit → ℝ := Sum.elim (fun _ => 0) fun _ => z (Sum.inl ())

/-- One particle, one step, and a reverse process in which `v` drives `u`. -/
noncomputable def mixFuns : Gibbs.Funs 1 (Unit → ℝ) (Unit → ℝ) (Unit ⊕ Unit → ℝ) where
  fwd := fun k x y => eulerPath k (Toy.concat (Equiv.refl _) x y) (0, [1]) mixDrift (fun _ => 1) 1
  unpack := fun p => (p.map (Toy.unpackU (Equiv.refl _)), p.map (Toy.unpackV (Equiv.refl _)))
  bridge := fun _ y y' _ => pure (y, [y'])
  normal := fun k _ => Rand.sample k Set.univ (Measure.pi fun _ => stdNormal Unit)
  transSampler := fun us v _ _ => pure fun i => us i + v
  transLogpdf := fun _ _ _ _ _ => 0
  lik := fun _ _ _ _ _ => 0

theorem lintegral_exp_gauss : ∫⁻ z, ENNReal.ofReal (Real.exp z) ∂(gaussianReal 0 1) = ENNReal.ofReal (Real.exp (1 / 2)) := by
  have h := mgf_gaussianReal (p := gaussianReal 0 1) (X := id) (μ := 0) (v := 1) (by simp) 1
  have hi := integrable_exp_mul_gaussianReal (μ := 0) (v := 1) 1
  simp only [one_mul] at hi
  rw [← ofReal_integral_eq_lintegral_ofReal hi (Filter.Eventually.of_forall fun _ => (Real.exp_pos _).le)]
  simp only [mgf, id, one_mul] at h
  rw [h]
  norm_num

theorem lintegral_exp_entry {ι : Type} [Fintype ι] (i : ι) :
    ∫⁻ z : Fin 1 → ι → ℝ, ENNReal.ofReal (Real.exp (z 0 i)) ∂(Measure.pi fun _ : Fin 1 => stdNormal ι) =
      ENNReal.ofReal (Real.exp (1 / 2)) := by
  have hp : IsProbabilityMeasure (stdNormal ι) := by unfold stdNormal; infer_instance
  have h1 := (measurePreserving_eval (fun _ : Fin 1 => stdNormal ι) 0).lintegral_comp
    (f := fun z : ι → ℝ => ENNReal.ofReal (Real.exp (z i))) (by fun_prop)
  have h2 := (measurePreserving_eval (fun _ : ι => gaussianReal 0 1) i).lintegral_comp
    (f := fun z : ℝ => ENNReal.ofReal (Real.exp z)) (by fun_prop)
  refine h1.trans ?_
  rw [stdNormal]
  exact h2.trans lintegral_exp_gauss

theorem mix_prob (k : Key) (x y : Unit → ℝ) : (mixFuns.fwd k x y).IsProb := isProb_eulerPath _ _ _ _ _ _

/-- The mean of `exp` of the state returned by `gibbs_init`. -/
theorem mix_state {method : String} (hmet : method = "filter" ∨ method = "smoother") (key : Key) (x : Unit → ℝ) :
    (gibbsInit mixFuns method false key 0 x (0, [1])).E (onState fun u => ENNReal.ofReal (Real.exp (u ()))) =
      ENNReal.ofReal (Real.exp (x () + 1)) := by
  rw [init_state_E mixFuns hmet key 0 (fun k x => mix_prob k x 0)]
  have hin : ∀ y0 y1 : Unit → ℝ, (bootstrapFilter (initFuns mixFuns key) Resampling.stratified (y1, [y0]) (0, [1])
      (split key 6 3) true true).E (fun out => ENNReal.ofReal (Real.exp (out.final 0 ()))) =
        ENNReal.ofReal (Real.exp (y1 ())) * ENNReal.ofReal (Real.exp (1 / 2)) := by
    intro y0 y1
    rw [← lintegral_exp_entry (ι := Unit) (), ← lintegral_const_mul _ (by fun_prop)]
    simp only [bootstrapFilter, if_true, Rand.E_bind, initFuns, mixFuns, Rand.E_sample, Rand.pure_eq, Rand.E_ret,
      List.length_singleton]
    refine lintegral_congr fun z => ?_
    simp only [splitAll, scanInputs, Arr1.init, List.range_one, List.map_cons, List.map_nil, List.dropLast_singleton,
      List.zip_cons_cons, List.zip_nil_right, Rand.scan, filterBody, Rand.pure_eq, Rand.E_bind, Rand.E_ret,
      FilterOut.final, List.dropLast_cons_cons]
    have ht : ∀ (us : Fin 1 → Unit → ℝ) (A : Fin 1 → Fin 1), take us A = us := fun us A => by
      funext i
      simp only [take]
      rw [Subsingleton.elim (A i) i]
    simp only [ht, Pi.add_apply]
    rw [Rand.E_const (prob_stratified _ _), ← ENNReal.ofReal_mul (Real.exp_pos _).le, ← Real.exp_add, add_comm]
  have hfw : ∀ k (y : Unit → ℝ), mixFuns.fwd k x y =
      eulerPath k (Toy.concat (Equiv.refl _) x y) (0, [1]) mixDrift (fun _ => 1) 1 := fun _ _ => rfl
  have hup : ∀ p, (mixFuns.unpack p).2 = p.map (Toy.unpackV (Equiv.refl _)) := fun _ => rfl
  simp only [hfw, hup, eulerPath, emInputs, splitAll, Arr1.init, List.range_one, List.map_cons, List.map_nil,
    List.length_singleton, List.zip_cons_cons, List.zip_nil_right, Rand.scan, emBody, Rand.pure_eq, Rand.E_bind,
    Rand.E_ret, List.dropLast_cons_cons, List.dropLast_singleton, normalRows, Rand.E_map, Rand.E_sample, id]
  have hrev : ∀ a b : Unit ⊕ Unit → ℝ, (Arr1.map (Toy.unpackV (Equiv.refl (Unit ⊕ Unit))) (a, [b])).reverse =
      (Toy.unpackV (Equiv.refl _) b, [Toy.unpackV (Equiv.refl _) a]) := fun a b => rfl
  simp only [hrev, hin]
  have hstep : ∀ w : Fin 1 → Unit ⊕ Unit → ℝ, Toy.unpackV (Equiv.refl (Unit ⊕ Unit))
      (emStep mixDrift (fun _ => 1) 1 (Toy.concat (Equiv.refl _) x 0) 0 1 (List.ofFn w)) () = x () + w 0 (Sum.inr ()) := by
    intro w
    simp [emStep, substepTimes, Jax.scan, emInner, Toy.unpackV, Toy.concat, mixDrift, List.ofFn_succ, linspace]
  simp only [hstep, Real.exp_add, ENNReal.ofReal_mul (Real.exp_pos _).le]
  rw [lintegral_mul_const _ (by fun_prop), lintegral_const_mul _ (by fun_prop), lintegral_exp_entry, mul_assoc,
    ← ENNReal.ofReal_mul (Real.exp_pos _).le, ← Real.exp_add]
  norm_num

/-- **C89, the guess matters.**  With a forward process which mixes the two parts, two guesses give states of different laws:
the mean of `exp(x0)` is `e` from the guess 0 and `e²` from the guess 1. -/
theorem C89_guess_matters {method : String} (hmet : method = "filter" ∨ method = "smoother") (key : Key) :
    ∃ F : (Unit → ℝ) → ℝ≥0∞, Measurable F ∧
      (gibbsInit mixFuns method false key 0 (fun _ => 0) (0, [1])).E (onState F) ≠
        (gibbsInit mixFuns method false key 0 (fun _ => 1) (0, [1])).E (onState F) := by
  refine ⟨fun u => ENNReal.ofReal (Real.exp (u ())), by fun_prop, ?_⟩
  rw [mix_state hmet, mix_state hmet]
  intro h
  have := (ENNReal.ofReal_eq_ofReal_iff (Real.exp_pos _).le (Real.exp_pos _).le).1 h
  rw [Real.exp_eq_exp] at this
  norm_num at this

/-! ### The chain forgets the guess -/

section Forget

variable {U V Z : Type} {n : ℕ}

theorem E_between {p : Rand U} (hp : p.IsProb) {G : U → ℝ≥0∞} {a r : ℝ≥0∞} (h : ∀ x, a ≤ G x ∧ G x ≤ a + r) :
    a ≤ p.E G ∧ p.E G ≤ a + r := by
  constructor
  · exact (Rand.E_const hp a).symm.le.trans (Rand.E_mono _ fun x => (h x).1)
  · exact (Rand.E_mono _ fun x => (h x).2).trans (Rand.E_const hp _).le

variable [MeasurableSpace U] [MeasurableSpace V]

/-- **C89, the chain forgets the guess** (`explicit_final=True`, as in the experiment).  In the situation in which the Gibbs
chain is uniformly ergodic (C82), the laws of the state after `nsamples` iterations from any two samplers of the guess, put
through any two ways to start, differ by at most `(1 - rate)^nsamples`. -/
theorem C89_forget_final {K : ℕ} [NeZero n] {m : Gibbs.Funs (rows n true) U V Z} {S : StateSpace U V}
    (hS : S.JointMeas) {ν : Measure U} [IsProbabilityMeasure ν] {y0 : V}
    (htr : ∀ xs v t k (F : (Fin (rows n true) → U) → ℝ≥0∞), Measurable F →
      (m.transSampler xs v t k).E F = ∫⁻ x, F x ∂(Measure.pi fun i => S.trans v t (xs i)))
    (hlik : ∀ v xs v' t i, m.lik v xs v' t i = S.logG v v' t (xs i))
    (hn : ∀ k r (F : (Fin (rows n true) → U) → ℝ≥0∞), Measurable F →
      (m.normal k r).E F = ∫⁻ x, F x ∂(Measure.pi fun _ => ν))
    (hst : ∀ key x (F : U → ℝ≥0∞), Measurable F → (m.fwd key x y0).E (fun p => F (m.unpack p).1.1) = F x)
    (hsh : PathShape m K) {β : ℝ} (hβ : ∀ v v' t u, S.logG v v' t u ≤ β) (margY eb : Bool) {ts : Arr1 ℝ}
    (hts : ts.2.length = K) (hpl : PathsLaw m margY y0 ts K)
    {Λ : Measure (Fin (K + 1) → V)} (hΛ : MinorObs m margY y0 ts Λ) {guess guess' : Key → Rand U} {init init' : Key → U → Rand U}
    (hg : ∀ k, (guess k).IsProb) (hg' : ∀ k, (guess' k).IsProb) (hi : ∀ k x, (init k x).IsProb)
    (hi' : ∀ k x, (init' k x).IsProb) (nsamples : ℕ) (key : Key) {F : U → ℝ≥0∞} (hF : Measurable F) (h1 : ∀ x, F x ≤ 1) :
    (gibbsChain true guess init m margY eb y0 ts nsamples key).E F ≤
      (gibbsChain true guess' init' m margY eb y0 ts nsamples key).E F + (1 - refRate eb n β S ν ts Λ) ^ nsamples := by
  have hx0 : ∃ x0 : U, True := by
    by_contra h
    have : IsEmpty U := ⟨fun x => h ⟨x, trivial⟩⟩
    exact absurd (measure_univ (μ := ν)) (by simp [Set.eq_empty_of_isEmpty])
  obtain ⟨x0, -⟩ := hx0
  obtain ⟨G, a, hGm, ha, hb, hE⟩ := ref_contract hS htr hlik hn hst hsh hβ margY eb hts hpl hΛ hF h1 x0 nsamples
    (split (split key 2 0) 2 0)
  have hc : ∀ (g : Key → Rand U) (i : Key → U → Rand U), (∀ k, (g k).IsProb) → (∀ k x, (i k x).IsProb) →
      a ≤ (gibbsChain true g i m margY eb y0 ts nsamples key).E F ∧
        (gibbsChain true g i m margY eb y0 ts nsamples key).E F ≤ a + (1 - refRate eb n β S ν ts Λ) ^ nsamples := by
    intro g i hg hi
    simp only [gibbsChain, Rand.E_bind, Rand.E_map]
    refine E_between (hg _) fun x => E_between (hi _ _) fun x' => ?_
    rw [hE _ _ (by simp [hts])]
    exact hb x'
  exact ((hc guess init hg hi).2).trans (add_le_add (hc guess' init' hg' hi').1 le_rfl)

/-- **C89, the chain forgets the guess** (`explicit_final=False`). -/
theorem C89_forget {K : ℕ} [NeZero n] [Nonempty U] {m : Gibbs.Funs (rows n false) U V Z} {S : StateSpace U V}
    (hS : S.JointMeas) {y0 : V}
    (htr : ∀ xs v t k (F : (Fin (rows n false) → U) → ℝ≥0∞), Measurable F →
      (m.transSampler xs v t k).E F = ∫⁻ x, F x ∂(Measure.pi fun i => S.trans v t (xs i)))
    (hlik : ∀ v xs v' t i, m.lik v xs v' t i = S.logG v v' t (xs i))
    (hst : ∀ key x (F : U → ℝ≥0∞), Measurable F → (m.fwd key x y0).E (fun p => F (m.unpack p).1.1) = F x)
    (hsh : PathShape m K) {β : ℝ} (hβ : ∀ v v' t u, S.logG v v' t u ≤ β) (margY eb : Bool) {ts : Arr1 ℝ}
    (hts : ts.2.length = K) (hpl : PathsLaw m margY y0 ts K)
    {Λ : Measure (U × (Fin (K + 1) → V))} (hΛ : MinorPinned m margY y0 ts Λ) {guess guess' : Key → Rand U}
    {init init' : Key → U → Rand U} (hg : ∀ k, (guess k).IsProb) (hg' : ∀ k, (guess' k).IsProb)
    (hi : ∀ k x, (init k x).IsProb) (hi' : ∀ k x, (init' k x).IsProb) (nsamples : ℕ) (key : Key) {F : U → ℝ≥0∞}
    (hF : Measurable F) (h1 : ∀ x, F x ≤ 1) :
    (gibbsChain false guess init m margY eb y0 ts nsamples key).E F ≤
      (gibbsChain false guess' init' m margY eb y0 ts nsamples key).E F + (1 - pinnedRate eb n β S ts Λ) ^ nsamples := by
  obtain ⟨x0⟩ := ‹Nonempty U›
  obtain ⟨G, a, hGm, ha, hb, hE⟩ := pinned_contract hS htr hlik hst hsh hβ margY eb hts hpl hΛ hF h1 x0 nsamples
    (split (split key 2 0) 2 0)
  have hc : ∀ (g : Key → Rand U) (i : Key → U → Rand U), (∀ k, (g k).IsProb) → (∀ k x, (i k x).IsProb) →
      a ≤ (gibbsChain false g i m margY eb y0 ts nsamples key).E F ∧
        (gibbsChain false g i m margY eb y0 ts nsamples key).E F ≤ a + (1 - pinnedRate eb n β S ts Λ) ^ nsamples := by
    intro g i hg hi
    simp only [gibbsChain, Rand.E_bind, Rand.E_map]
    refine E_between (hg _) fun x => E_between (hi _ _) fun x' => ?_
    rw [hE _ _ (by simp [hts])]
    exact hb x'
  exact ((hc guess init hg hi).2).trans (add_le_add (hc guess' init' hg' hi').1 le_rfl)

end Forget

/-! ### The repeated filter -/

section Repeated

variable {U : Type}

/-- **C89, the repeated filter.**  If the filter does not depend on the guess (the theorems above), the samples stored by the
loop over `pf` have the same law for any two samplers of the guess. -/
theorem C89_filter_samples {pf : Key → U → Rand U} (hpf : ∀ k x x', pf k x = pf k x') {guess guess' : Key → Rand U}
    (hg : ∀ k, (guess k).IsProb) (hg' : ∀ k, (guess' k).IsProb) : ∀ (nsamples : ℕ) (key : Key) (F : List U → ℝ≥0∞),
    (filterSamples guess pf nsamples key).E F = (filterSamples guess' pf nsamples key).E F
  | 0, _, _ => rfl
  | nsamples + 1, key, F => by
    have h : ∀ g : Key → Rand U, (∀ k, (g k).IsProb) → ∀ x0 : U, (filterSamples g pf (nsamples + 1) key).E F =
        (pf (split (split key 2 0) 2 1) x0).E fun x =>
          (filterSamples g pf nsamples (split (split key 2 0) 2 0)).E fun l => F (x :: l) := by
      intro g hg x0
      simp only [filterSamples, Rand.E_bind, Rand.pure_eq, Rand.E_ret]
      simp only [fun x => hpf (split (split key 2 0) 2 1) x x0]
      exact Rand.E_const (hg _) _
    rcases isEmpty_or_nonempty U with hU | ⟨⟨x0⟩⟩
    · have hp := hg (split key 2 1)
      have hp' := hg' (split key 2 1)
      simp only [filterSamples, Rand.E_bind]
      have hz : ∀ (p : Rand U), p.IsProb → ∀ f : U → ℝ≥0∞, p.E f = 0 := fun p hp f => by
        have : f = fun _ => 0 := funext fun x => hU.elim x
        rw [this, Rand.E_const hp]
      rw [hz _ hp, hz _ hp']
    · rw [h guess hg x0, h guess' hg' x0]
      refine Rand.E_congr _ fun x => ?_
      exact C89_filter_samples hpf hg hg' nsamples _ _

/-- The guesses of the experiment are probability laws. -/
theorem prob_randomX0 (a c : ℕ) (key : Key) : (randomX0 a c key).IsProb :=
  ⟨inferInstanceAs (IsProbabilityMeasure (Measure.pi fun _ => unifMeasure)), fun _ => trivial⟩

end Repeated

/-! ### Examples -/

/-- `du = v dt + dw`, `dv = -v dt + dw`: `v` moves on its own. -/
def ownDrift (z : Unit ⊕ Unit → ℝ) (_ : ℝ) : Unit ⊕ Unit → ℝ :=
  Sum.elim (fun _ => z (Sum.inr ())) fun _ => -z (Sum.inr ())

noncomputable def ownFuns : Gibbs.Funs 1 (Unit → ℝ) (Unit → ℝ) (Unit ⊕ Unit → ℝ) :=
  { mixFuns with fwd := fun k x y => eulerPath k (Toy.concat (Equiv.refl _) x y) (0, [1, 2]) ownDrift (fun t => t) 3 }

example (key : Key) (margY : Bool) (method : String) (x x' y0 : Unit → ℝ) :
    gibbsInit ownFuns method margY key y0 x (0, [1, 2]) = gibbsInit ownFuns method margY key y0 x' (0, [1, 2]) := by
  refine C89_separable_euler (Equiv.refl _) (drift := ownDrift) ?_ (fun t => t) 3 (fun _ _ => rfl) (fun _ => rfl) method margY
    key x x'
  rintro t z z' h _ ⟨i, rfl⟩
  have := h (Sum.inr ()) ⟨(), rfl⟩
  simp [ownDrift, this]

/-- Images of 2 × 2 pixels of which pixels 1 and 3 are observed, and a drift which shrinks every pixel. -/
example (key : Key) (ts : Arr1 ℝ) (x x' y0 : Fin 2 × Fin 1 → ℝ) :
    (Except.map (Arr1.map fun z => (ImgSamplers.unpackMask (w := 2) (h := 2) ⟨[0, 2], [1, 3]⟩ z).2)) <$>
        SbImgs.fwdSampler ⟨[0, 2], [1, 3]⟩ (fun z t i => -t * z i) (fun t => t) ts key x y0 =
      (Except.map (Arr1.map fun z => (ImgSamplers.unpackMask (w := 2) (h := 2) ⟨[0, 2], [1, 3]⟩ z).2)) <$>
        SbImgs.fwdSampler ⟨[0, 2], [1, 3]⟩ (fun z t i => -t * z i) (fun t => t) ts key x' y0 := by
  have hp : (([0, 2] : List ℕ) ++ [1, 3]).Perm (List.range (2 * 2)) := by decide
  refine C89_images (mask := ⟨[0, 2], [1, 3]⟩) hp (fun t z z' h => ?_) (fun t => t) ts key x x' y0
  rw [unpackMask_eq (mask := ⟨[0, 2], [1, 3]⟩) hp, unpackMask_eq (mask := ⟨[0, 2], [1, 3]⟩) hp] at h ⊢
  funext i
  have := congrFun h i
  simp only [Toy.unpackV] at this ⊢
  rw [this]

/-- The noising of a linear SDE. -/
noncomputable def linFuns (sde : Linear.SDE) : Gibbs.Funs 1 (Unit → ℝ) (Unit → ℝ) (Unit ⊕ Unit → ℝ) :=
  { mixFuns with fwd := fun k x y => (fun l => (l.headD 0, l.tail)) <$>
                  Linear.simulatePath sde k (Toy.concat (Equiv.refl _) x y) (0, [1, 2]) }

example (key : Key) (margY : Bool) (method : String) (x x' y0 : Unit → ℝ) (sde : Linear.SDE) :
    gibbsInit (linFuns sde) method margY key y0 x (0, [1, 2]) =
      gibbsInit (linFuns sde) method margY key y0 x' (0, [1, 2]) := by
  refine C89_separable_linear (Equiv.refl _) sde (fun k x => ?_) (fun _ => rfl) method margY key x x'
  simp only [linFuns]
  rw [← comp_map]
  simp only [Linear.simulatePath, map_bind, map_pure]
  rfl

/-- `dv = sin(u) dt + dw`. -/
noncomputable def sinDrift (z : Unit ⊕ Unit → ℝ) (_ : ℝ) : Unit ⊕ Unit → ℝ :=
  Sum.elim (fun _ => 0) fun _ => Real.sin (z (Sum.inl ()))

noncomputable def sinFuns : Gibbs.Funs 1 (Unit → ℝ) (Unit → ℝ) (Unit ⊕ Unit → ℝ) :=
  { mixFuns with fwd := fun k x y => eulerPath k (Toy.concat (Equiv.refl _) x y) (arr ![0, 1, 2]) sinDrift (fun _ => 2) 1 }

/-- The reverse model of `mixFuns`. -/
noncomputable def mixS : StateSpace (Unit → ℝ) (Unit → ℝ) where
  init := stdNormal Unit
  prob := by unfold stdNormal; infer_instance
  trans := fun v _ => Kernel.deterministic (fun u => u + v) (by fun_prop)
  markov := fun _ _ => inferInstance
  logG := fun _ _ _ _ => 0
  measG := fun _ _ _ => measurable_const
  logG0 := fun _ _ _ => 0
  measG0 := fun _ _ => measurable_const

/-- Moving the guess from 0 to 1/10 moves the law of the start by at most `1/20 · √(1/2)`. -/
example (key : Key) (y0 : Unit → ℝ) {F : (Unit → ℝ) → ℝ≥0∞} (hF : Measurable F) (h1 : ∀ x, F x ≤ 1) :
    |((gibbsInit sinFuns "smoother" false key y0 (fun _ => 0) (arr ![0, 1, 2])).E (onState F)).toReal -
      ((gibbsInit sinFuns "smoother" false key y0 (fun _ => 1 / 10) (arr ![0, 1, 2])).E (onState F)).toReal| ≤
      1 / 10 / 2 * Real.sqrt (1 / 2) := by
  have hp : IsProbabilityMeasure (stdNormal Unit) := by unfold stdNormal; infer_instance
  have hS : mixS.JointMeas := by
    refine ⟨fun t => ?_, fun t => measurable_const⟩
    exact Measure.measurable_dirac.comp (by fun_prop)
  have h := C89_guess_bound (N := 1) (K := 2) (Equiv.refl _) (b := sinDrift) (disp := fun _ => 2) (ts := ![0, 1, 2])
    (x := fun _ => 0) (x' := fun _ => 1 / 10) (ε := 1 / 10) (m := sinFuns) (y0 := y0) (S := mixS) (ν := stdNormal Unit)
    (fun t => ?_) (fun t _ => two_ne_zero) ?_ (by norm_num) ?_ (fun _ _ => rfl) (fun _ => rfl) hS ?_ (fun _ _ _ _ _ => rfl)
    (fun k r F hF => by simp [sinFuns, mixFuns, Rand.E_sample]) (Or.inr rfl) key hF h1
  · refine h.trans (le_of_eq ?_)
    norm_num [invMass, arr]
  · unfold sinDrift
    refine measurable_pi_iff.2 fun i => ?_
    rcases i with i | i <;> simp <;> fun_prop
  · simp [arr, Arr1.init]
  · intro t _ u v
    have h3 := Real.abs_sin_sub_sin_le (u ()) (u () + (1 / 10 - 0))
    have h4 := sq_le_sq' (neg_le_of_abs_le h3) ((le_abs_self _).trans h3)
    rw [sq_abs] at h4
    simp only [Fintype.sum_sum_type, sinDrift, Toy.concat, Equiv.refl_symm, Equiv.refl_apply, Sum.elim_inl, Sum.elim_inr,
      Finset.univ_unique, Finset.sum_const, Finset.card_singleton, one_smul, Pi.add_apply, Pi.sub_apply]
    nlinarith
  · intro xs v t k F hF
    simp only [mixS, Kernel.deterministic_apply]
    rw [Csmc.pi_dirac, lintegral_dirac' _ hF]
    rfl

/-- The chain from the guess 0 and from a random guess. -/
example (key : Key) (k : ℕ) {F : ℝ → ℝ≥0∞} (hF : Measurable F) (h1 : ∀ x, F x ≤ 1) :
    (gibbsChain true (fun _ => pure 0) (fun _ => pure) (exFuns (fun _ u => Real.cos u) (rows 5 true)) false true 2 (0, [1]) k
        key).E F
      ≤ (gibbsChain true uniform (fun _ => pure) (exFuns (fun _ u => Real.cos u) (rows 5 true)) false true 2 (0, [1]) k key).E F
        + (1 - refRate true 5 1 (exS (fun _ u => Real.cos u) fun _ => Real.measurable_cos) (gaussianReal 0 1)
            ((0, [1]) : Arr1 ℝ) (exObs 2)) ^ k :=
  have hg : Measurable fun p : ℝ × ℝ => Real.cos p.2 := by fun_prop
  have hm := exFuns_reference (g := fun _ u => Real.cos u) hg Real.measurable_cos (rows 5 true) 2 0 1
  C89_forget_final (exS_jointMeas (g := fun _ u => Real.cos u) hg) hm.trans hm.lik hm.normal hm.starts
    (exFuns_shape _ _) (fun _ _ _ u => Real.cos_le_one u) false true rfl
    (pathsLaw_of_fwd hm.starts (exFuns_fwdMeas _ _ _) _) (exFuns_minorObs _ _ _ _) (fun _ => prob_ret _) isProb_uniform'
    (fun _ _ => prob_ret _) (fun _ _ => prob_ret _) k key hF h1

example (key : Key) (k : ℕ) {F : ℝ → ℝ≥0∞} (hF : Measurable F) (h1 : ∀ x, F x ≤ 1) :
    (gibbsChain false (fun _ => pure 0) (fun _ => pure) (freshFuns (fun _ u => Real.cos u) (rows 5 false)) false false 2 (0, [1])
        k key).E F
      ≤ (gibbsChain false uniform (fun _ => pure) (freshFuns (fun _ u => Real.cos u) (rows 5 false)) false false 2 (0, [1]) k
        key).E F
        + (1 - pinnedRate false 5 1 (freshS (fun _ u => Real.cos u) fun _ => Real.measurable_cos)
            ((0, [1]) : Arr1 ℝ) (freshEnd 2)) ^ k :=
  have hg : Measurable fun p : ℝ × ℝ => Real.cos p.2 := by fun_prop
  have hst : ∀ key x (F : ℝ → ℝ≥0∞), Measurable F → ((freshFuns (fun _ u => Real.cos u) (rows 5 false)).fwd key x 2).E
      (fun p => F ((freshFuns (fun _ u => Real.cos u) (rows 5 false)).unpack p).1.1) = F x := fun key x F _ => by
    simp [freshFuns, Rand.E_map, Rand.E_sample, Arr1.map]
  C89_forget (freshS_jointMeas (g := fun _ u => Real.cos u) hg)
    (fun xs v t k F hF => by simp only [freshFuns, freshS, Rand.E_sample, Kernel.const_apply]) (fun _ _ _ _ _ => rfl) hst
    (freshFuns_shape _ _) (fun _ _ _ u => Real.cos_le_one u) false false rfl
    (pathsLaw_of_fwd hst (freshFuns_fwdMeas _ _ _) _) (freshFuns_minor _ _ _ _) (fun _ => prob_ret _) isProb_uniform'
    (fun _ _ => prob_ret _) (fun _ _ => prob_ret _) k key hF h1

/-- The repeated filter from random and from blank guesses. -/
example (a c : ℕ) (pf : Key → Rand (Fin a × Fin c → ℝ)) (n : ℕ) (key : Key) (F : List (Fin a × Fin c → ℝ) → ℝ≥0∞) :
    (filterSamples (randomX0 a c) (fun k _ => pf k) n key).E F =
      (filterSamples (fun _ => blankX0 a c) (fun k _ => pf k) n key).E F :=
  C89_filter_samples (fun _ _ _ => rfl) (prob_randomX0 a c) (fun _ => prob_ret _) n key F

end Props
end Fbs
