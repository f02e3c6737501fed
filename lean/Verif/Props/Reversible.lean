import Verif.Lemmas.Reversible
import Verif.Lemmas.ReversibleChain
import Verif.Props.ChainAverages

/-!
# C103: the conditional samplers are reversible, and their autocovariances are non-negative and decreasing
-/

open MeasureTheory ProbabilityTheory
open scoped ENNReal

namespace Fbs
namespace Props

open Jax Spec Csmc Gibbs Chains

/-! ### One call of conditional SMC -/

section

variable {N : ℕ} {U V : Type} [MeasurableSpace U]

/-- Two products of a function of the reference and a function of the output, as one expectation over the forward pass. -/
theorem csmc_pair [NeZero N] {m : Csmc.Funs N U V} {S : StateSpace U V} (hm : Implements m S)
    {res : CondResampling N} (sch : ExactScheme res) (n : ℕ) (key : Key) (vs : Arr1 V) (ts : Arr1 ℝ)
    (ht : ts.2.length = vs.2.length) {f g f' g' : List U → List (Fin N) → ℝ≥0∞} (hf : MeasOut (1 + vs.2.length) f)
    (hg : MeasOut (1 + vs.2.length) g) (hf' : MeasOut (1 + vs.2.length) f') (hg' : MeasOut (1 + vs.2.length) g') :
    S.target N vs ts (fun p =>
        f (p.toList.map Prod.fst) (p.toList.map Prod.snd) *
          (kernel m res n false key (p.map Prod.fst) (p.map Prod.snd) vs ts).E (fun out => g out.1 out.2)
        + f' (p.toList.map Prod.fst) (p.toList.map Prod.snd) *
          (kernel m res n false key (p.map Prod.fst) (p.map Prod.snd) vs ts).E (fun out => g' out.1 out.2))
      = ∫⁻ y, (N : ℝ≥0∞)⁻¹ * ENNReal.ofReal (∑ i, Real.exp (S.logG0 vs.1 (vs.2.headD vs.1) (y i))) *
          Rf sch.joint (fun st b => pairΨ f (selectΨ g) st b + pairΨ f' (selectΨ g') st b)
            (S.steps vs.1 vs.2 ts.toList) (initSt (S.logG0 vs.1 (vs.2.headD vs.1)) y)
        ∂(Measure.pi fun _ : Fin N => S.init) := by
  have hmk : ∀ {f g : List U → List (Fin N) → ℝ≥0∞}, MeasOut (1 + vs.2.length) f → MeasOut (1 + vs.2.length) g →
      MeasFun (1 + vs.2.length) (pairΨ f (selectΨ g)) := fun hf hg => measFun_pair hf (measFun_select hg)
  rw [← forwardPass_identity hm sch n (split key 2 0) vs ts ht (measFun_add (hmk hf hg) (hmk hf' hg'))]
  refine target_congr S vs ts ht fun p hp => ?_
  have hlen : p.2.length = (S.steps vs.1 vs.2 ts.toList).length := by
    rw [Csmc.steps_length, hp]; simp [Arr1.toList, ht]
  have hini : MeasSt 1 fun y : Fin N → U =>
      initSt (S.logG0 vs.1 (vs.2.headD vs.1)) (Function.update y p.1.2 p.1.1) :=
    measSt_init (S.measG0 _ _) (measurable_update_pi measurable_id measurable_const)
  have hst := fun y : Fin N → U => hini.comp (f := fun _ : Unit => y) measurable_const
  have hm1 : ∀ {g : List U → List (Fin N) → ℝ≥0∞}, MeasOut (1 + vs.2.length) g →
      MeasFun (1 + (S.steps vs.1 vs.2 ts.toList).length) (selectΨ g : St N U → Fin N → ℝ≥0∞) := fun hg => by
    rw [← hlen, hp]; exact measFun_select hg
  have hE : ∀ {g : List U → List (Fin N) → ℝ≥0∞}, MeasOut (1 + vs.2.length) g →
      (kernel m res n false key (p.map Prod.fst) (p.map Prod.snd) vs ts).E (fun out => g out.1 out.2)
        = ∫⁻ y, Cf sch.cond (selectΨ g) (S.steps vs.1 vs.2 ts.toList) p.2
          (initSt (S.logG0 vs.1 (vs.2.headD vs.1)) (Function.update y p.1.2 p.1.1)) p.1.2
          ∂(Measure.pi fun _ => S.init) := fun {g} hg => by
    rw [E_kernel_scanning m res n key _ _ vs ts (p.map Prod.snd).last g,
      E_forwardPass hm sch n (split key 2 0) p vs ts hp.symm (ht.trans hp.symm) (by rw [hp]; exact measFun_select hg)]
  have hC : ∀ {g : List U → List (Fin N) → ℝ≥0∞}, MeasOut (1 + vs.2.length) g → Measurable fun y : Fin N → U =>
      Cf sch.cond (selectΨ g) (S.steps vs.1 vs.2 ts.toList) p.2
        (initSt (S.logG0 vs.1 (vs.2.headD vs.1)) (Function.update y p.1.2 p.1.1)) p.1.2 := fun hg =>
    measurable_Cf_fixed sch.meas _ 1 (hm1 hg) hini _ hlen _
  have hk : ∀ {f g : List U → List (Fin N) → ℝ≥0∞}, MeasOut (1 + vs.2.length) g → ∀ y : Fin N → U,
      Cf sch.cond (pairΨ f (selectΨ g)) (S.steps vs.1 vs.2 ts.toList) p.2
        (initSt (S.logG0 vs.1 (vs.2.headD vs.1)) (Function.update y p.1.2 p.1.1)) p.1.2
      = f (p.toList.map Prod.fst) (p.toList.map Prod.snd) * Cf sch.cond (selectΨ g) (S.steps vs.1 vs.2 ts.toList) p.2
        (initSt (S.logG0 vs.1 (vs.2.headD vs.1)) (Function.update y p.1.2 p.1.1)) p.1.2 := fun {f g} hg y => by
    refine (Cf_keep_mul sch f _ _ 1 _ p.1.2 hlen (hst y) (hm1 hg) (normalise_weights _) fun i => normalise_pos _ i).trans ?_
    simp [initSt, Arr1.toList]
  refine Eq.trans ?_ (E_forwardPass hm sch
    (Ψ := fun st b => pairΨ f (selectΨ g) st b + pairΨ f' (selectΨ g') st b) n (split key 2 0) p vs ts hp.symm (ht.trans hp.symm)
      (by rw [hp]; exact measFun_add (hmk hf hg) (hmk hf' hg'))).symm
  rw [hE hg, hE hg',
    ← lintegral_const_mul _ (hC hg), ← lintegral_const_mul _ (hC hg'), ← lintegral_add_left ((hC hg).const_mul _)]
  refine lintegral_congr fun y => ?_
  rw [Cf_add sch.meas _ _ 1 _ _ hlen (hst y) (by rw [← hlen, hp]; exact hmk hf hg), hk hg, hk hg']

/-- **C103, conditional SMC.**  `csmc_kernel` with ancestor tracing is reversible: with the reference drawn from the smoothing
distribution (and uniform indices), the pair (reference, output) is exchangeable.  For every exact conditional resampling. -/
theorem C103_csmc_reversible [NeZero N] {m : Csmc.Funs N U V} {S : StateSpace U V} (hm : Implements m S)
    {res : CondResampling N} (sch : ExactScheme res) (n : ℕ) (key : Key) (vs : Arr1 V) (ts : Arr1 ℝ)
    (ht : ts.2.length = vs.2.length) {f g : List U → List (Fin N) → ℝ≥0∞} (hf : MeasOut (1 + vs.2.length) f)
    (hg : MeasOut (1 + vs.2.length) g) :
    S.target N vs ts (fun p => f (p.toList.map Prod.fst) (p.toList.map Prod.snd) *
        (kernel m res n false key (p.map Prod.fst) (p.map Prod.snd) vs ts).E (fun out => g out.1 out.2))
      = S.target N vs ts (fun p => g (p.toList.map Prod.fst) (p.toList.map Prod.snd) *
        (kernel m res n false key (p.map Prod.fst) (p.map Prod.snd) vs ts).E (fun out => f out.1 out.2)) := by
  have h0 : MeasOut (N := N) (U := U) (1 + vs.2.length) fun _ _ => 0 := measurable_const
  have h1 := csmc_pair hm sch n key vs ts ht hf hg h0 h0
  have h2 := csmc_pair hm sch n key vs ts ht hg hf h0 h0
  simp only [zero_mul, add_zero] at h1 h2
  rw [h1, h2]
  refine lintegral_congr fun y => ?_
  congr 1
  refine Rf_congr _ (fun st hW => ?_) _ _ (normalise_weights _)
  simp only [mul_add, Finset.sum_add_distrib]
  rw [sum_pair_select f g st hW, sum_pair_select g f st hW, mul_comm]

/-- **C103, conditional SMC, positivity.**  `⟨f - g, P (f - g)⟩ ≥ 0` in `L²` of the smoothing distribution, for the operator `P` of
`csmc_kernel` with ancestor tracing: the reference and the output are never negatively correlated. -/
theorem C103_csmc_positive [NeZero N] {m : Csmc.Funs N U V} {S : StateSpace U V} (hm : Implements m S)
    {res : CondResampling N} (sch : ExactScheme res) (n : ℕ) (key : Key) (vs : Arr1 V) (ts : Arr1 ℝ)
    (ht : ts.2.length = vs.2.length) {f g : List U → List (Fin N) → ℝ≥0∞} (hf : MeasOut (1 + vs.2.length) f)
    (hg : MeasOut (1 + vs.2.length) g) :
    S.target N vs ts (fun p =>
        f (p.toList.map Prod.fst) (p.toList.map Prod.snd) *
          (kernel m res n false key (p.map Prod.fst) (p.map Prod.snd) vs ts).E (fun out => g out.1 out.2)
        + g (p.toList.map Prod.fst) (p.toList.map Prod.snd) *
          (kernel m res n false key (p.map Prod.fst) (p.map Prod.snd) vs ts).E (fun out => f out.1 out.2))
      ≤ S.target N vs ts (fun p =>
        f (p.toList.map Prod.fst) (p.toList.map Prod.snd) *
          (kernel m res n false key (p.map Prod.fst) (p.map Prod.snd) vs ts).E (fun out => f out.1 out.2)
        + g (p.toList.map Prod.fst) (p.toList.map Prod.snd) *
          (kernel m res n false key (p.map Prod.fst) (p.map Prod.snd) vs ts).E (fun out => g out.1 out.2)) := by
  rw [csmc_pair hm sch n key vs ts ht hf hg hg hf, csmc_pair hm sch n key vs ts ht hf hf hg hg]
  refine lintegral_mono fun y => mul_le_mul_right ?_ _
  refine Rf_mono_on _ (Q := fun _ => True) (fun st hW _ => ?_) _ (fun _ _ _ => trivial) _ (normalise_weights _) trivial
  simp only [mul_add, Finset.sum_add_distrib]
  rw [sum_pair_select f g st hW, sum_pair_select g f st hW, sum_pair_select f f st hW, sum_pair_select g g st hW]
  exact two_mul_le

/-- The killing scheme, three particles, two steps: head of the old path against the length-three path of the new one. -/
example (key : Key) :
    exampleModel.target 3 (0, [1, 2]) (0, [1, 2]) (fun p => ENNReal.ofReal ((p.toList.map Prod.fst).headD 0) *
        (kernel (modelFuns exampleModel 3) CsmcResampling.killing 2 false key
          (p.map Prod.fst) (p.map Prod.snd) (0, [1, 2]) (0, [1, 2])).E (fun out => ENNReal.ofReal ((out.1.headD 0) ^ 2)))
      = exampleModel.target 3 (0, [1, 2]) (0, [1, 2]) (fun p => ENNReal.ofReal ((p.toList.map Prod.fst).headD 0 ^ 2) *
        (kernel (modelFuns exampleModel 3) CsmcResampling.killing 2 false key
          (p.map Prod.fst) (p.map Prod.snd) (0, [1, 2]) (0, [1, 2])).E (fun out => ENNReal.ofReal (out.1.headD 0))) :=
  C103_csmc_reversible (implements_modelFuns exampleModel 3) killingScheme 2 key (0, [1, 2]) (0, [1, 2]) rfl
    (f := fun us _ => ENNReal.ofReal (us.headD 0)) (g := fun us _ => ENNReal.ofReal (us.headD 0 ^ 2))
    (ENNReal.measurable_ofReal.comp (measurable_fst.comp (measurable_pi_apply 0)))
    (ENNReal.measurable_ofReal.comp ((measurable_fst.comp (measurable_pi_apply 0)).pow_const 2))

end

/-! ### The Gibbs kernel -/

section

variable {n : ℕ} {U V Z : Type} [MeasurableSpace U] [MeasurableSpace V]

omit [MeasurableSpace U] in
theorem sum_pair_move {N : ℕ} [NeZero N] (eb : Bool) (f g : U → ℝ≥0∞) (st : St N U) (hW : Weights st.W)
    (hr : eb = true → Regular st.W) :
    ∑ b, ENNReal.ofReal (st.W b) * pairΨ (lastF fun x _ => f x) (moveΨ eb g) st b
      = ∑ b, ENNReal.ofReal (st.W b) * pairΨ (lastF fun x _ => g x) (moveΨ eb f) st b := by
  unfold moveΨ
  cases eb
  · simp only [Bool.false_eq_true, if_false]
    rw [sum_pair_select _ _ st hW, sum_pair_select _ _ st hW, mul_comm]
  · simp only [if_true]
    exact sum_pair_force _ _ st hW (hr rfl)

omit [MeasurableSpace U] in
theorem sum_pair_pos {N : ℕ} [NeZero N] (f g : U → ℝ≥0∞) (st : St N U) (hW : Weights st.W) :
    ∑ b, ENNReal.ofReal (st.W b) * (pairΨ (lastF fun x _ => f x) (moveΨ false g) st b
        + pairΨ (lastF fun x _ => g x) (moveΨ false f) st b)
      ≤ ∑ b, ENNReal.ofReal (st.W b) * (pairΨ (lastF fun x _ => f x) (moveΨ false f) st b
        + pairΨ (lastF fun x _ => g x) (moveΨ false g) st b) := by
  simp only [moveΨ, Bool.false_eq_true, if_false, mul_add, Finset.sum_add_distrib]
  rw [sum_pair_select _ _ st hW, sum_pair_select _ _ st hW, sum_pair_select _ _ st hW, sum_pair_select _ _ st hW]
  exact two_mul_le

variable [NeZero n] {S : StateSpace U V} {π0 : Measure U} {y0 : V} {ts : Arr1 ℝ} {K : ℕ}

/-- **C103, Gibbs kernel.**  `gibbs_kernel` with `explicit_final=False` is reversible with respect to the conditional law `π0` it
leaves invariant, with and without `explicit_backward`. -/
theorem C103_gibbs_reversible {m : Gibbs.Funs (rows n false) U V Z} (hS : S.JointMeas) (hm : BackwardExact m S π0 y0 ts K)
    (hsh : PathShape m K) (hpk : PathsKer m false y0 ts K) (hts : ts.2.length = K) (eb : Bool)
    (hreg : eb = true → ∀ v v' t (x : Fin (rows n false) → U), Regular (normalise fun i => S.logG v v' t (x i)))
    (key : Key) {bs : Arr1 (Fin (rows n false))} (hb : bs.2.length = K) {f g : U → ℝ≥0∞} (hf : Measurable f) (hg : Measurable g) :
    ∫⁻ x, f x * (gibbsKernel false m false eb key x y0 bs ts).E (fun out => g out.1) ∂π0
      = ∫⁻ x, g x * (gibbsKernel false m false eb key x y0 bs ts).E (fun out => f out.1) ∂π0 := by
  obtain ⟨Λ, hΛ⟩ := gibbs_pair hS hm hsh hpk hts eb
  have h0 : Measurable fun _ : U => (0 : ℝ≥0∞) := measurable_const
  have h1 := hΛ key bs hb hf hg h0 h0
  have h2 := hΛ key bs hb hg hf h0 h0
  simp only [zero_mul, lintegral_zero, add_zero] at h1 h2
  rw [h1, h2]
  refine lintegral_congr fun q => ?_
  refine Rf_congr_on _ (Q := fun w => eb = true → Regular w) (fun st hW hQ => ?_) _
    (steps_mem (Q := fun w => eb = true → Regular w) (fun v v' t x he => hreg he v v' t x) _ _ _) _ (normalise_weights _) fun _ => ?_
  · simp only [mul_add, Finset.sum_add_distrib]
    rw [sum_pair_move eb f g st hW hQ]
  · rw [show (startSt (rows n false) (-Real.log n) q.1).W = fun _ => 1 / ((rows n false : ℕ) : ℝ) from
      funext fun b => startSt_W _ _ b]
    exact regular_uniform _

/-- **C103, Gibbs kernel with `explicit_final=True`.**  Reversible, with and without `explicit_backward`. -/
theorem C103_gibbs_final_reversible {m : Gibbs.Funs (rows n true) U V Z} (hS : S.JointMeas) {ν : Measure U}
    [IsProbabilityMeasure ν] (hm : ReferenceExact m S ν π0 y0 ts K fun v u => S.logG (arr v).1 ((arr v).2.headD (arr v).1) ts.1 u)
    (hsh : PathShape m K) (hpk : PathsKer m false y0 ts K) (hts : ts.2.length = K) (eb : Bool)
    (hreg : eb = true → ∀ v v' t (x : Fin (rows n true) → U), Regular (normalise fun i => S.logG v v' t (x i)))
    (key : Key) {bs : Arr1 (Fin (rows n true))} (hb : bs.2.length = K) {f g : U → ℝ≥0∞} (hf : Measurable f) (hg : Measurable g) :
    ∫⁻ x, f x * (gibbsKernel true m false eb key x y0 bs ts).E (fun out => g out.1) ∂π0
      = ∫⁻ x, g x * (gibbsKernel true m false eb key x y0 bs ts).E (fun out => f out.1) ∂π0 := by
  obtain ⟨Λ, hΛ⟩ := gibbs_final_pair hS hm hsh hpk hts eb
  have h0 : Measurable fun _ : U => (0 : ℝ≥0∞) := measurable_const
  have h1 := hΛ key bs hb hf hg h0 h0
  have h2 := hΛ key bs hb hg hf h0 h0
  simp only [zero_mul, lintegral_zero, add_zero] at h1 h2
  rw [h1, h2]
  refine lintegral_congr fun v => lintegral_congr fun y => ?_
  congr 1
  refine Rf_congr_on _ (Q := fun w => eb = true → Regular w) (fun st hW hQ => ?_) _
    (steps_mem (Q := fun w => eb = true → Regular w) (fun v v' t x he => hreg he v v' t x) _ _ _) _ (normalise_weights _) fun he => hreg he _ _ _ _
  simp only [mul_add, Finset.sum_add_distrib]
  rw [sum_pair_move eb f g st hW hQ]

/-- **C103, Gibbs kernel, positivity** (`explicit_backward=False`). -/
theorem C103_gibbs_positive {m : Gibbs.Funs (rows n false) U V Z} (hS : S.JointMeas) (hm : BackwardExact m S π0 y0 ts K)
    (hsh : PathShape m K) (hpk : PathsKer m false y0 ts K) (hts : ts.2.length = K)
    (key : Key) {bs : Arr1 (Fin (rows n false))} (hb : bs.2.length = K) {f g : U → ℝ≥0∞} (hf : Measurable f) (hg : Measurable g) :
    ∫⁻ x, f x * (gibbsKernel false m false false key x y0 bs ts).E (fun out => g out.1) ∂π0
        + ∫⁻ x, g x * (gibbsKernel false m false false key x y0 bs ts).E (fun out => f out.1) ∂π0
      ≤ ∫⁻ x, f x * (gibbsKernel false m false false key x y0 bs ts).E (fun out => f out.1) ∂π0
        + ∫⁻ x, g x * (gibbsKernel false m false false key x y0 bs ts).E (fun out => g out.1) ∂π0 := by
  obtain ⟨Λ, hΛ⟩ := gibbs_pair hS hm hsh hpk hts false
  rw [hΛ key bs hb hf hg hg hf, hΛ key bs hb hf hf hg hg]
  exact lintegral_mono fun q => Rf_mono_on _ (Q := fun _ => True) (fun st hW _ => sum_pair_pos f g st hW) _
    (fun _ _ _ => trivial) _ (normalise_weights _) trivial

/-- **C103, Gibbs kernel with `explicit_final=True`, positivity** (`explicit_backward=False`). -/
theorem C103_gibbs_final_positive {m : Gibbs.Funs (rows n true) U V Z} (hS : S.JointMeas) {ν : Measure U}
    [IsProbabilityMeasure ν] (hm : ReferenceExact m S ν π0 y0 ts K fun v u => S.logG (arr v).1 ((arr v).2.headD (arr v).1) ts.1 u)
    (hsh : PathShape m K) (hpk : PathsKer m false y0 ts K) (hts : ts.2.length = K)
    (key : Key) {bs : Arr1 (Fin (rows n true))} (hb : bs.2.length = K) {f g : U → ℝ≥0∞} (hf : Measurable f) (hg : Measurable g) :
    ∫⁻ x, f x * (gibbsKernel true m false false key x y0 bs ts).E (fun out => g out.1) ∂π0
        + ∫⁻ x, g x * (gibbsKernel true m false false key x y0 bs ts).E (fun out => f out.1) ∂π0
      ≤ ∫⁻ x, f x * (gibbsKernel true m false false key x y0 bs ts).E (fun out => f out.1) ∂π0
        + ∫⁻ x, g x * (gibbsKernel true m false false key x y0 bs ts).E (fun out => g out.1) ∂π0 := by
  obtain ⟨Λ, hΛ⟩ := gibbs_final_pair hS hm hsh hpk hts false
  rw [hΛ key bs hb hf hg hg hf, hΛ key bs hb hf hf hg hg]
  exact lintegral_mono fun v => lintegral_mono fun y => mul_le_mul_right
    (Rf_mono_on _ (Q := fun _ => True) (fun st hW _ => sum_pair_pos f g st hW) _ (fun _ _ _ => trivial) _ (normalise_weights _) trivial) _

/-! ### Autocovariances of the chain -/

omit [MeasurableSpace V] in
/-- One lag of the chain in terms of its kernel. -/
theorem revKer {ef eb : Bool} {m : Gibbs.Funs (rows n ef) U V Z} {η : Kernel U U}
    (hη : ∀ key x (bs : Arr1 (Fin (rows n ef))), bs.2.length = K → ∀ F, Measurable F →
      (gibbsKernel ef m false eb key x y0 bs ts).E (fun out => F out.1) = ∫⁻ u, F u ∂(η x)) {key : Key} {f g : U → ℝ≥0∞}
    (hg : Measurable g) {bs : Arr1 (Fin (rows n ef))} (hb : bs.2.length = K) :
    ∫⁻ x, f x * (gibbsKernel ef m false eb key x y0 bs ts).E (fun out => g out.1) ∂π0 = lagProd η π0 f g 1 := by
  unfold lagProd
  simp only [hη key _ bs hb g hg, iterInt]

theorem gibbs_rev_ker {m : Gibbs.Funs (rows n false) U V Z} (hS : S.JointMeas) (hm : BackwardExact m S π0 y0 ts K)
    (hsh : PathShape m K) (hpk : PathsKer m false y0 ts K) (hts : ts.2.length = K) (eb : Bool)
    (hreg : eb = true → ∀ v v' t (x : Fin (rows n false) → U), Regular (normalise fun i => S.logG v v' t (x i))) :
    ∃ η : Kernel U U, IsMarkovKernel η ∧
      Runs (gibbsNext false m false eb y0 ts) Prod.fst (fun s => s.2.2.length = K) η ∧ Rev η π0 ∧ (eb = false → Pos η π0) := by
  obtain ⟨η, hM, hη⟩ := gibbs_ker hS hm.trans hm.lik hm.starts hsh false eb hts hpk
  have hb : ((0, List.replicate K 0) : Arr1 (Fin (rows n false))).2.length = K := by simp
  refine ⟨η, hM, gibbs_runs hsh false eb hts hη, fun f g hf hg => ?_, fun he f g hf hg => ?_⟩
  · rw [← revKer hη (key := []) hg hb, ← revKer hη (key := []) hf hb]
    exact C103_gibbs_reversible hS hm hsh hpk hts eb hreg [] hb hf hg
  · subst he
    rw [← revKer hη (key := []) hg hb, ← revKer hη (key := []) hf hb, ← revKer hη (key := []) hf hb,
      ← revKer hη (key := []) hg hb]
    exact C103_gibbs_positive hS hm hsh hpk hts [] hb hf hg

theorem gibbs_final_rev_ker {m : Gibbs.Funs (rows n true) U V Z} (hS : S.JointMeas) {ν : Measure U}
    [IsProbabilityMeasure ν] (hm : ReferenceExact m S ν π0 y0 ts K fun v u => S.logG (arr v).1 ((arr v).2.headD (arr v).1) ts.1 u)
    (hsh : PathShape m K) (hpk : PathsKer m false y0 ts K) (hts : ts.2.length = K) (eb : Bool)
    (hreg : eb = true → ∀ v v' t (x : Fin (rows n true) → U), Regular (normalise fun i => S.logG v v' t (x i))) :
    ∃ η : Kernel U U, IsMarkovKernel η ∧
      Runs (gibbsNext true m false eb y0 ts) Prod.fst (fun s => s.2.2.length = K) η ∧ Rev η π0 ∧ (eb = false → Pos η π0) := by
  obtain ⟨η, hM, hη⟩ := gibbs_final_ker hS hm.trans hm.lik hm.normal hm.starts hsh false eb hts hpk
  have hb : ((0, List.replicate K 0) : Arr1 (Fin (rows n true))).2.length = K := by simp
  refine ⟨η, hM, gibbs_runs hsh false eb hts hη, fun f g hf hg => ?_, fun he f g hf hg => ?_⟩
  · rw [← revKer hη (key := []) hg hb, ← revKer hη (key := []) hf hb]
    exact C103_gibbs_final_reversible hS hm hsh hpk hts eb hreg [] hb hf hg
  · subst he
    rw [← revKer hη (key := []) hg hb, ← revKer hη (key := []) hf hb, ← revKer hη (key := []) hf hb,
      ← revKer hη (key := []) hg hb]
    exact C103_gibbs_final_positive hS hm hsh hpk hts [] hb hf hg

omit [MeasurableSpace V] in
theorem loop_lag {ef eb : Bool} {m : Gibbs.Funs (rows n ef) U V Z} {η : Kernel U U}
    (hr : Runs (gibbsNext ef m false eb y0 ts) Prod.fst (fun s => s.2.2.length = K) η) {f g : U → ℝ≥0∞} (hg : Measurable g)
    (key : Key) {bs : Arr1 (Fin (rows n ef))} (hb : bs.2.length = K) (k : ℕ) :
    ∫⁻ x, f x * (gibbsLoop ef m false eb y0 ts k key x bs).E (fun out => g out.1) ∂π0 = lagProd η π0 f g k := by
  unfold lagProd
  simp only [gibbsLoop_iter hr hg k key _ bs hb]

/-- **C103, autocovariances.**  Start the chain of `gibbs_kernel` (`explicit_backward=False`) in the conditional law `π0` (not
necessarily normalised) and let `A k` be the expected product of the value of `f` at the start and after `k` iterations.  Then
the autocovariance is non-negative at every lag (`(∫ f)² ≤ π0(U) · A k`), and `A` is non-increasing and convex in the lag. -/
theorem C103_gibbs_autocovariance [IsFiniteMeasure π0] {m : Gibbs.Funs (rows n false) U V Z} (hS : S.JointMeas)
    (hm : BackwardExact m S π0 y0 ts K) (hsh : PathShape m K) (hpk : PathsKer m false y0 ts K) (hts : ts.2.length = K)
    (key : Key) {bs : Arr1 (Fin (rows n false))} (hb : bs.2.length = K) {f : U → ℝ≥0∞} (hf : Measurable f)
    (h2 : ∫⁻ x, f x * f x ∂π0 ≠ ∞) (A : ℕ → ℝ≥0∞)
    (hA : ∀ k, A k = ∫⁻ x, f x * (gibbsLoop false m false false y0 ts k key x bs).E (fun out => f out.1) ∂π0) (k : ℕ) :
    (∫⁻ x, f x ∂π0) * (∫⁻ x, f x ∂π0) ≤ π0 Set.univ * A k ∧ A (k + 1) ≤ A k ∧ 2 * A (k + 1) ≤ A k + A (k + 2) := by
  obtain ⟨η, hM, hr, hrev, hpos⟩ := gibbs_rev_ker hS hm hsh hpk hts false (fun h => by simp at h)
  simp only [hA, loop_lag hr hf key hb, two_mul]
  exact ⟨cov_nonneg_fin hrev (hpos rfl) hf h2 k, lagProd_anti hrev (hpos rfl) hf h2 k, lagProd_convex hrev (hpos rfl) hf k⟩

/-- **C103, autocovariances, `explicit_final=True`.** -/
theorem C103_gibbs_final_autocovariance [IsFiniteMeasure π0] {m : Gibbs.Funs (rows n true) U V Z} (hS : S.JointMeas)
    {ν : Measure U} [IsProbabilityMeasure ν]
    (hm : ReferenceExact m S ν π0 y0 ts K fun v u => S.logG (arr v).1 ((arr v).2.headD (arr v).1) ts.1 u)
    (hsh : PathShape m K) (hpk : PathsKer m false y0 ts K) (hts : ts.2.length = K)
    (key : Key) {bs : Arr1 (Fin (rows n true))} (hb : bs.2.length = K) {f : U → ℝ≥0∞} (hf : Measurable f)
    (h2 : ∫⁻ x, f x * f x ∂π0 ≠ ∞) (A : ℕ → ℝ≥0∞)
    (hA : ∀ k, A k = ∫⁻ x, f x * (gibbsLoop true m false false y0 ts k key x bs).E (fun out => f out.1) ∂π0) (k : ℕ) :
    (∫⁻ x, f x ∂π0) * (∫⁻ x, f x ∂π0) ≤ π0 Set.univ * A k ∧ A (k + 1) ≤ A k ∧ 2 * A (k + 1) ≤ A k + A (k + 2) := by
  obtain ⟨η, hM, hr, hrev, hpos⟩ := gibbs_final_rev_ker hS hm hsh hpk hts false (fun h => by simp at h)
  simp only [hA, loop_lag hr hf key hb, two_mul]
  exact ⟨cov_nonneg_fin hrev (hpos rfl) hf h2 k, lagProd_anti hrev (hpos rfl) hf h2 k, lagProd_convex hrev (hpos rfl) hf k⟩

/-- **C103, autocovariances with `explicit_backward=True`.**  For the forced move positivity is not
claimed; at even lags the autocovariance is non-negative and non-increasing, and an odd lag is at most the even one before. -/
theorem C103_gibbs_forced_autocovariance [IsFiniteMeasure π0] {m : Gibbs.Funs (rows n false) U V Z} (hS : S.JointMeas)
    (hm : BackwardExact m S π0 y0 ts K) (hsh : PathShape m K) (hpk : PathsKer m false y0 ts K) (hts : ts.2.length = K) (eb : Bool)
    (hreg : eb = true → ∀ v v' t (x : Fin (rows n false) → U), Regular (normalise fun i => S.logG v v' t (x i)))
    (key : Key) {bs : Arr1 (Fin (rows n false))} (hb : bs.2.length = K) {f : U → ℝ≥0∞} (hf : Measurable f)
    (h2 : ∫⁻ x, f x * f x ∂π0 ≠ ∞) (A : ℕ → ℝ≥0∞)
    (hA : ∀ k, A k = ∫⁻ x, f x * (gibbsLoop false m false eb y0 ts k key x bs).E (fun out => f out.1) ∂π0) (j : ℕ) :
    (∫⁻ x, f x ∂π0) * (∫⁻ x, f x ∂π0) ≤ π0 Set.univ * A (2 * j) ∧ A (2 * (j + 1)) ≤ A (2 * j) ∧ A (2 * j + 1) ≤ A (2 * j) := by
  obtain ⟨η, hM, hr, hrev, -⟩ := gibbs_rev_ker hS hm hsh hpk hts eb hreg
  simp only [hA, loop_lag hr hf key hb]
  exact ⟨cov_even_nonneg_fin hrev hf h2 j, lagProd_even_anti hrev hf j, lagProd_odd_le hrev hf j⟩

/-- **C103, autocovariances with `explicit_final=True` and `explicit_backward=True`.** -/
theorem C103_gibbs_final_forced_autocovariance [IsFiniteMeasure π0] {m : Gibbs.Funs (rows n true) U V Z} (hS : S.JointMeas)
    {ν : Measure U} [IsProbabilityMeasure ν]
    (hm : ReferenceExact m S ν π0 y0 ts K fun v u => S.logG (arr v).1 ((arr v).2.headD (arr v).1) ts.1 u)
    (hsh : PathShape m K) (hpk : PathsKer m false y0 ts K) (hts : ts.2.length = K) (eb : Bool)
    (hreg : eb = true → ∀ v v' t (x : Fin (rows n true) → U), Regular (normalise fun i => S.logG v v' t (x i)))
    (key : Key) {bs : Arr1 (Fin (rows n true))} (hb : bs.2.length = K) {f : U → ℝ≥0∞} (hf : Measurable f)
    (h2 : ∫⁻ x, f x * f x ∂π0 ≠ ∞) (A : ℕ → ℝ≥0∞)
    (hA : ∀ k, A k = ∫⁻ x, f x * (gibbsLoop true m false eb y0 ts k key x bs).E (fun out => f out.1) ∂π0) (j : ℕ) :
    (∫⁻ x, f x ∂π0) * (∫⁻ x, f x ∂π0) ≤ π0 Set.univ * A (2 * j) ∧ A (2 * (j + 1)) ≤ A (2 * j) ∧ A (2 * j + 1) ≤ A (2 * j) := by
  obtain ⟨η, hM, hr, hrev, -⟩ := gibbs_final_rev_ker hS hm hsh hpk hts eb hreg
  simp only [hA, loop_lag hr hf key hb]
  exact ⟨cov_even_nonneg_fin hrev hf h2 j, lagProd_even_anti hrev hf j, lagProd_odd_le hrev hf j⟩

/-! ### Averages over the stored samples -/

omit [MeasurableSpace V] in
theorem samples_second_moment [IsFiniteMeasure π0] {ef : Bool} {m : Gibbs.Funs (rows n ef) U V Z} {η : Kernel U U} [IsMarkovKernel η]
    (hr : Runs (gibbsNext ef m false false y0 ts) Prod.fst (fun s => s.2.2.length = K) η) (hrev : Rev η π0) (hpos : Pos η π0)
    (key : Key) {bs : Arr1 (Fin (rows n ef))} (hb : bs.2.length = K) {f : U → ℝ≥0∞} (hf : Measurable f)
    (h2 : ∫⁻ x, f x * f x ∂π0 ≠ ∞) (nsamples : ℕ) :
    nsamples * (π0 Set.univ * ∫⁻ x, f x * f x ∂π0) + (nsamples * (nsamples - 1) : ℕ) * ((∫⁻ x, f x ∂π0) * ∫⁻ x, f x ∂π0)
      ≤ π0 Set.univ * ∫⁻ x, (gibbsSamples ef m false false y0 ts nsamples key (x, bs)).E
          (fun l => (l.map f).sum * (l.map f).sum) ∂π0 := by
  refine (le_sumM2_fin hrev hpos hf h2 nsamples).trans (le_of_eq ?_)
  congr 1
  refine lintegral_congr fun x => ?_
  have h := E_store_sum hr hf nsamples key 0 (x, bs) hb
  simp only [zero_add, zero_mul, mul_zero] at h
  exact h.symm

/-- **C103, stored samples.**  The second moment of the sum of `f` over the `nsamples` stored states of one stationary chain of
`gibbs_kernel` is at least that of independent draws from the (normalised) target: averages over a chain are never better
than averages over as many independent samples. -/
theorem C103_gibbs_samples_no_better_than_independent [IsFiniteMeasure π0] {m : Gibbs.Funs (rows n false) U V Z} (hS : S.JointMeas)
    (hm : BackwardExact m S π0 y0 ts K) (hsh : PathShape m K) (hpk : PathsKer m false y0 ts K) (hts : ts.2.length = K)
    (key : Key) {bs : Arr1 (Fin (rows n false))} (hb : bs.2.length = K) {f : U → ℝ≥0∞} (hf : Measurable f)
    (h2 : ∫⁻ x, f x * f x ∂π0 ≠ ∞) (nsamples : ℕ) :
    nsamples * (π0 Set.univ * ∫⁻ x, f x * f x ∂π0) + (nsamples * (nsamples - 1) : ℕ) * ((∫⁻ x, f x ∂π0) * ∫⁻ x, f x ∂π0)
      ≤ π0 Set.univ * ∫⁻ x, (gibbsSamples false m false false y0 ts nsamples key (x, bs)).E
          (fun l => (l.map f).sum * (l.map f).sum) ∂π0 := by
  obtain ⟨η, hM, hr, hrev, hpos⟩ := gibbs_rev_ker hS hm hsh hpk hts false (fun h => by simp at h)
  exact samples_second_moment hr hrev (hpos rfl) key hb hf h2 nsamples

/-- **C103, stored samples, `explicit_final=True`.** -/
theorem C103_gibbs_final_samples_no_better_than_independent [IsFiniteMeasure π0] {m : Gibbs.Funs (rows n true) U V Z}
    (hS : S.JointMeas) {ν : Measure U} [IsProbabilityMeasure ν]
    (hm : ReferenceExact m S ν π0 y0 ts K fun v u => S.logG (arr v).1 ((arr v).2.headD (arr v).1) ts.1 u)
    (hsh : PathShape m K) (hpk : PathsKer m false y0 ts K) (hts : ts.2.length = K)
    (key : Key) {bs : Arr1 (Fin (rows n true))} (hb : bs.2.length = K) {f : U → ℝ≥0∞} (hf : Measurable f)
    (h2 : ∫⁻ x, f x * f x ∂π0 ≠ ∞) (nsamples : ℕ) :
    nsamples * (π0 Set.univ * ∫⁻ x, f x * f x ∂π0) + (nsamples * (nsamples - 1) : ℕ) * ((∫⁻ x, f x ∂π0) * ∫⁻ x, f x ∂π0)
      ≤ π0 Set.univ * ∫⁻ x, (gibbsSamples true m false false y0 ts nsamples key (x, bs)).E
          (fun l => (l.map f).sum * (l.map f).sum) ∂π0 := by
  obtain ⟨η, hM, hr, hrev, hpos⟩ := gibbs_final_rev_ker hS hm hsh hpk hts false (fun h => by simp at h)
  exact samples_second_moment hr hrev (hpos rfl) key hb hf h2 nsamples

end

/-! ### Examples -/

section Example

/-- Five particles and the forced move. -/
example (key : Key) (b c : Fin (rows 5 false)) :
    ∫⁻ x, ENNReal.ofReal |x| * (gibbsKernel false (freshFuns (fun v _ => Real.cos v) (rows 5 false)) false true key x 2 (b, [c])
        (0, [1])).E (fun out => ENNReal.ofReal (Real.exp out.1)) ∂(ENNReal.ofReal (Real.exp (Real.cos 2)) • gaussianReal 0 1)
      = ∫⁻ x, ENNReal.ofReal (Real.exp x) * (gibbsKernel false (freshFuns (fun v _ => Real.cos v) (rows 5 false)) false true key x 2
        (b, [c]) (0, [1])).E (fun out => ENNReal.ofReal |out.1|) ∂(ENNReal.ofReal (Real.exp (Real.cos 2)) • gaussianReal 0 1) :=
  C103_gibbs_reversible (freshS_jointMeas (g := fun v _ => Real.cos v) (by fun_prop)) (freshFuns_exact Real.measurable_cos _ 2 0 1)
    (freshFuns_shape _ _) (freshFuns_pathsKer _ _ _ _) rfl true
    (fun _ v v' t x => regular_of_bounded fun i => Real.abs_cos_le_one _) key rfl
    (f := fun x => ENNReal.ofReal |x|) (g := fun x => ENNReal.ofReal (Real.exp x)) (by fun_prop) (by fun_prop)

/-- The events `x > 0` at the start and after `k` iterations. -/
example (key : Key) (b c : Fin (rows 5 true)) (A : ℕ → ℝ≥0∞)
    (hA : ∀ k, A k = ∫⁻ x, (Set.Ioi (0 : ℝ)).indicator 1 x * (gibbsLoop true (exFuns (fun _ u => Real.cos u) (rows 5 true)) false false
      2 (0, [1]) k key x (b, [c])).E (fun out => (Set.Ioi (0 : ℝ)).indicator 1 out.1) ∂((gaussianReal 0 1).withDensity
        fun u => ENNReal.ofReal (Real.exp (Real.cos u)) * ENNReal.ofReal (Real.exp (Real.cos u)))) :
    A 7 ≤ A 6 ∧ 2 * A 7 ≤ A 6 + A 8 := by
  have hg : Measurable fun p : ℝ × ℝ => Real.cos p.2 := by fun_prop
  have hm := exFuns_reference (g := fun _ u => Real.cos u) hg Real.measurable_cos (rows 5 true) 2 0 1
  have : IsFiniteMeasure ((gaussianReal 0 1).withDensity fun u =>
    ENNReal.ofReal (Real.exp (Real.cos u)) * ENNReal.ofReal (Real.exp (Real.cos u))) := by
    simpa using exTarget_finite 1
  exact (C103_gibbs_final_autocovariance (exS_jointMeas (g := fun _ u => Real.cos u) hg) hm (exFuns_shape _ _)
    (exFuns_pathsKer _ _ _ _) rfl key rfl (measurable_one.indicator measurableSet_Ioi)
    (ne_top_of_le_ne_top (measure_ne_top _ Set.univ) (by
      rw [← lintegral_one]
      refine lintegral_mono fun x => ?_
      by_cases h : x ∈ Set.Ioi (0 : ℝ) <;> simp [h])) A hA 6).2

/-- A hundred stored samples. -/
example (key : Key) (b c : Fin (rows 5 false)) :
    (100 : ℕ) * ((ENNReal.ofReal (Real.exp (Real.cos 2)) • gaussianReal 0 1) Set.univ * ∫⁻ x : ℝ,
        (Set.Ioi (0 : ℝ)).indicator 1 x * (Set.Ioi (0 : ℝ)).indicator 1 x ∂(ENNReal.ofReal (Real.exp (Real.cos 2)) • gaussianReal 0 1))
      + (100 * (100 - 1) : ℕ) * ((∫⁻ x : ℝ, (Set.Ioi (0 : ℝ)).indicator 1 x ∂(ENNReal.ofReal (Real.exp (Real.cos 2)) • gaussianReal 0 1))
        * ∫⁻ x : ℝ, (Set.Ioi (0 : ℝ)).indicator 1 x ∂(ENNReal.ofReal (Real.exp (Real.cos 2)) • gaussianReal 0 1))
      ≤ (ENNReal.ofReal (Real.exp (Real.cos 2)) • gaussianReal 0 1) Set.univ * ∫⁻ x, (gibbsSamples false
          (freshFuns (fun v _ => Real.cos v) (rows 5 false)) false false 2 (0, [1]) 100 key (x, b, [c])).E
          (fun l => (l.map ((Set.Ioi (0 : ℝ)).indicator 1)).sum * (l.map ((Set.Ioi (0 : ℝ)).indicator 1)).sum)
            ∂(ENNReal.ofReal (Real.exp (Real.cos 2)) • gaussianReal 0 1) :=
  haveI : IsFiniteMeasure (ENNReal.ofReal (Real.exp (Real.cos 2)) • gaussianReal 0 1) :=
    Measure.smul_finite _ ENNReal.ofReal_ne_top
  C103_gibbs_samples_no_better_than_independent (freshS_jointMeas (g := fun v _ => Real.cos v) (by fun_prop))
    (freshFuns_exact Real.measurable_cos _ 2 0 1) (freshFuns_shape _ _) (freshFuns_pathsKer _ _ _ _) rfl key rfl
    (measurable_one.indicator measurableSet_Ioi)
    (ne_top_of_le_ne_top (measure_ne_top _ Set.univ) (by
      rw [← lintegral_one]
      refine lintegral_mono fun x => ?_
      by_cases h : x ∈ Set.Ioi (0 : ℝ) <;> simp [h])) 100

end Example

end Props
end Fbs
