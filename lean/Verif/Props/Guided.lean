import Verif.Model.Guided
import Verif.Props.Twisted
import Verif.Props.Gp
import Mathlib.Analysis.Calculus.FDeriv.Measurable

/-!
# C63: what the twisted diffusion samplers of the experiments target
-/

open MeasureTheory ProbabilityTheory
open scoped ENNReal NNReal

namespace Fbs
namespace Spec

variable {ζ κ : Type} {N : ℕ}

/-- `conditional_sampler` with the logarithm of the normalising constant recorded. -/
noncomputable def guidedZ [NeZero N] (m : Smc.TwistedFuns N (ζ → ℝ) (κ → ℝ)) (res : Smc.Resampling N)
    (y0 : κ → ℝ) (ts : Arr1 ℝ) (key : Key) : Rand ((ζ → ℝ) × ℝ) := do
  let r ← twistedSmcZ m res (split key 2 0) y0 ts
  let i ← Jax.choice (split key 2 1) fun i => Real.exp (r.1.2 i)
  pure (r.1.1 i, r.2)

end Spec

namespace Props

open Spec Jax Guided Smc Csmc Toy

section General

variable {X Y : Type} {N : ℕ}

/-- `twisted_smc` calls its functions at the given times only. -/
theorem twistedZ_congr {m m' : TwistedFuns N X Y} (res : Smc.Resampling N) (y : Y) (h0 : m.initSampler = m'.initSampler)
    (ht : m.twistLogpdf = m'.twistLogpdf) (key : Key) (ts : Arr1 ℝ)
    (h1 : ∀ t ∈ ts.2, ∀ xs xs', m.transLogpdf xs xs' t = m'.transLogpdf xs xs' t)
    (h2 : ∀ t ∈ ts.2, ∀ k xs, m.propSampler k xs t y = m'.propSampler k xs t y)
    (h3 : ∀ t ∈ ts.2, ∀ xs xs', m.propLogpdf xs xs' t y = m'.propLogpdf xs xs' t y) :
    twistedSmcZ m res key y ts = twistedSmcZ m' res key y ts := by
  have hs : ∀ (is : List (Key × ℝ)) (s : ((Fin N → X) × (Fin N → ℝ) × (Fin N → ℝ)) × ℝ), (∀ i ∈ is, i.2 ∈ ts.2) →
      Rand.scan (twistedBodyZ m res y) s is = Rand.scan (twistedBodyZ m' res y) s is := by
    intro is
    induction is with
    | nil => intro s _; rfl
    | cons i is ih =>
      intro s hi
      have hb : twistedBodyZ m res y s i = twistedBodyZ m' res y s i := by
        have hmem := hi i (by simp)
        simp only [twistedBodyZ, ht, h1 _ hmem, h2 _ hmem, h3 _ hmem]
      simp only [Rand.scan]
      rw [hb]
      refine bind_congr fun r => ?_
      rw [ih r.1 fun j hj => hi j (by simp [hj])]
  unfold twistedSmcZ
  rw [h0, ht]
  refine bind_congr fun xs => ?_
  simp only
  rw [hs]
  intro i hi
  exact (List.of_mem_zip (show (i.1, i.2) ∈ _ from hi)).2

theorem leaves_twistedZ_scan [NeZero N] (m : TwistedFuns N X Y) (res : Smc.Resampling N) (y : Y) :
    ∀ (is : List (Key × ℝ)) (s : ((Fin N → X) × (Fin N → ℝ) × (Fin N → ℝ)) × ℝ),
    Weights (fun i => Real.exp (s.1.2.2 i)) →
    (Rand.scan (twistedBodyZ m res y) s is).Leaves fun r => Weights fun i => Real.exp (r.1.1.2.2 i)
  | [], s, hs => hs
  | i :: is, s, hs => by
    have hb : (twistedBodyZ m res y s i).Leaves fun r => Weights fun i => Real.exp (r.1.1.2.2 i) := by
      unfold twistedBodyZ
      exact (Rand.leaves_true _).bind fun A _ => (Rand.leaves_true _).bind fun xs _ => normalise_weights _
    exact hb.bind fun r hr => (leaves_twistedZ_scan m res y is r.1 hr).bind fun rs hrs => hrs

theorem leaves_twistedZ [NeZero N] (m : TwistedFuns N X Y) (res : Smc.Resampling N) (key : Key) (y : Y) (ts : Arr1 ℝ) :
    (twistedSmcZ m res key y ts).Leaves fun out => Weights fun i => Real.exp (out.1.2 i) := by
  unfold twistedSmcZ
  exact (Rand.leaves_true _).bind fun xs _ =>
    (leaves_twistedZ_scan m res y _ _ (normalise_weights _)).bind fun r hr => hr

end General

section Chain

variable {ζ κ : Type} [Fintype ζ] [Fintype κ] {N : ℕ}

theorem measurable_sum_normLogpdf {Z ι : Type} [MeasurableSpace Z] [Fintype ι] {x m : Z → ι → ℝ} (hx : Measurable x)
    (hm : Measurable m) (s : ℝ) : Measurable fun z => ∑ i, Linear.normLogpdf (x z i) (m z i) s := by
  refine Finset.measurable_fun_sum _ fun i _ => ?_
  have h1 : Measurable fun z => x z i := (measurable_pi_apply i).comp hx
  have h2 : Measurable fun z => m z i := (measurable_pi_apply i).comp hm
  unfold Linear.normLogpdf
  exact ((((h1.sub h2).pow_const 2).div_const _).const_add _).neg.div_const _

/-- The model behind the functions of the scripts, for a dispersion that never vanishes. -/
noncomputable def guidedModel (drift : (ζ → ℝ) → ℝ → (ζ → ℝ)) (hd : ∀ t, Measurable fun z => drift z t)
    (cond : (ζ → ℝ) → ℝ → (ζ → ℝ)) (hc : ∀ t, Measurable fun z => cond z t) (ψ : (ζ → ℝ) → ℝ → ℝ)
    (hψ : ∀ t, Measurable fun z => ψ z t) (disp : ℝ → ℝ) (hp : ∀ t, disp t ≠ 0) {dt : ℝ} (hdt : 0 < dt)
    (ref : Measure (ζ → ℝ)) [hr : IsProbabilityMeasure ref] : TwistedModel (ζ → ℝ) where
  ν := volume
  init := ref
  prob := hr
  logp t x x' := ∑ k, Linear.normLogpdf (x' k) (x k + drift x t k * dt) (Real.sqrt dt * disp t)
  measp t := measurable_sum_normLogpdf (m := fun z : (ζ → ℝ) × (ζ → ℝ) => fun k => z.1 k + drift z.1 t k * dt)
    measurable_snd (measurable_pi_iff.2 fun k => ((measurable_pi_apply k).comp measurable_fst).add
      (((measurable_pi_apply k).comp ((hd t).comp measurable_fst)).mul_const _)) _
  logψ t x := ψ x t
  measψ := hψ
  q t := ⟨fun x => gaussProd (fun k => x k + cond x t k * dt) (dt * disp t ^ 2).toNNReal,
    (measurable_gaussProd _).comp (measurable_pi_iff.2 fun k => (measurable_pi_apply k).add
      (((measurable_pi_apply k).comp (hc t)).mul_const _))⟩
  markov t := ⟨fun x => by
    show IsProbabilityMeasure (gaussProd (fun k => x k + cond x t k * dt) _); infer_instance⟩
  logq t x x' := ∑ k, Linear.normLogpdf (x' k) (x k + cond x t k * dt) (Real.sqrt dt * disp t)
  measq t := measurable_sum_normLogpdf (m := fun z : (ζ → ℝ) × (ζ → ℝ) => fun k => z.1 k + cond z.1 t k * dt)
    measurable_snd (measurable_pi_iff.2 fun k => ((measurable_pi_apply k).comp measurable_fst).add
      (((measurable_pi_apply k).comp ((hc t).comp measurable_fst)).mul_const _)) _
  density t x := by
    have hs : Real.sqrt dt * disp t ≠ 0 := mul_ne_zero (Real.sqrt_ne_zero'.2 hdt) (hp t)
    have hs2 : (Real.sqrt dt * disp t) ^ 2 = dt * disp t ^ 2 := by rw [mul_pow, Real.sq_sqrt hdt.le]
    have hq : (dt * disp t ^ 2).toNNReal ≠ 0 := by
      have : 0 < dt * disp t ^ 2 := by have := hp t; positivity
      simpa using this
    simp only [exp_sum_normLogpdf _ _ hs, hs2]
    exact Score.pi_gauss_eq_withDensity hq _
  sfinite := inferInstance

variable {drift : (ζ → ℝ) → ℝ → (ζ → ℝ)} {hd : ∀ t, Measurable fun z => drift z t} {cond : (ζ → ℝ) → ℝ → (ζ → ℝ)}
  {hc : ∀ t, Measurable fun z => cond z t} {ψ : (ζ → ℝ) → ℝ → ℝ} {hψ : ∀ t, Measurable fun z => ψ z t} {disp : ℝ → ℝ}
  {hp : ∀ t, disp t ≠ 0} {dt : ℝ} {hdt : 0 < dt} {ref : Measure (ζ → ℝ)} [IsProbabilityMeasure ref]

/-- The chain of the model is an Euler-Maruyama chain whose coefficients are read one step late. -/
theorem pInt_em {ο : Type} (emit : (ζ → ℝ) → ο) {disp0 : ℝ → ℝ} (h0 : ∀ t, disp0 t ≠ 0 → disp t = disp0 t)
    {h : (ζ → ℝ) → ℝ≥0∞} (hh : Measurable h) :
    ∀ (ts : List ℝ) (t : ℝ), UniformGrid dt (fun t => disp0 (t + dt)) t ts → ∀ (keys : List Key),
    keys.length = ts.length → ∀ x : ζ → ℝ,
    (guidedModel drift hd cond hc ψ hψ disp hp hdt ref).pInt ts x h =
      (Rand.scan (Simulators.emBody (fun x t => drift x (t + dt)) (fun t => disp0 (t + dt)) 1 emit) x
        (keys.zip ((Arr1.init (t, ts)).zip ts))).E fun r => h r.1
  | [], t, _, keys, hk, x => by
    obtain rfl : keys = [] := List.eq_nil_of_length_eq_zero (by simpa using hk)
    simp [TwistedModel.pInt, Rand.scan, Rand.pure_eq]
  | t' :: ts, t, _, [], hk, x => by simp at hk
  | t' :: ts, t, hg, k :: keys, hk, x => by
    obtain ⟨h1, h2, h3⟩ := hg
    obtain rfl : t' = t + dt := by linarith
    have ih := pInt_em emit h0 hh ts (t + dt) h3 keys (by simpa using hk)
    have h2' : disp (t + dt) = disp0 (t + dt) := h0 _ h2
    have hs : Real.sqrt dt * disp (t + dt) ≠ 0 := mul_ne_zero (Real.sqrt_ne_zero'.2 hdt) (hp _)
    have hs2 : (Real.sqrt dt * disp (t + dt)) ^ 2 = dt * disp (t + dt) ^ 2 := by rw [mul_pow, Real.sq_sqrt hdt.le]
    have hq : (dt * disp (t + dt) ^ 2).toNNReal ≠ 0 := by
      have : 0 < dt * disp (t + dt) ^ 2 := by have := hp (t + dt); positivity
      simpa using this
    have hm : Measurable fun x' => (guidedModel drift hd cond hc ψ hψ disp hp hdt ref).pInt ts x' h := measurable_pInt _ hh ts
    have e1 := lintegral_emStep (drift := fun x t => drift x (t + dt)) (fun t => disp0 (t + dt)) dt hdt x h1 hm
    simp only [Arr1.init, List.dropLast_cons_cons, List.zip_cons_cons, Rand.scan, Simulators.emBody, Rand.E_bind,
      Rand.pure_eq, Rand.E_ret, normalRows, Rand.E_map, Rand.E_sample]
    have e2 : ∀ x', (Rand.scan (Simulators.emBody (fun x t => drift x (t + dt)) (fun t => disp0 (t + dt)) 1 emit) x'
        (keys.zip (((t + dt) :: ts).dropLast.zip ts))).E (fun r => h r.1) =
        (guidedModel drift hd cond hc ψ hψ disp hp hdt ref).pInt ts x' h := fun x' => (ih x').symm
    simp only [e2]
    rw [e1, ← h2', lintegral_gaussProd_dens hq _ hm]
    refine lintegral_congr fun x' => ?_
    rw [← hs2, ← exp_sum_normLogpdf _ _ hs]
    rfl

end Chain

section Target

variable {ζ κ : Type} [Fintype ζ] [Fintype κ] [DecidableEq ζ] {N : ℕ}

omit [Fintype ζ] [Fintype κ] [DecidableEq ζ] in
/-- **C63, recording is harmless.** -/
theorem C63_forget [NeZero N] (m : Smc.TwistedFuns N (ζ → ℝ) (κ → ℝ)) (res : Smc.Resampling N) (y0 : κ → ℝ) (ts : Arr1 ℝ)
    (key : Key) : Prod.fst <$> guidedZ m res y0 ts key = conditionalSampler m res y0 ts key := by
  unfold guidedZ conditionalSampler
  simp only [← C23_forget_constant]
  simp only [map_eq_pure_bind, bind_assoc, pure_bind]

omit [Fintype ζ] [DecidableEq ζ] in
theorem continuous_reverseDrift {sde : Linear.SDE} {T : ℝ} {score : (ζ → ℝ) → ℝ → (ζ → ℝ)}
    (hs : ∀ t, Continuous fun u => score u t) (t : ℝ) : Continuous fun u => Guided.reverseDrift sde T score u t := by
  refine continuous_pi fun k => ?_
  have h4 : Continuous fun x : ℝ => Linear.drift sde x (T - t) := by
    have : (fun x : ℝ => Linear.drift sde x (T - t)) = fun x => Linear.drift sde 1 (T - t) * x := funext fun x => drift_eq _ _ _
    rw [this]
    exact continuous_const_mul _
  exact ((h4.comp (continuous_apply k)).neg).add (((continuous_apply k).comp (hs (T - t))).const_mul _)

omit [Fintype ζ] [DecidableEq ζ] in
theorem continuous_twist {obs : (ζ → ℝ) → κ → ℝ} (ho : Continuous obs) {drift : (ζ → ℝ) → ℝ → (ζ → ℝ)} {t : ℝ}
    (hd : Continuous fun u => drift u t) (dt : ℝ) (sd : ℝ → ℝ) (y : κ → ℝ) :
    Continuous fun u => twistingLogpdf obs drift dt sd y u t := by
  have h1 : Continuous fun u => denoise drift dt u t := continuous_pi fun k =>
    (continuous_apply k).add (((continuous_apply k).comp hd).mul_const _)
  refine continuous_finsetSum _ fun i _ => ?_
  have h2 : Continuous fun u => obs (denoise drift dt u t) i := (continuous_apply i).comp (ho.comp h1)
  unfold Linear.normLogpdf
  exact (((((continuous_const.sub h2).pow 2).div_const _).const_add _).neg).div_const _

theorem measurable_grad {f : (ζ → ℝ) → ℝ} (hf : Continuous f) (k : ζ) : Measurable fun u => Linear.grad f u k := by
  have h1 : Continuous (Function.uncurry fun (u : ζ → ℝ) (y : ℝ) => f (Function.update u k y)) :=
    hf.comp (continuous_fst.update k continuous_snd)
  exact (measurable_deriv_with_param h1).comp (measurable_id.prodMk (measurable_pi_apply k))

/-- **C63, the target.**  Whatever the score, the proposal and the resampling scheme, the draw of `conditional_sampler`
weighted by its normalising constant has the law of the end of an Euler-Maruyama chain weighted by the density of the
observation.  The chain reads its drift and dispersion at the end of each step (`t + dt`), and the density is taken
one denoising step after the last state. -/
theorem C63_target [NeZero N] {sde : Linear.SDE} {T : ℝ} {score : (ζ → ℝ) → ℝ → (ζ → ℝ)}
    (hs : ∀ t, Continuous fun u => score u t) {obs : (ζ → ℝ) → κ → ℝ} (ho : Continuous obs) (sd : ℝ → ℝ)
    {initSampler : Key → ℕ → Rand (Fin N → ζ → ℝ)} {ref : Measure (ζ → ℝ)} [IsProbabilityMeasure ref]
    (hinit : ∀ k n (F : (Fin N → ζ → ℝ) → ℝ≥0∞), Measurable F →
      (initSampler k n).E F = ∫⁻ x, F x ∂(Measure.pi fun _ => ref))
    {res : Smc.Resampling N} (hres : UnbiasedSums res) {dt : ℝ} (hdt : 0 < dt) (ts : Arr1 ℝ)
    (hts : UniformGrid dt (fun t => Linear.dispersion sde (T - (t + dt))) ts.1 ts.2) (hsd : sd ts.last ≠ 0)
    (y : κ → ℝ) (key key' : Key) {φ : (ζ → ℝ) → ℝ≥0∞} (hφ : Measurable φ) :
    (guidedZ (funs initSampler (Guided.reverseDrift sde T score) (reverseCondDrift sde T score
        (twistingLogpdf obs (Guided.reverseDrift sde T score) dt sd))
        (twistingLogpdf obs (Guided.reverseDrift sde T score) dt sd) (Guided.reverseDispersion sde T) dt) res y ts key).E
        (fun out => ENNReal.ofReal (Real.exp out.2) * φ out.1) =
      ∫⁻ u0, (Simulators.eulerLast key' u0 ts (fun u t => Guided.reverseDrift sde T score u (t + dt))
        (fun t => Guided.reverseDispersion sde T (t + dt)) 1).E
        (fun u => ENNReal.ofReal (∏ i, gaussianPDFReal
          (obs (fun k => u k + Guided.reverseDrift sde T score u ts.last k * dt) i) (sd ts.last ^ 2).toNNReal (y i)) *
          φ u) ∂ref := by
  set drift := Guided.reverseDrift sde T score with hdrift
  set twist := twistingLogpdf obs drift dt sd with htwist
  set cond := reverseCondDrift sde T score twist with hcond
  set disp := Guided.reverseDispersion sde T with hdisp
  have hdc : ∀ t, Continuous fun u => drift u t := fun t => continuous_reverseDrift hs t
  have hdm : ∀ t, Measurable fun u => drift u t := fun t => (hdc t).measurable
  have htc : ∀ t, Continuous fun u => twist y u t := fun t => continuous_twist ho (hdc t) dt sd y
  have hcm : ∀ t, Measurable fun u => cond u t y := by
    intro t
    have h : (fun u => cond u t y) = fun u => fun k => drift u t k +
        Linear.dispersion sde (T - t) ^ 2 * Linear.grad (fun u => twist y u t) u k := by
      funext u k
      simp only [hcond, reverseCondDrift, hdrift, Guided.reverseDrift]
      ring
    rw [h]
    refine measurable_pi_iff.2 fun k => ?_
    exact ((measurable_pi_apply k).comp (hdm t)).add ((measurable_grad (htc t) k).const_mul _)
  set disp' : ℝ → ℝ := fun t => if disp t = 0 then 1 else disp t with hdisp'
  have hp' : ∀ t, disp' t ≠ 0 := by
    intro t
    simp only [hdisp']
    split_ifs with h
    · exact one_ne_zero
    · exact h
  have hmem : ∀ (ts : List ℝ) (t : ℝ), UniformGrid dt (fun t => disp (t + dt)) t ts → ∀ s ∈ ts, disp s ≠ 0 := by
    intro ts
    induction ts with
    | nil => intro t _ s hs; simp at hs
    | cons t' ts ih =>
      intro t h s hs
      obtain ⟨h1, h2, h3⟩ := h
      rcases List.mem_cons.1 hs with rfl | hs
      · have : t + dt = s := by linarith
        simpa only [this] using h2
      · exact ih t' h3 s hs
  have hdd : ∀ s ∈ ts.2, disp s = disp' s := fun s hs => by
    simp only [hdisp', if_neg (hmem ts.2 ts.1 hts s hs)]
  have hcongr : twistedSmcZ (funs initSampler drift cond twist disp dt) res (split key 2 0) y ts =
      twistedSmcZ (funs initSampler drift cond twist disp' dt) res (split key 2 0) y ts := by
    refine twistedZ_congr (m := funs initSampler drift cond twist disp dt)
      (m' := funs initSampler drift cond twist disp' dt) res y rfl rfl _ ts (fun t ht xs xs' => ?_) (fun t ht k xs => ?_) fun t ht xs xs' => ?_
    · funext j
      simp only [funs, Guided.transitionLogpdf, hdd t ht]
    · simp only [funs, propSampler, hdd t ht]
    · funext j
      simp only [funs, propLogpdf, hdd t ht]
  have himp : TwistedImplements (funs initSampler drift cond twist disp' dt)
      (guidedModel drift hdm (fun u t => cond u t y) hcm (twist y) (fun t => (htc t).measurable) disp' hp' hdt ref) y := by
    refine ⟨hinit, fun k xs t F hF => ?_, fun _ _ _ _ => rfl, fun _ _ _ _ => rfl, fun _ _ _ => rfl⟩
    simp only [funs, propSampler, Rand.E_bind, normal, Rand.E_sample, Rand.pure_eq, Rand.E_ret]
    exact lintegral_normal_rows (fun j i => xs j i + cond (xs j) t y i * dt) (Real.sqrt dt * disp' t)
      (by rw [mul_pow, Real.sq_sqrt hdt.le]) hF
  have h23 := C23_properly_weighted himp hres (split key 2 0) ts hφ
  rw [← hcongr] at h23
  have e1 : (guidedZ (funs initSampler drift cond twist disp dt) res y ts key).E
      (fun out => ENNReal.ofReal (Real.exp out.2) * φ out.1) =
      (twistedSmcZ (funs initSampler drift cond twist disp dt) res (split key 2 0) y ts).E (fun out =>
        ENNReal.ofReal (Real.exp out.2) * ∑ i, ENNReal.ofReal (Real.exp (out.1.2 i)) * φ (out.1.1 i)) := by
    simp only [guidedZ, Rand.E_bind, Rand.pure_eq, Rand.E_ret]
    refine Rand.E_congr_leaves (leaves_twistedZ _ res _ y ts) fun out hout => ?_
    have hT : total (fun i => Real.exp (out.1.2 i)) = 1 := hout.sum_one
    rw [Rand.E_const_mul _ ENNReal.ofReal_ne_top, E_choice hout.nonneg (by rw [hT]; exact one_pos)]
    simp only [cat, hT, div_one]
  rw [e1, h23]
  refine lintegral_congr fun u0 => ?_
  have hm : Measurable fun x' => ENNReal.ofReal (Real.exp (twist y x' ts.last)) * φ x' :=
    ((htc ts.last).measurable.exp.ennreal_ofReal).mul hφ
  have h := pInt_em (drift := drift) (hd := hdm) (cond := fun u t => cond u t y) (hc := hcm) (ψ := twist y)
    (hψ := fun t => (htc t).measurable) (disp := disp') (hp := hp') (hdt := hdt) (ref := ref) (fun _ => ())
    (disp0 := disp) (fun t ht => if_neg ht) hm ts.2 ts.1 hts (splitAll key' ts.2.length) (by simp [splitAll]) u0
  refine h.trans ?_
  simp only [Simulators.eulerLast, Rand.E_bind, Rand.pure_eq, Rand.E_ret, Simulators.emInputs]
  refine Rand.E_congr _ fun r => ?_
  rw [htwist, twistingLogpdf, exp_sum_normLogpdf _ _ hsd]
  rfl

theorem discretise_self (sde : Linear.SDE) (t : ℝ) : Linear.discretise sde t t = (1, 0) := by
  cases sde <;> simp [Linear.discretise, Linear.betaIntegral]

omit [DecidableEq ζ] in
theorem imgInit_law (key : Key) (n : ℕ) {F : (Fin N → ζ → ℝ) → ℝ≥0∞} (hF : Measurable F) :
    (imgInit key n).E F = ∫⁻ x, F x ∂(Measure.pi fun _ => stdNormal ζ) := by
  have h := lintegral_normal_rows (fun (_ : Fin N) (_ : ζ) => (0 : ℝ)) 1 (one_pow 2) hF
  simp only [zero_add, one_mul, Real.toNNReal_one] at h
  simp only [imgInit, Rand.E_bind, normal, Rand.E_sample, Rand.pure_eq, Rand.E_ret, h]
  rfl

/-- **C63, the image experiments.**  With any continuous score network, `conditional_sampler` of
`inpainting_twisted.py` and `supr_twisted.py` targets the observed pixels `y` seen through noise of variance
`data_variance` one denoising step after the end of the chain, started from the standard normal law. -/
theorem C63_img [NeZero N] {ι : Type} (e : ι ⊕ κ ≃ ζ) {sde : Linear.SDE} {t0 T : ℝ} {nnScore : (ζ → ℝ) → ℝ → (ζ → ℝ)}
    (hs : ∀ t, Continuous fun u => nnScore u t) {v : ℝ} (hv : 0 < v)
    {res : Smc.Resampling N} (hres : UnbiasedSums res) {dt : ℝ} (hdt : 0 < dt) (ts : Arr1 ℝ)
    (hts : UniformGrid dt (fun t => Linear.dispersion sde (T - (t + dt))) ts.1 ts.2) (hlast : T - ts.last = t0)
    (y : κ → ℝ) (key key' : Key) {φ : (ζ → ℝ) → ℝ≥0∞} (hφ : Measurable φ) :
    (guidedZ (funs imgInit (Guided.reverseDrift sde T nnScore) (reverseCondDrift sde T nnScore
        (twistingLogpdf (unpackV e) (Guided.reverseDrift sde T nnScore) dt (imgSd sde t0 T v)))
        (twistingLogpdf (unpackV e) (Guided.reverseDrift sde T nnScore) dt (imgSd sde t0 T v))
        (Guided.reverseDispersion sde T) dt) res y ts key).E (fun out => ENNReal.ofReal (Real.exp out.2) * φ out.1) =
      ∫⁻ u0, (Simulators.eulerLast key' u0 ts (fun u t => Guided.reverseDrift sde T nnScore u (t + dt))
        (fun t => Guided.reverseDispersion sde T (t + dt)) 1).E
        (fun u => ENNReal.ofReal (∏ i, gaussianPDFReal
          (u (e (Sum.inr i)) + Guided.reverseDrift sde T nnScore u ts.last (e (Sum.inr i)) * dt) v.toNNReal (y i)) * φ u)
        ∂(stdNormal ζ) := by
  have h1 : imgSd sde t0 T v ts.last = Real.sqrt v := by
    simp [imgSd, hlast, discretise_self]
  have ho : Continuous (unpackV e : (ζ → ℝ) → κ → ℝ) := continuous_pi fun i => continuous_apply _
  have : IsProbabilityMeasure (stdNormal ζ) := by rw [stdNormal_eq]; infer_instance
  have h := C63_target (sde := sde) (T := T) hs ho (imgSd sde t0 T v) (initSampler := imgInit) (ref := stdNormal ζ)
    (fun k n F hF => imgInit_law k n hF) hres hdt ts hts (by rw [h1]; exact Real.sqrt_ne_zero'.2 hv) y key key' hφ
  rw [h1, Real.sq_sqrt hv.le] at h
  exact h

/-- The image experiment with a linear score, two pixels, one of them observed. -/
example (y : Fin 1 → ℝ) (key key' : Key) {φ : (Fin 1 ⊕ Fin 1 → ℝ) → ℝ≥0∞} (hφ : Measurable φ) :=
  C63_img (N := 4) (Equiv.refl (Fin 1 ⊕ Fin 1)) (sde := .const (-1 / 2) 1) (t0 := 0) (T := 1)
    (nnScore := fun u _ => -u) (fun _ => continuous_neg) (v := 2) two_pos sums_stratified (dt := 1 / 2) (by norm_num)
    (0, [1 / 2, 1]) ⟨by norm_num, by simp [Linear.dispersion], by norm_num, by simp [Linear.dispersion], trivial⟩
    (by norm_num [Arr1.last]) y key key' hφ

end Target

/-! ### Gaussian processes -/

section Gp

open Matrix Gp Mvn

variable {d : ℕ} {N : ℕ}

/-- **C63, the noise of the twisting function** of the image experiment: `sd²` is the variance, at the time `T - t`, of a
pixel whose variance at the start is `v`. -/
theorem C63_img_sd {κ : Type} [Fintype κ] [DecidableEq κ] (sde : Linear.SDE) (t0 T t : ℝ) (hQ : 0 ≤ (Linear.discretise sde (T - t) t0).2) (v : ℝ≥0)
    (m : κ → ℝ) (key : Key) {f : (κ → ℝ) → ℝ≥0∞} (hf : Measurable f) :
    ∫⁻ x0, (Linear.simulateMarginal sde key x0 (T - t) (some t0)).E (fun r => r.toOption.elim 0 f) ∂(gaussProd m v) =
      ∫⁻ y, f y ∂(gaussProd (fun i => (Linear.discretise sde (T - t) t0).1 * m i) (imgSd sde t0 T v t ^ 2).toNNReal) := by
  simp_rw [C31_single sde key _ (T - t) t0 hQ hf]
  have hv : 0 ≤ (Linear.discretise sde (T - t) t0).1 ^ 2 * (v : ℝ) + (Linear.discretise sde (T - t) t0).2 := by positivity
  have h := lintegral_mvn_noise (S := (v : ℝ) • (1 : Matrix κ κ ℝ)) (PosSemidef.one.smul v.coe_nonneg) m
    (Linear.discretise sde (T - t) t0).1 (Linear.discretise sde (T - t) t0).2.toNNReal hf
  rw [← gaussProd_eq_mvn] at h
  rw [show imgSd sde t0 T v t ^ 2 = _ from Real.sq_sqrt hv,
    gaussProd_eq_mvn (fun i => (Linear.discretise sde (T - t) t0).1 * m i), Real.coe_toNNReal _ hv, add_smul, mul_smul]
  rw [Real.coe_toNNReal _ hQ] at h
  exact h

example (m : Fin 2 → ℝ) (key : Key) {f : (Fin 2 → ℝ) → ℝ≥0∞} (hf : Measurable f) :=
  C63_img_sd (.const (-1 / 2) 1) 0 1 (1 / 3) (by
    simp only [Linear.discretise]
    norm_num) 2 m key hf

/-- The gradient of an isotropic normal log density whose mean is affine. -/
theorem grad_normLogpdf {ζ κ : Type} [Fintype ζ] [DecidableEq ζ] [Fintype κ] (y b : κ → ℝ) (A : Matrix κ ζ ℝ) (s : ℝ)
    (u : ζ → ℝ) (k : ζ) :
    Linear.grad (fun u => ∑ i, Linear.normLogpdf (y i) ((b + A *ᵥ u) i) s) u k =
      (Aᵀ *ᵥ (y - (b + A *ᵥ u))) k / s ^ 2 := by
  have hu : ∀ i, HasDerivAt (fun x => (b + A *ᵥ Function.update u k x) i) (A i k) (u k) := by
    intro i
    have h1 : ∀ x, (b + A *ᵥ Function.update u k x) i = (b + A *ᵥ u) i + A i k * (x - u k) := by
      intro x
      have h2 : Function.update u k x = u + Pi.single k (x - u k) := by
        funext j
        by_cases h : j = k
        · subst h; simp
        · simp [h]
      rw [h2, mulVec_add, mulVec_single]
      simp [add_assoc]
    simp only [h1]
    have h3 := (((hasDerivAt_id (u k)).sub_const (u k)).const_mul (A i k)).const_add ((b + A *ᵥ u) i)
    simpa using h3
  have hz : Function.update u k (u k) = u := Function.update_eq_self k u
  have hs : HasDerivAt (fun x => ∑ i, Linear.normLogpdf (y i) ((b + A *ᵥ Function.update u k x) i) s)
      (∑ i, A i k * (y i - (b + A *ᵥ u) i) / s ^ 2) (u k) := by
    refine HasDerivAt.fun_sum fun i _ => ?_
    unfold Linear.normLogpdf
    have h := (((((hu i).const_sub (y i)).pow 2).div_const (s ^ 2)).const_add (Real.log (2 * Real.pi * s ^ 2))).neg.div_const 2
    refine h.congr_deriv ?_
    rw [hz]
    ring
  rw [Linear.grad, hs.deriv, ← Finset.sum_div]
  congr 1

theorem gp_score_affine (cho : Matrix (Fin d) (Fin d) ℝ → Matrix (Fin d) (Fin d) ℝ) (sde : Linear.SDE) (t0 : ℝ)
    (m : Fin d → ℝ) (K : Matrix (Fin d) (Fin d) ℝ) (t : ℝ) : ∃ (b : Fin d → ℝ) (A : Matrix (Fin d) (Fin d) ℝ),
    ∀ u, Gp.score cho sde t0 m K u t = b + A *ᵥ u := by
  refine ⟨((cho (forwardMCov sde t0 m K t).2)ᵀ * cho (forwardMCov sde t0 m K t).2)⁻¹ *ᵥ (forwardMCov sde t0 m K t).1,
    -((cho (forwardMCov sde t0 m K t).2)ᵀ * cho (forwardMCov sde t0 m K t).2)⁻¹, fun u => ?_⟩
  simp only [Gp.score, Utils.choSolveVec, mulVec_sub, neg_mulVec]
  abel

theorem gp_score_continuous (cho : Matrix (Fin d) (Fin d) ℝ → Matrix (Fin d) (Fin d) ℝ) (sde : Linear.SDE) (t0 : ℝ)
    (m : Fin d → ℝ) (K : Matrix (Fin d) (Fin d) ℝ) (t : ℝ) : Continuous fun u => Gp.score cho sde t0 m K u t := by
  obtain ⟨b, A, h⟩ := gp_score_affine cho sde t0 m K t
  simp only [h]
  exact continuous_const.add (continuous_const.matrix_mulVec continuous_id)

/-- **C63, the guidance.**  In the Gaussian process experiment the denoising estimate is affine in the state, and the
drift of the proposal is the reverse drift plus `g²` times the transposed Jacobian of the estimate applied to the
residual of the observation, divided by the noise variance. -/
theorem C63_guidance (cho : Matrix (Fin d) (Fin d) ℝ → Matrix (Fin d) (Fin d) ℝ) (sde : Linear.SDE) (t0 T dt : ℝ)
    (m : Fin d → ℝ) (K : Matrix (Fin d) (Fin d) ℝ) {obsVar : ℝ} (hv : 0 < obsVar) (t : ℝ) :
    ∃ J : Matrix (Fin d) (Fin d) ℝ, ∀ u : Fin d → ℝ,
      denoise (Guided.reverseDrift sde T (Gp.score cho sde t0 m K)) dt u t =
        denoise (Guided.reverseDrift sde T (Gp.score cho sde t0 m K)) dt 0 t + J *ᵥ u ∧
      ∀ y : Fin d → ℝ, reverseCondDrift sde T (Gp.score cho sde t0 m K)
        (twistingLogpdf id (Guided.reverseDrift sde T (Gp.score cho sde t0 m K)) dt fun _ => Real.sqrt obsVar) u t y =
        Gp.reverseDrift cho sde t0 T m K u t + (Linear.dispersion sde (T - t) ^ 2 / obsVar) •
          (Jᵀ *ᵥ (y - denoise (Gp.reverseDrift cho sde t0 T m K) dt u t)) := by
  obtain ⟨b, A, hA⟩ := gp_score_affine cho sde t0 m K (T - t)
  set J : Matrix (Fin d) (Fin d) ℝ := (1 - dt * Linear.drift sde 1 (T - t)) • 1 +
    (dt * Linear.dispersion sde (T - t) ^ 2) • A with hJ
  set g := Linear.dispersion sde (T - t) ^ 2 with hg
  have h1 : ∀ u, denoise (Guided.reverseDrift sde T (Gp.score cho sde t0 m K)) dt u t = (dt * g) • b + J *ᵥ u := by
    intro u
    funext k
    simp only [denoise, Guided.reverseDrift, hA, hJ, add_mulVec, smul_mulVec, one_mulVec, Pi.add_apply, Pi.smul_apply,
      smul_eq_mul]
    rw [drift_eq sde (u k)]
    ring
  refine ⟨J, fun u => ⟨?_, fun y => ?_⟩⟩
  · rw [h1, h1, mulVec_zero, add_zero]
  · have h2 : Gp.reverseDrift cho sde t0 T m K = Guided.reverseDrift sde T (Gp.score cho sde t0 m K) := rfl
    rw [h2, h1]
    funext k
    have h3 : (fun u => twistingLogpdf id (Guided.reverseDrift sde T (Gp.score cho sde t0 m K)) dt
        (fun _ => Real.sqrt obsVar) y u t) =
        fun u => ∑ i, Linear.normLogpdf (y i) (((dt * g) • b + J *ᵥ u) i) (Real.sqrt obsVar) := by
      funext u
      simp only [twistingLogpdf, h1, id]
    simp only [reverseCondDrift, h3]
    rw [grad_normLogpdf]
    simp only [Real.sq_sqrt hv.le, Pi.add_apply, Pi.smul_apply, smul_eq_mul,
      Guided.reverseDrift, ← hg]
    ring

/-- **C63, the Gaussian process experiment.**  `gp_twisted.py` with the joint mean `m` and covariance `K`. -/
theorem C63_gp [NeZero N] (cho cholesky : Matrix (Fin d) (Fin d) ℝ → Matrix (Fin d) (Fin d) ℝ) (sde : Linear.SDE)
    (t0 T : ℝ) (m : Fin d → ℝ) (K : Matrix (Fin d) (Fin d) ℝ) {obsVar : ℝ} (hv : 0 < obsVar)
    (hL : IsCholFactor (cholesky (forwardMCov sde t0 m K T).2) (forwardMCov sde t0 m K T).2)
    {res : Smc.Resampling N} (hres : UnbiasedSums res) {dt : ℝ} (hdt : 0 < dt) (ts : Arr1 ℝ)
    (hts : UniformGrid dt (fun t => Linear.dispersion sde (T - (t + dt))) ts.1 ts.2)
    (y : Fin d → ℝ) (key key' : Key) {φ : (Fin d → ℝ) → ℝ≥0∞} (hφ : Measurable φ) :
    (guidedZ (funs (Gp.initSampler cholesky (forwardMCov sde t0 m K T).1 (forwardMCov sde t0 m K T).2)
        (Guided.reverseDrift sde T (Gp.score cho sde t0 m K)) (reverseCondDrift sde T (Gp.score cho sde t0 m K)
        (twistingLogpdf id (Guided.reverseDrift sde T (Gp.score cho sde t0 m K)) dt fun _ => Real.sqrt obsVar))
        (twistingLogpdf id (Guided.reverseDrift sde T (Gp.score cho sde t0 m K)) dt fun _ => Real.sqrt obsVar)
        (Guided.reverseDispersion sde T) dt) res y ts key).E (fun out => ENNReal.ofReal (Real.exp out.2) * φ out.1) =
      ∫⁻ u0, (Simulators.eulerLast key' u0 ts (fun u t => Gp.reverseDrift cho sde t0 T m K u (t + dt))
        (fun t => Gp.reverseDispersion sde T (t + dt)) 1).E
        (fun u => ENNReal.ofReal (∏ i, gaussianPDFReal
          (u i + Gp.reverseDrift cho sde t0 T m K u ts.last i * dt) obsVar.toNNReal (y i)) * φ u)
        ∂(mvn (forwardMCov sde t0 m K T).1 (forwardMCov sde t0 m K T).2) := by
  have h := C63_target (sde := sde) (T := T) (fun t => gp_score_continuous cho sde t0 m K t) continuous_id
    (fun _ => Real.sqrt obsVar) (initSampler := Gp.initSampler cholesky (forwardMCov sde t0 m K T).1
      (forwardMCov sde t0 m K T).2) (ref := mvn (forwardMCov sde t0 m K T).1 (forwardMCov sde t0 m K T).2)
    (fun k n F hF => C62_init_law _ hL k n hF) hres hdt ts hts (Real.sqrt_ne_zero'.2 hv) y key key' hφ
  simp only [Real.sq_sqrt hv.le] at h
  exact h

/-- **C63, the weight is not the likelihood.**  At the last time the twisting function is not the density of the
observation given the state, although the paper's target uses the latter: with unit prior variances and the constant
coefficients of the experiment the extra denoising step always moves the mean. -/
theorem C63_not_likelihood {cho : Matrix (Fin d) (Fin d) ℝ → Matrix (Fin d) (Fin d) ℝ} (hc : IsChol cho) [NeZero d]
    {ell : ℝ} (hell : 0 < ell) {zs : Fin d → ℝ} (hz : StrictMono zs) {dt T obsVar : ℝ} (hdt : 0 < dt) (hv : 0 < obsVar) :
    ∃ y u : Fin d → ℝ, twistingLogpdf id (Gp.reverseDrift cho (.const (-1 / 2) 1) 0 T 0 (covFn 1 ell zs zs)) dt
      (fun _ => Real.sqrt obsVar) y u T ≠ ∑ i, Linear.normLogpdf (y i) (u i) (Real.sqrt obsVar) := by
  by_contra hcon
  push Not at hcon
  have hK := C60_kernel_posDef one_ne_zero hell hz (sigma := 1)
  set K := covFn 1 ell zs zs with hKdef
  set u : Fin d → ℝ := K *ᵥ Pi.single 0 1 with hu
  have h := hcon u u
  set D := Gp.reverseDrift cho (.const (-1 / 2) 1) 0 T 0 K u T with hD
  have h1 : ∑ i, (D i * dt) ^ 2 = 0 := by
    have hne : Real.sqrt obsVar ^ 2 ≠ 0 := by rw [Real.sq_sqrt hv.le]; exact hv.ne'
    have h2 : ∑ i, Linear.normLogpdf (u i) (u i) (Real.sqrt obsVar) -
        twistingLogpdf id (Gp.reverseDrift cho (.const (-1 / 2) 1) 0 T 0 K) dt (fun _ => Real.sqrt obsVar) u u T =
        ∑ i, (D i * dt) ^ 2 * (1 / (2 * obsVar)) := by
      rw [twistingLogpdf, ← Finset.sum_sub_distrib]
      refine Finset.sum_congr rfl fun i _ => ?_
      simp only [Linear.normLogpdf, id, denoise, ← hD, Real.sq_sqrt hv.le]
      field_simp
      ring
    rw [h, sub_self, ← Finset.sum_mul] at h2
    have : (1 / (2 * obsVar)) ≠ 0 := by positivity
    rcases mul_eq_zero.1 h2.symm with h3 | h3
    · exact h3
    · exact absurd h3 this
  have h3 : D 0 = 0 := by
    have := (Finset.sum_eq_zero_iff_of_nonneg fun i _ => sq_nonneg (D i * dt)).1 h1 0 (Finset.mem_univ _)
    have h4 : D 0 * dt = 0 := by simpa using this
    exact (mul_eq_zero.1 h4).resolve_right hdt.ne'
  have h5 : (forwardMCov (.const (-1 / 2) 1) 0 (0 : Fin d → ℝ) K (T - T)).2 = K := by
    simp [forwardMCov, Linear.discretise]
  have h6 : (forwardMCov (.const (-1 / 2) 1) 0 (0 : Fin d → ℝ) K (T - T)).1 = 0 := by
    simp [forwardMCov]
  have h7 : D 0 = 1 / 2 * u 0 - 1 := by
    rw [hD]
    simp only [Gp.reverseDrift, Gp.score]
    rw [h5, h6, choSolveVec_eq hc hK, sub_zero, hu, mulVec_mulVec, nonsing_inv_mul _ (by
      exact isUnit_iff_ne_zero.2 hK.det_pos.ne'), one_mulVec]
    simp [Linear.drift, Linear.dispersion]
    ring
  have h8 : u 0 = 1 := by
    rw [hu, mulVec_single]
    simp [hKdef, covFn]
  rw [h7, h8] at h3
  norm_num at h3

/-- The experiment with two values and two steps. -/
example (y : Fin 2 → ℝ) (key key' : Key) {φ : (Fin 2 → ℝ) → ℝ≥0∞} (hφ : Measurable φ) :
    ∃ cho cholesky : Matrix (Fin 2) (Fin 2) ℝ → Matrix (Fin 2) (Fin 2) ℝ,
    (guidedZ (funs (N := 3) (Gp.initSampler cholesky
        (forwardMCov (.const (-1 / 2) 1) 0 0 (covFn 1 1 (fun i : Fin 2 => ((i : ℕ) : ℝ)) fun i : Fin 2 => ((i : ℕ) : ℝ)) 1).1
        (forwardMCov (.const (-1 / 2) 1) 0 0 (covFn 1 1 (fun i : Fin 2 => ((i : ℕ) : ℝ)) fun i : Fin 2 => ((i : ℕ) : ℝ)) 1).2)
        (Guided.reverseDrift (.const (-1 / 2) 1) 1 (Gp.score cho (.const (-1 / 2) 1) 0 0
          (covFn 1 1 (fun i : Fin 2 => ((i : ℕ) : ℝ)) fun i : Fin 2 => ((i : ℕ) : ℝ))))
        (reverseCondDrift (.const (-1 / 2) 1) 1 (Gp.score cho (.const (-1 / 2) 1) 0 0
          (covFn 1 1 (fun i : Fin 2 => ((i : ℕ) : ℝ)) fun i : Fin 2 => ((i : ℕ) : ℝ)))
        (twistingLogpdf id (Guided.reverseDrift (.const (-1 / 2) 1) 1 (Gp.score cho (.const (-1 / 2) 1) 0 0
          (covFn 1 1 (fun i : Fin 2 => ((i : ℕ) : ℝ)) fun i : Fin 2 => ((i : ℕ) : ℝ)))) (1 / 2) fun _ => Real.sqrt 1))
        (twistingLogpdf id (Guided.reverseDrift (.const (-1 / 2) 1) 1 (Gp.score cho (.const (-1 / 2) 1) 0 0
          (covFn 1 1 (fun i : Fin 2 => ((i : ℕ) : ℝ)) fun i : Fin 2 => ((i : ℕ) : ℝ)))) (1 / 2) fun _ => Real.sqrt 1)
        (Guided.reverseDispersion (.const (-1 / 2) 1) 1) (1 / 2)) Resampling.stratified y (0, [1 / 2, 1]) key).E
          (fun out => ENNReal.ofReal (Real.exp out.2) * φ out.1) =
      ∫⁻ u0, (Simulators.eulerLast key' u0 (0, [1 / 2, 1])
        (fun u t => Gp.reverseDrift cho (.const (-1 / 2) 1) 0 1 0
          (covFn 1 1 (fun i : Fin 2 => ((i : ℕ) : ℝ)) fun i : Fin 2 => ((i : ℕ) : ℝ)) u (t + 1 / 2))
        (fun t => Gp.reverseDispersion (.const (-1 / 2) 1) 1 (t + 1 / 2)) 1).E
        (fun u => ENNReal.ofReal (∏ i, gaussianPDFReal
          (u i + Gp.reverseDrift cho (.const (-1 / 2) 1) 0 1 0
            (covFn 1 1 (fun i : Fin 2 => ((i : ℕ) : ℝ)) fun i : Fin 2 => ((i : ℕ) : ℝ)) u 1 i * (1 / 2))
            (1 : ℝ).toNNReal (y i)) * φ u)
        ∂(mvn (forwardMCov (.const (-1 / 2) 1) 0 0 (covFn 1 1 (fun i : Fin 2 => ((i : ℕ) : ℝ)) fun i : Fin 2 => ((i : ℕ) : ℝ)) 1).1
          (forwardMCov (.const (-1 / 2) 1) 0 0 (covFn 1 1 (fun i : Fin 2 => ((i : ℕ) : ℝ)) fun i : Fin 2 => ((i : ℕ) : ℝ)) 1).2) := by
  obtain ⟨cho, hc⟩ := exists_isChol 2
  obtain ⟨cholesky, hL⟩ := exists_isCholesky 2
  refine ⟨cho, cholesky, ?_⟩
  have hK := C60_kernel_posDef one_ne_zero one_pos (strictMono_grid 2) (sigma := 1) (ell := 1)
  have hQ : 0 ≤ (Linear.discretise (.const (-1 / 2) 1) 1 0).2 :=
    (C29_bounds (sde := .const (-1 / 2) 1) (t := 1) (s := 0) ⟨by norm_num, by norm_num⟩ ⟨by norm_num, by norm_num⟩
      one_pos).2.1.le
  exact C63_gp cho cholesky (.const (-1 / 2) 1) 0 1 0 _ one_pos (hL _ (forwardCov_posDef hQ 0 hK)) sums_stratified
    (dt := 1 / 2) (by norm_num) (0, [1 / 2, 1]) ⟨by norm_num, by simp [Linear.dispersion], by norm_num, by simp [Linear.dispersion],
      trivial⟩ y key key' hφ

end Gp

end Props
end Fbs
