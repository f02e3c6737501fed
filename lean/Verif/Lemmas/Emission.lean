import Verif.Spec.Emission
import Verif.Props.CsmcChain

/-! The smoothing distribution of a hidden Markov model as a reweighted prior, and joint measurability of a call of
`csmc_kernel` in the trajectory and the observations. -/

open MeasureTheory ProbabilityTheory
open scoped ENNReal

namespace Fbs
namespace Props

open Jax Spec Csmc Gibbs Chains

variable {N K : ℕ} {U V : Type} [MeasurableSpace U] [MeasurableSpace V] {H : Hmm U V}

theorem space_jointMeas (H : Hmm U V) : H.space.JointMeas :=
  ⟨fun t => (H.trans t).measurable.comp measurable_snd,
    fun _ => H.meas.comp (measurable_fst.prodMk (measurable_snd.comp measurable_snd))⟩

/-- Product of the emission densities of `vs` at the states of the same number. -/
noncomputable def wprod (H : Hmm U V) : List V → List U → ℝ≥0∞
  | v :: vs, u :: us => ENNReal.ofReal (Real.exp (H.logLik v u)) * wprod H vs us
  | _, _ => 1

theorem walk_congr : ∀ (ts : List ℝ) (u : U) {φ ψ : List U → ℝ≥0∞}, (∀ l, l.length = ts.length → φ l = ψ l) →
    H.walk ts u φ = H.walk ts u ψ
  | [], _, _, _, h => h [] rfl
  | _ :: ts, _, _, _, h => lintegral_congr fun u' => walk_congr ts u' fun l hl => h (u' :: l) (by simp [hl])

theorem walk_mul {c : ℝ≥0∞} (hc : c ≠ ∞) : ∀ (ts : List ℝ) (u : U) (φ : List U → ℝ≥0∞),
    H.walk ts u (fun l => c * φ l) = c * H.walk ts u φ
  | [], _, _ => rfl
  | t :: ts, u, φ => by
    simp only [Hmm.walk, walk_mul hc ts]
    exact lintegral_const_mul' _ _ hc

theorem pathInt_space : ∀ (vs : List V) (ts : List ℝ), vs.length ≤ ts.length → ∀ (v : V) (u : U) (φ : List U → ℝ≥0∞),
    pathInt (H.space.steps v vs ts) u φ = H.walk (ts.take vs.length) u fun l => wprod H vs (u :: l) * φ l
  | [], ts, _, v, u, φ => by cases ts <;> simp [StateSpace.steps, pathInt, Hmm.walk, wprod]
  | v' :: vs, t :: ts, h, v, u, φ => by
    have ih := pathInt_space vs ts (by simpa using h) v'
    simp only [StateSpace.steps, pathInt, List.length_cons, List.take_succ_cons, Hmm.walk, wprod, ih, mul_assoc]
    simp only [walk_mul (H := H) ENNReal.ofReal_ne_top]
    rw [lintegral_const_mul' _ _ ENNReal.ofReal_ne_top]
    rfl

theorem init_eq_take (ts : Arr1 ℝ) (ht : ts.2.length = K) : ts.init = ts.toList.take K := by
  unfold Arr1.init Arr1.toList
  rw [List.dropLast_eq_take, List.length_cons, ht, Nat.add_sub_cancel]

/-- The weight of the observations `y` along the trajectory `q`. -/
noncomputable def emW (H : Hmm U V) (src : Fin (K + 1) → Fin (K + 1)) (y : Fin (K + 1) → V) (q : Fin (K + 1) → U) : ℝ≥0∞ :=
  ∏ i, ENNReal.ofReal (Real.exp (H.logLik (y i) (q (src i))))

theorem measurable_emW (src : Fin (K + 1) → Fin (K + 1)) :
    Measurable fun z : (Fin (K + 1) → U) × (Fin (K + 1) → V) => emW H src z.2 z.1 := by
  unfold emW
  refine Finset.measurable_prod _ fun i _ => ENNReal.measurable_ofReal.comp (Real.measurable_exp.comp ?_)
  exact H.meas.comp (((measurable_pi_apply i).comp measurable_snd).prodMk
    ((measurable_pi_apply (src i)).comp measurable_fst) :
      Measurable fun z : (Fin (K + 1) → U) × (Fin (K + 1) → V) => (z.2 i, z.1 (src i)))

omit [MeasurableSpace U] in
theorem lintegral_prod_fin (ν : Measure V) [SigmaFinite ν] : ∀ {k : ℕ} (f : Fin k → V → ℝ≥0∞), (∀ i, Measurable (f i)) →
    ∫⁻ y, ∏ i, f i (y i) ∂(Measure.pi fun _ : Fin k => ν) = ∏ i, ∫⁻ v, f i v ∂ν
  | 0, f, _ => by simp
  | k + 1, f, hf => by
    have h := (measurePreserving_piFinSuccAbove (fun _ : Fin (k + 1) => ν) 0).symm
    rw [← h.lintegral_comp_emb (MeasurableEquiv.measurableEmbedding _), Fin.prod_univ_succ,
      ← lintegral_prod_fin ν (fun i => f i.succ) fun i => hf i.succ]
    rw [← lintegral_prod_mul (hf 0).aemeasurable (Finset.measurable_prod _ fun i _ =>
      (hf i.succ).comp (measurable_pi_apply i)).aemeasurable]
    refine lintegral_congr fun z => ?_
    rw [Fin.prod_univ_succ]
    rfl

/-- The observations integrate out, whichever states they are drawn at. -/
theorem lintegral_emW (src : Fin (K + 1) → Fin (K + 1)) (q : Fin (K + 1) → U) :
    ∫⁻ y, emW H src y q ∂(Measure.pi fun _ => H.base) = 1 := by
  unfold emW
  rw [lintegral_prod_fin H.base (fun i v => ENNReal.ofReal (Real.exp (H.logLik v (q (src i)))))
    fun i => ENNReal.measurable_ofReal.comp (Real.measurable_exp.comp (H.meas.comp measurable_prodMk_right))]
  simp [H.total]

theorem wprod_ofFn : ∀ {k : ℕ} (y : Fin k → V) (us : List U), k ≤ us.length → ∀ d,
    wprod H (List.ofFn y) us = ∏ i : Fin k, ENNReal.ofReal (Real.exp (H.logLik (y i) (us.getD i d)))
  | 0, _, us, _, _ => by simp [wprod]
  | k + 1, y, u :: us, h, d => by
    rw [List.ofFn_succ, Fin.prod_univ_succ, wprod, wprod_ofFn _ us (by simpa using h) d]
    rfl

theorem emW_lag (y : Fin (K + 1) → V) (u : U) (l : List U) (hl : l.length = K) :
    emW H lag y (rowsOf K (u, l)) = ENNReal.ofReal (Real.exp (H.logLik (y 0) u)) * wprod H (arr y).2 (u :: l) := by
  unfold emW
  rw [Fin.prod_univ_succ]
  congr 1
  simp only [arr]
  rw [wprod_ofFn _ (u :: l) (by simp [hl]) u]
  rfl

/-- The target of the test's functions: the prior, weighted by the density of each observation at the state **before** it. -/
theorem target_space [NeZero N] (H : Hmm U V) (y : Fin (K + 1) → V) (ts : Arr1 ℝ) (ht : ts.2.length = K)
    (F : (Fin (K + 1) → U) → ℝ≥0∞) :
    H.space.target N (arr y) ts (fun p => F (rowsOf K (p.map Prod.fst)))
      = H.prior ts fun a => emW H lag y (rowsOf K a) * F (rowsOf K a) := by
  rw [target_onPath]
  unfold Hmm.prior
  refine lintegral_congr fun u => ?_
  have hlen : (arr y).2.length = K := by simp [arr]
  rw [pathInt_space _ _ (by rw [hlen]; simp [Arr1.toList, ht]), hlen, ← init_eq_take ts ht,
    ← walk_mul (H := H) ENNReal.ofReal_ne_top]
  refine walk_congr _ _ fun l hl => ?_
  have hl' : l.length = K := by
    rw [hl, init_eq_take ts ht]
    simp [Arr1.toList, ht]
  show _ = emW H lag y (rowsOf K (u, l)) * F (rowsOf K (u, l))
  rw [emW_lag y u l hl', mul_assoc]
  rfl

/-- The prior is a probability measure on trajectories. -/
theorem prior_measure (H : Hmm U V) (ts : Arr1 ℝ) (ht : ts.2.length = K) :
    ∃ π : Measure (Fin (K + 1) → U), IsProbabilityMeasure π ∧
      ∀ F, Measurable F → H.prior ts (fun a => F (rowsOf K a)) = ∫⁻ q, F q ∂π := by
  let H0 : Hmm U Unit := ⟨H.init, H.prob, H.trans, H.markov, Measure.dirac (), inferInstance, fun _ _ => 0, measurable_const,
    fun u => by simp⟩
  have e : ∀ (ts : List ℝ) (u : U) (φ : List U → ℝ≥0∞), H0.walk ts u φ = H.walk ts u φ := by
    intro ts
    induction ts with
    | nil => intro u φ; rfl
    | cons t ts ih => intro u φ; simp only [Hmm.walk, ih]; rfl
  obtain ⟨π, hπ⟩ := target_measure (N := 1) H0.space (arr fun _ : Fin (K + 1) => ()) ts (by simp [arr]) ht
  have h : ∀ F, Measurable F → H.prior ts (fun a => F (rowsOf K a)) = ∫⁻ q, F q ∂π := fun F hF => by
    rw [← hπ F hF, target_space H0 (fun _ => ()) ts ht F]
    unfold Hmm.prior
    simp only [e]
    simp [emW, H0]
  refine ⟨π, ⟨?_⟩, h⟩
  have hw : ∀ (ts : List ℝ) (u : U), H.walk ts u (fun _ => 1) = 1 := by
    intro ts
    induction ts with
    | nil => intro u; rfl
    | cons t ts ih => intro u; simp [Hmm.walk, ih]
  have h1 := h (fun _ => 1) measurable_const
  unfold Hmm.prior at h1
  simpa [hw] using h1.symm

theorem prior_congr (ts : Arr1 ℝ) (ht : ts.2.length = K) {φ ψ : Arr1 U → ℝ≥0∞} (h : ∀ a : Arr1 U, a.2.length = K → φ a = ψ a) :
    H.prior ts φ = H.prior ts ψ := by
  refine lintegral_congr fun u => walk_congr _ _ fun l hl => h _ ?_
  rw [hl, init_eq_take ts ht]
  simp [Arr1.toList, ht]

/-- A call of `csmc_kernel` depends measurably on the trajectory and the observations together. -/
theorem csmc_joint [NeZero N] {m : Csmc.Funs N U V} {S : StateSpace U V} (hS : S.JointMeas)
    (hg0 : Measurable fun p : V × V × U => S.logG0 p.1 p.2.1 p.2.2) (hm : Implements m S) {res : CondResampling N}
    (C : ExactScheme res) (k : ℕ) (key : Key) (bs : Arr1 (Fin N)) (hb : bs.2.length = K) (ts : Arr1 ℝ) (ht : ts.2.length = K)
    {F : (Fin (K + 1) → U) → ℝ≥0∞} (hF : Measurable F) :
    Measurable fun z : (Fin (K + 1) → U) × (Fin (K + 1) → V) =>
      (Csmc.kernel m res k false key (arr z.1) bs (arr z.2) ts).E fun out => onPath K F out.1 := by
  have hlen : ∀ v : Fin (K + 1) → V, (arr v).2.length = K := fun v => by simp [arr]
  have hlenU : ∀ q : Fin (K + 1) → U, (arr q).2.length = K := fun q => by simp [arr]
  have e : ∀ z : (Fin (K + 1) → U) × (Fin (K + 1) → V),
      (Csmc.kernel m res k false key (arr z.1) bs (arr z.2) ts).E (fun out => onPath K F out.1)
        = ∫⁻ y, Cf C.cond (selectΨ fun us _ => onPath K F us) (seqSteps S (ext z.2) K ts.toList)
          ((List.range K).map fun j => (ext z.1 (j + 1), bs.2.getD j bs.1))
          (initSt (S.logG0 (arr z.2).1 ((arr z.2).2.headD (arr z.2).1)) (Function.update y bs.1 (ext z.1 0))) bs.1
            ∂(Measure.pi fun _ => S.init) := fun z => by
    rw [csmc_E hm C k key (arr z.1) bs (arr z.2) ts ((hlenU _).trans (hlen _).symm) (hb.trans (hlen _).symm)
      (ht.trans (hlen _).symm) (by rw [hlen]; exact measOut_onPath hF)]
    have h1 : S.steps (arr z.2).1 (arr z.2).2 ts.toList = seqSteps S (ext z.2) K ts.toList := by
      rw [arr_eq z.2]; rfl
    have h2 : (arr z.1).2.zip bs.2 = (List.range K).map fun j => (ext z.1 (j + 1), bs.2.getD j bs.1) := by
      rw [arr_eq z.1, zip_range _ bs.2 hb bs.1]
    rw [h1, h2]
    rfl
  simp only [e]
  refine Measurable.lintegral_prod_right' (f := fun z : ((Fin (K + 1) → U) × (Fin (K + 1) → V)) × (Fin N → U) =>
    Cf C.cond (selectΨ fun us _ => onPath K F us) (seqSteps S (ext z.1.2) K ts.toList)
      ((List.range K).map fun j => (ext z.1.1 (j + 1), bs.2.getD j bs.1))
      (initSt (S.logG0 (arr z.1.2).1 ((arr z.1.2).2.headD (arr z.1.2).1)) (Function.update z.2 bs.1 (ext z.1.1 0))) bs.1) ?_
  have hu : Measurable fun z : ((Fin (K + 1) → U) × (Fin (K + 1) → V)) × (Fin N → U) => ext z.1.1 :=
    measurable_ext.comp (measurable_fst.comp measurable_fst)
  have hv : Measurable fun z : ((Fin (K + 1) → U) × (Fin (K + 1) → V)) × (Fin N → U) => ext z.1.2 :=
    measurable_ext.comp (measurable_snd.comp measurable_fst)
  refine measurable_Cf_obs C.meas S hS K ts.toList (by simp [Arr1.toList, ht]) 1 (measFun_select (measOut_onPath hF))
    (((Fin (K + 1) → U) × (Fin (K + 1) → V)) × (Fin N → U)) _ ?_ (fun z j => (ext z.1.1 (j + 1), bs.2.getD j bs.1))
    (measurable_pi_iff.2 fun j => ((measurable_pi_apply (j + 1)).comp hu).prodMk measurable_const) (fun z => ext z.1.2) hv bs.1
  have h1 : Measurable fun z : ((Fin (K + 1) → U) × (Fin (K + 1) → V)) × (Fin N → U) => (arr z.1.2).1 :=
    (measurable_pi_apply 0).comp (measurable_snd.comp measurable_fst)
  have h2 : Measurable fun z : ((Fin (K + 1) → U) × (Fin (K + 1) → V)) × (Fin N → U) => (arr z.1.2).2.headD (arr z.1.2).1 := by
    cases K with
    | zero => simpa [arr] using h1
    | succ K =>
      simp only [arr, List.ofFn_succ, List.headD_cons]
      exact (measurable_pi_apply _).comp (measurable_snd.comp measurable_fst)
  have h3 : Measurable fun z : ((Fin (K + 1) → U) × (Fin (K + 1) → V)) × (Fin N → U) =>
      Function.update z.2 bs.1 (ext z.1.1 0) :=
    measurable_update_pi measurable_snd (measurable_pi_iff.1 hu 0)
  exact measSt_init_param (fun x hx => hg0.comp (h1.prodMk (h2.prodMk hx))) h3

end Props
end Fbs
