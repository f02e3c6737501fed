import Verif.Model.Smc
import Verif.Lemmas.Live
import Verif.Lemmas.Law

/-!
# C20: accept/reject bookkeeping of the pseudo-marginal kernel
-/

open MeasureTheory
open scoped ENNReal

namespace Fbs
namespace Spec

open Smc

/-- The stored state is coherent: the stored estimate and particle come from one filter run on the stored path,
and the path starts at `y0`. -/
def Coherent {N K : ℕ} {U V : Type} (m : Funs N U V) (res : Smc.Resampling N) (y0 : V) (ts : Fin (K + 1) → ℝ)
    (whichU : Fin N) (uT : U) (logEll : ℝ) (ys : Fin (K + 1) → V) : Prop :=
  ys 0 = y0 ∧ ∃ (k k' : Key) (u0s uTs : Fin N → U),
    (m.initSampler k (ys (Fin.last K)) N).Returns u0s ∧
    (pmcmcFilterStep m res k' (toArr1 fun i => ys (Fin.rev i)) u0s (toArr1 ts)).Returns (uTs, logEll) ∧
    uT = uTs whichU

/-- States reachable by calling the kernel again and again. -/
inductive PmcmcHistory {N K : ℕ} {U V : Type} [AddCommGroup V] [Module ℝ V] (m : Funs N U V)
    (res : Smc.Resampling N) (y0 : V) (ts : Fin (K + 1) → ℝ) (fwdYs : Key → V → Rand (Fin (K + 1) → V))
    (sdeMean : ℝ → ℝ → V → V) (delta : Option ℝ) (whichU : Fin N) (uT : U) (logEll : ℝ)
    (ys : Fin (K + 1) → V) : U → ℝ → (Fin (K + 1) → V) → Prop
  | start : PmcmcHistory m res y0 ts fwdYs sdeMean delta whichU uT logEll ys uT logEll ys
  | step {key u l y u' l' y' st} :
      PmcmcHistory m res y0 ts fwdYs sdeMean delta whichU uT logEll ys u l y →
      (pmcmcKernel m res key u l y y0 ts fwdYs sdeMean delta whichU).Returns (u', l', y', st) →
      PmcmcHistory m res y0 ts fwdYs sdeMean delta whichU uT logEll ys u' l' y'

end Spec

namespace Props

open Jax Spec Smc

variable {N K : ℕ} {U V : Type} [AddCommGroup V] [Module ℝ V]

theorem exp_min (a : ℝ) : Real.exp (min 0 a) = min 1 (Real.exp a) := by
  rw [Real.exp_monotone.map_min, Real.exp_zero]

/-- **C20, atomicity.**  Either the old triple or the proposed triple is returned, and the reported state is exact. -/
theorem C20_atomic (m : Funs N U V) (res : Smc.Resampling N) (key : Key) (uT : U) (logEll : ℝ)
    (ys : Fin (K + 1) → V) (y0 : V) (ts : Fin (K + 1) → ℝ) (fwdYs : Key → V → Rand (Fin (K + 1) → V))
    (sdeMean : ℝ → ℝ → V → V) (delta : Option ℝ) (whichU : Fin N) {u' : U} {l' : ℝ} {ys' : Fin (K + 1) → V}
    {st : MCMCState}
    (h : (pmcmcKernel m res key uT logEll ys y0 ts fwdYs sdeMean delta whichU).Returns (u', l', ys', st)) :
    ∃ propYs u0s uTs propL,
      (pmcmcProposal key ys y0 ts fwdYs sdeMean delta).Returns propYs ∧
      (m.initSampler (split key 4 1) (propYs (Fin.last K)) N).Returns u0s ∧
      (pmcmcFilterStep m res (split key 4 2) (toArr1 fun i => propYs (Fin.rev i)) u0s (toArr1 ts)).Returns
        (uTs, propL) ∧
      st.propLogEll = propL ∧ st.logEll = logEll ∧
      st.acceptanceProb = min 1 (Real.exp (propL - logEll)) ∧ 0 < st.acceptanceProb ∧ st.acceptanceProb ≤ 1 ∧
      (st.isAccepted = true ∧ u' = uTs whichU ∧ l' = propL ∧ ys' = propYs ∨
        st.isAccepted = false ∧ u' = uT ∧ l' = logEll ∧ ys' = ys) ∧
      (logEll ≤ propL → st.isAccepted = true) := by
  simp only [pmcmcKernel, Rand.returns_bind] at h
  obtain ⟨propYs, hp, ⟨pu, pl⟩, he, z, hz, h⟩ := h
  simp only [pmcmcEstimate, Rand.returns_bind] at he
  obtain ⟨u0s, hu, ⟨uTs, pl'⟩, hf, he⟩ := he
  simp only [Rand.pure_eq, Rand.returns_ret, Prod.mk.injEq] at he
  obtain ⟨rfl, rfl⟩ := he
  have hz := Rand.returns_sample.1 hz
  have hacc : logEll ≤ pl → accepts z (min 0 (pl - logEll)) = true := by
    intro hle
    rw [min_eq_left (by linarith)]
    simp only [accepts, decide_eq_true_eq]
    rcases eq_or_lt_of_le hz.1 with h0 | h0
    · exact Or.inl h0.symm
    · exact Or.inr (Real.log_neg h0 hz.2)
  have h0 : (Fin.rev 0 : Fin (K + 1)) = Fin.last K := Fin.rev_zero K
  refine ⟨propYs, u0s, uTs, pl, hp, by rw [← h0]; exact hu, hf, ?_⟩
  rw [Rand.pure_eq, Rand.returns_ret] at h
  cases hflag : accepts z (min 0 (pl - logEll)) with
  | true =>
    simp only [hflag, if_true, Prod.mk.injEq] at h
    obtain ⟨rfl, rfl, rfl, rfl⟩ := h
    exact ⟨rfl, rfl, exp_min _, Real.exp_pos _, by rw [exp_min]; exact min_le_left _ _, by simp, fun _ => rfl⟩
  | false =>
    simp only [hflag, Bool.false_eq_true, if_false, Prod.mk.injEq] at h
    obtain ⟨rfl, rfl, rfl, rfl⟩ := h
    exact ⟨rfl, rfl, exp_min _, Real.exp_pos _, by rw [exp_min]; exact min_le_left _ _, by simp,
      fun hle => by rw [hacc hle] at hflag; cases hflag⟩

/-- **C20, acceptance probability.**  Over the uniform draw, the acceptance test succeeds with the reported
probability. -/
theorem C20_acceptance_probability (k : Key) (d : ℝ) :
    (uniform k).E (fun z => if accepts z (min 0 d) then 1 else 0) = ENNReal.ofReal (min 1 (Real.exp d)) := by
  rw [uniform, Rand.E_sample, unifMeasure, ← exp_min]
  set l := min 0 d
  have hl : Real.exp l ≤ 1 := Real.exp_le_one_iff.2 (min_le_left _ _)
  have h : ∀ z ∈ Set.Ico (0 : ℝ) 1, (if accepts z l = true then (1 : ℝ≥0∞) else 0)
      = (Set.Iio (Real.exp l)).indicator 1 z := by
    intro z hz
    rw [Set.indicator_apply]
    refine if_congr ?_ rfl rfl
    simp only [accepts, decide_eq_true_eq, Set.mem_Iio]
    rcases eq_or_lt_of_le hz.1 with h0 | h0
    · simp [← h0, Real.exp_pos]
    · rw [Real.log_lt_iff_lt_exp h0]
      exact ⟨fun h => h.resolve_left h0.ne', Or.inr⟩
  rw [setLIntegral_congr_fun measurableSet_Ico h, lintegral_indicator_one measurableSet_Iio,
    Measure.restrict_apply measurableSet_Iio]
  have h2 : Set.Iio (Real.exp l) ∩ Set.Ico 0 1 = Set.Ico 0 (Real.exp l) := by
    ext z
    simp only [Set.mem_inter_iff, Set.mem_Iio, Set.mem_Ico]
    exact ⟨fun h => ⟨h.2.1, h.1⟩, fun h => ⟨h.2, h.1, h.2.trans_le hl⟩⟩
  rw [h2, Real.volume_Ico, sub_zero]

/-- **C20, histories.**  If the first state is coherent, the paths of the forward sampler start at `y0` and the
mean at the first time is the initial value, every later state is coherent. -/
theorem C20_history (m : Funs N U V) (res : Smc.Resampling N) (y0 : V) (ts : Fin (K + 1) → ℝ)
    (fwdYs : Key → V → Rand (Fin (K + 1) → V)) (sdeMean : ℝ → ℝ → V → V) (delta : Option ℝ) (whichU : Fin N)
    (hf : ∀ k p, (fwdYs k y0).Returns p → p 0 = y0) (hmean : sdeMean (ts 0) (ts 0) y0 = y0)
    {uT : U} {logEll : ℝ} {ys : Fin (K + 1) → V} (h0 : Coherent m res y0 ts whichU uT logEll ys)
    {u : U} {l : ℝ} {y : Fin (K + 1) → V}
    (h : PmcmcHistory m res y0 ts fwdYs sdeMean delta whichU uT logEll ys u l y) :
    Coherent m res y0 ts whichU u l y := by
  induction h with
  | start => exact h0
  | step _ hk ih =>
    obtain ⟨propYs, u0s, uTs, propL, hp, hu, hfil, -, -, -, -, -, hcase, -⟩ :=
      C20_atomic m res _ _ _ _ y0 ts fwdYs sdeMean delta whichU hk
    rcases hcase with ⟨-, rfl, rfl, rfl⟩ | ⟨-, rfl, rfl, rfl⟩
    · refine ⟨?_, _, _, u0s, uTs, hu, hfil, rfl⟩
      cases delta with
      | none => exact hf _ _ hp
      | some d =>
        simp only [pmcmcProposal, pcnProposal, Rand.returns_bind, Rand.pure_eq, Rand.returns_ret] at hp
        obtain ⟨r0, hr0, r1, hr1, rfl⟩ := hp
        simp only [Pi.add_apply, Pi.smul_apply, Pi.sub_apply, hf _ _ hr0, hf _ _ hr1, hmean, ih.1, sub_self,
          smul_zero, add_zero]
        rw [← add_smul, add_sub_cancel, one_smul]
    · exact ih

/-! ### The hypotheses can be met -/

/-- Three particles moved by uniform numbers. -/
noncomputable def unifSmc : Funs 3 ℝ ℝ where
  initSampler k _ _ := uniforms k 3
  transSampler x _ _ k := (fun u i => x i + u i) <$> uniforms k 3
  lik v x _ _ i := -(v - x i) ^ 2

/-- A forward path of two rows starting at `y0`. -/
noncomputable def unifFwd (k : Key) (y0 : ℝ) : Rand (Fin 2 → ℝ) := (fun u => ![y0, y0 + u]) <$> uniform k

/-- A coherent state exists, and one call from it (with the pCN proposal) returns a coherent state. -/
example : ∃ u l y, Coherent unifSmc (fun w k => choices k w 3) 0 (![0, 1] : Fin 2 → ℝ) 0 u l y ∧
    ∃ u' l' y' st, (pmcmcKernel unifSmc (fun w k => choices k w 3) [] u l y 0 ![0, 1] unifFwd
      (fun _ _ y => y) (some 2) 0).Returns (u', l', y', st) ∧
      Coherent unifSmc (fun w k => choices k w 3) 0 (![0, 1] : Fin 2 → ℝ) 0 u' l' y' := by
  have hstep : ∀ k vs u0s ts, (pmcmcFilterStep unifSmc (fun w k => choices k w 3) k vs u0s ts).Live :=
    fun k vs u0s ts => (Rand.Live.scan (fun _ _ => (live_choices _ _ _).bind fun _ =>
      ((live_uniforms _ _).map _).bind fun _ => Rand.live_pure _) _ _).bind fun _ => Rand.live_pure _
  obtain ⟨u0s, hu⟩ := (live_uniforms ([] : Key) 3).returns
  obtain ⟨⟨uTs, l⟩, hl⟩ := (hstep [] (toArr1 fun i => (![0, 1 / 2] : Fin 2 → ℝ) (Fin.rev i)) u0s
    (toArr1 ![0, 1])).returns
  have h0 : Coherent unifSmc (fun w k => choices k w 3) 0 (![0, 1] : Fin 2 → ℝ) 0 (uTs 0) l ![0, 1 / 2] :=
    ⟨rfl, [], [], u0s, uTs, hu, hl, rfl⟩
  have hlive : (pmcmcKernel unifSmc (fun w k => choices k w 3) [] (uTs 0) l ![0, 1 / 2] 0 ![0, 1] unifFwd
      (fun _ _ y => y) (some 2) 0).Live :=
    (((live_uniform _).map _).bind fun _ => ((live_uniform _).map _).bind fun _ => Rand.live_pure _).bind fun _ =>
      ((live_uniforms _ _).bind fun _ => (hstep _ _ _ _).bind fun _ => Rand.live_pure _).bind fun _ =>
      (live_uniform _).bind fun _ => Rand.live_pure _
  obtain ⟨⟨u', l', y', st⟩, h⟩ := hlive.returns
  refine ⟨_, _, _, h0, u', l', y', st, h, ?_⟩
  refine C20_history unifSmc (fun w k => choices k w 3) 0 ![0, 1] unifFwd (fun _ _ y => y) (some 2) 0 ?_ rfl h0
    (.step .start h)
  intro k p hp
  obtain ⟨a, -, rfl⟩ := Rand.returns_map.1 hp
  rfl

end Props
end Fbs
