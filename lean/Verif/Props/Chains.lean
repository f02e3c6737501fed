import Verif.Model.Chains
import Verif.Props.ParticleZero
import Verif.Props.Pmcmc

/-!
# C68, C69: draws from the filter and starts of the pseudo-marginal chains in the experiments
-/

open MeasureTheory ProbabilityTheory
open scoped ENNReal

namespace Fbs
namespace Props

open Jax Spec Smc Chains

/-! ### C68: the filter as a sampler -/

section Filter

variable {n : ℕ}

/-- **C68, `conditional_sampler` of `gp_filter.py` and `sb/filter.py`.**  With two observations drawn by any program, there is a
model whose draws do not approach the filtering law with more particles: tails have filtering
probability 1/4 and are returned with probability at least 7/24. -/
theorem C68_filter_sampler_inconsistent {fwdYs : Key → Rand (Arr1 ℝ)}
    (hf : ∀ k f c, (∀ v v', c ≤ f (v, [v'])) → c ≤ (fwdYs k).E f) (ts : Arr1 ℝ) (hts : ts.2.length = 1) (key : Key) :
    (∀ v v', tiltSpace.filterInt (v, [v']) ts (fun u => if u then 0 else 1)
      = 4⁻¹ * tiltSpace.filterInt (v, [v']) ts (fun _ => 1)) ∧
    7 / 24 ≤ (filterSampler (smcFuns tiltSpace (n + 2)) fwdYs ts key).E fun u => if u then 0 else 1 := by
  refine ⟨fun v v' => (C68_particle_zero_inconsistent (n := 0) v v' ts hts key true true).2.1, ?_⟩
  simp only [filterSampler, Rand.E_bind, Rand.pure_eq, Rand.E_ret]
  refine hf _ _ _ fun v v' => ?_
  exact (C68_particle_zero_inconsistent v' v ts hts _ true true).2.2

/-- A path of two uniform values. -/
noncomputable def twoUniforms (k : Key) : Rand (Arr1 ℝ) :=
  (fun z : Fin 2 → ℝ => (z 0, [z 1])) <$> uniforms k 2

example (key : Key) : 7 / 24 ≤ (filterSampler (smcFuns tiltSpace 1000) twoUniforms (0, [1]) key).E
    fun u => if u then 0 else 1 :=
  (C68_filter_sampler_inconsistent (n := 998) (fun k f c h => by
      rw [twoUniforms, Rand.E_map, uniforms, Rand.E_sample]
      refine le_trans (le_of_eq ?_) (lintegral_mono fun z => h (z 0) (z 1))
      simp) (0, [1]) rfl key).2

end Filter

/-! ### C69: the starts -/

section Start

variable {N K : ℕ} {U V : Type}

/-- **C69, independence.**  In `pmcmc_init` the stored particle and `log_ell` are independent of the stored path: they come
from a filter run on another path. -/
theorem C69_gp_start_independent [NeZero N] (m : Funs N U V) (fwdYs : Key → Rand (Fin (K + 1) → V))
    (ts : Fin (K + 1) → ℝ) (key : Key) {f : U → ℝ → ℝ≥0∞} {g : (Fin (K + 1) → V) → ℝ≥0∞}
    (hf : ∀ u l, f u l ≠ ∞) (hg : ∀ y, g y ≤ 1) (hp : ∀ k, (fwdYs k).IsProb) :
    (pmcmcInit m fwdYs ts key).E (fun s => g s.2.2 * f s.1 s.2.1)
      = (fwdYs (split key 4 3)).E g * (pmcmcInit m fwdYs ts key).E fun s => f s.1 s.2.1 := by
  have hG : (fwdYs (split key 4 3)).E g ≠ ∞ :=
    ne_top_of_le_ne_top ENNReal.one_ne_top ((Rand.E_mono _ hg).trans (Rand.E_const (hp _) 1).le)
  simp only [pmcmcInit, Rand.E_bind, Rand.pure_eq, Rand.E_ret]
  rw [← Rand.E_const_mul _ hG]
  refine Rand.E_congr _ fun ys => ?_
  rw [← Rand.E_const_mul _ hG]
  refine Rand.E_congr _ fun r => ?_
  rw [Rand.E_const (hp _), mul_comm, ← Rand.E_const_mul _ (hf _ _)]
  exact Rand.E_congr _ fun ys' => mul_comm _ _

/-- **C69, sign.**  What `pmcmc_init` stores as `log_ell` is minus the logarithm of an unbiased estimate of the likelihood
(the states made by `pmcmc_kernel` hold the logarithm itself, C18). -/
theorem C69_gp_start_sign [MeasurableSpace U] [NeZero N] {m : Funs N U V} {S : V → StateSpace U V}
    (hm : ∀ v, SmcImplements m (S v) v) (fwdYs : Key → Rand (Fin (K + 1) → V)) (hp : ∀ k, (fwdYs k).IsProb)
    (ts : Fin (K + 1) → ℝ) (key : Key) :
    (pmcmcInit m fwdYs ts key).E (fun s => ENNReal.ofReal (Real.exp (-s.2.1)))
      = (fwdYs (split key 4 0)).E fun ys => (S (ys (Fin.rev 0))).filterInt (toArr1 fun i => ys (Fin.rev i))
          (toArr1 ts) fun _ => 1 := by
  simp only [pmcmcInit, Rand.E_bind, Rand.pure_eq, Rand.E_ret]
  refine Rand.E_congr _ fun ys => ?_
  refine Eq.trans ?_ (C17_likelihood_unbiased (toArr1 fun i => ys (Fin.rev i)) (toArr1 ts)
    (hm (ys (Fin.rev 0))) sums_stratified (by simp [toArr1]) (split key 4 2) true true)
  exact Rand.E_congr _ fun r => Rand.E_const (hp _) _

variable [AddCommGroup V] [Module ℝ V]

/-- **C69, first move.**  The first move of the chain of `gp_pmcmc.py` is accepted with the *product* of the two likelihood
estimates instead of their quotient. -/
theorem C69_gp_first_acceptance [NeZero N] (m : Funs N U V) (res : Smc.Resampling N) (y0 : V) (ts : Fin (K + 1) → ℝ)
    (fwdYs : Key → V → Rand (Fin (K + 1) → V)) (sdeMean : ℝ → ℝ → V → V) (delta : Option ℝ) (whichU : Fin N)
    {key₀ key : Key} {s : U × ℝ × (Fin (K + 1) → V)} {u' : U} {l' : ℝ} {ys' : Fin (K + 1) → V} {st : MCMCState}
    (hs : (pmcmcInit m (fun k => fwdYs k y0) ts key₀).Returns s)
    (h : (pmcmcKernel m res key s.1 s.2.1 s.2.2 y0 ts fwdYs sdeMean delta whichU).Returns (u', l', ys', st)) :
    ∃ path out,
      (fwdYs (split key₀ 4 0) y0).Returns path ∧ (fwdYs (split key₀ 4 3) y0).Returns s.2.2 ∧
      (bootstrapFilter m Resampling.stratified (toArr1 fun i => path (Fin.rev i)) (toArr1 ts) (split key₀ 4 2) true
        true).Returns out ∧
      s.1 = out.final 0 ∧
      st.acceptanceProb = min 1 (Real.exp st.propLogEll * Real.exp (-out.nell)) := by
  simp only [pmcmcInit, Rand.returns_bind] at hs
  obtain ⟨path, hpath, out, hout, ys, hys, hs⟩ := hs
  rw [Rand.pure_eq, Rand.returns_ret] at hs
  subst hs
  obtain ⟨_, _, _, propL, -, -, -, h1, -, h3, -⟩ :=
    C20_atomic m res key _ _ _ y0 ts fwdYs sdeMean delta whichU h
  refine ⟨path, out, hpath, hys, hout, rfl, ?_⟩
  rw [h3, h1, ← Real.exp_add, sub_eq_add_neg]

omit [AddCommGroup V] [Module ℝ V] in
theorem pmcmcProposal_start [AddCommGroup V] [Module ℝ V] (y0 : V) (ts : Fin (K + 1) → ℝ)
    (fwdYs : Key → V → Rand (Fin (K + 1) → V)) (sdeMean : ℝ → ℝ → V → V) (delta : Option ℝ)
    (hf : ∀ k p, (fwdYs k y0).Returns p → p 0 = y0) (hmean : sdeMean (ts 0) (ts 0) y0 = y0)
    {ys p : Fin (K + 1) → V} {key : Key} (h0 : ys 0 = y0)
    (hp : (pmcmcProposal key ys y0 ts fwdYs sdeMean delta).Returns p) : p 0 = y0 := by
  cases delta with
  | none => exact hf _ _ hp
  | some d =>
    simp only [pmcmcProposal, pcnProposal, Rand.returns_bind, Rand.pure_eq, Rand.returns_ret] at hp
    obtain ⟨r0, hr0, r1, hr1, rfl⟩ := hp
    simp only [Pi.add_apply, Pi.smul_apply, Pi.sub_apply, hf _ _ hr0, hf _ _ hr1, hmean, h0, sub_self,
      smul_zero, add_zero]
    rw [← add_smul, add_sub_cancel, one_smul]

/-- **C69, after the first acceptance.**  From any start whose path begins at the observation, every state of the chain is
the start itself or is coherent: particle and estimate come from one filter run on the stored path. -/
theorem C69_coherent_once_accepted (m : Funs N U V) (res : Smc.Resampling N) (y0 : V) (ts : Fin (K + 1) → ℝ)
    (fwdYs : Key → V → Rand (Fin (K + 1) → V)) (sdeMean : ℝ → ℝ → V → V) (delta : Option ℝ) (whichU : Fin N)
    (hf : ∀ k p, (fwdYs k y0).Returns p → p 0 = y0) (hmean : sdeMean (ts 0) (ts 0) y0 = y0)
    {uT : U} {logEll : ℝ} {ys : Fin (K + 1) → V} (h0 : ys 0 = y0) {u : U} {l : ℝ} {y : Fin (K + 1) → V}
    (h : PmcmcHistory m res y0 ts fwdYs sdeMean delta whichU uT logEll ys u l y) :
    (u, l, y) = (uT, logEll, ys) ∨ Coherent m res y0 ts whichU u l y := by
  suffices h' : y 0 = y0 ∧ ((u, l, y) = (uT, logEll, ys) ∨ Coherent m res y0 ts whichU u l y) from h'.2
  induction h with
  | start => exact ⟨h0, Or.inl rfl⟩
  | step _ hk ih =>
    obtain ⟨propYs, u0s, uTs, propL, hp, hu, hfil, -, -, -, -, -, hcase, -⟩ :=
      C20_atomic m res _ _ _ _ y0 ts fwdYs sdeMean delta whichU hk
    rcases hcase with ⟨-, rfl, rfl, rfl⟩ | ⟨-, rfl, rfl, rfl⟩
    · have hstart := pmcmcProposal_start y0 ts fwdYs sdeMean delta hf hmean ih.1 hp
      exact ⟨hstart, Or.inr ⟨hstart, _, _, u0s, uTs, hu, hfil, rfl⟩⟩
    · exact ih

end Start

/-! ### Chains which do not leave their start -/

/-- `P` holds of the results of all branches of a program. -/
def AllOut {α : Type} (P : α → Prop) : Rand α → Prop
  | .ret a => P a
  | @Rand.draw _ _ _ _ _ _ g => ∀ b, AllOut P (g b)

theorem allOut_true {α : Type} : ∀ (p : Rand α), AllOut (fun _ => True) p
  | .ret _ => trivial
  | @Rand.draw _ _ _ _ _ _ g => fun b => allOut_true (g b)

theorem AllOut.bind {α β : Type} {P : α → Prop} {Q : β → Prop} {g : α → Rand β} : ∀ {p : Rand α}, AllOut P p →
    (∀ a, P a → AllOut Q (g a)) → AllOut Q (p >>= g)
  | .ret a, h, hg => hg a h
  | @Rand.draw _ _ _ _ _ _ _, h, hg => fun b => AllOut.bind (h b) hg

theorem AllOut.returns {α : Type} {P : α → Prop} : ∀ {p : Rand α}, AllOut P p → ∀ {a : α}, p.Returns a → P a
  | .ret _, h, _, ⟨_, hr⟩ => hr.2 ▸ h
  | @Rand.draw _ _ _ _ _ _ _, h, _, ⟨_, b, _, ks, _, hr⟩ => AllOut.returns (h b) ⟨ks, hr⟩

theorem le_E_of_all {α : Type} {P : α → Prop} {c : ℝ≥0∞} {f : α → ℝ≥0∞} : ∀ {p : Rand α}, p.IsProb → AllOut P p →
    (∀ a, P a → c ≤ f a) → c ≤ p.E f
  | .ret a, _, hP, h => h a hP
  | @Rand.draw _ _ _ _ _ μ g, hp, hP, h => by
    have := hp.1
    calc c = ∫⁻ _, c ∂μ := by simp
      _ ≤ ∫⁻ b, (g b).E f ∂μ := lintegral_mono fun b => le_E_of_all (hp.2 b) (hP b) h

theorem isProb_uniform' (k : Key) : (uniform k).IsProb := ⟨inferInstanceAs (IsProbabilityMeasure unifMeasure), fun _ => trivial⟩

section Stuck

variable {N K : ℕ} {U V : Type}

theorem logsumexp_le [NeZero N] {lw : Fin N → ℝ} {b : ℝ} (h : ∀ i, lw i ≤ b) : logsumexp lw ≤ Real.log N + b := by
  rw [logsumexp, Real.log_le_iff_le_exp (Finset.sum_pos (fun _ _ => Real.exp_pos _) Finset.univ_nonempty), Real.exp_add,
    Real.exp_log (by exact_mod_cast Nat.pos_of_ne_zero (NeZero.ne N))]
  calc _ ≤ ∑ _i : Fin N, Real.exp b := Finset.sum_le_sum fun i _ => Real.exp_le_exp.2 (h i)
    _ = _ := by simp

theorem le_logsumexp [NeZero N] {lw : Fin N → ℝ} {b : ℝ} (h : ∀ i, b ≤ lw i) : Real.log N + b ≤ logsumexp lw := by
  rw [logsumexp, Real.le_log_iff_exp_le (Finset.sum_pos (fun _ _ => Real.exp_pos _) Finset.univ_nonempty), Real.exp_add,
    Real.exp_log (by exact_mod_cast Nat.pos_of_ne_zero (NeZero.ne N))]
  calc _ = ∑ _i : Fin N, Real.exp b := by simp
    _ ≤ _ := Finset.sum_le_sum fun i _ => Real.exp_le_exp.2 (h i)

/-- A bound along a scan whose every step moves the second component of the carry by at most `b`. -/
theorem scan_le {σ ι ο : Type} {body : σ × ℝ → ι → Rand ((σ × ℝ) × ο)} {b : ℝ}
    (hb : ∀ s i, AllOut (fun r => r.1.2 ≤ s.2 + b) (body s i)) : ∀ (is : List ι) (s : σ × ℝ),
    AllOut (fun r => r.1.2 ≤ s.2 + is.length * b) (Rand.scan body s is)
  | [], s => by
    change s.2 ≤ s.2 + _
    simp
  | i :: is, s => (hb s i).bind fun a ha => (scan_le hb is a.1).bind fun rs hrs => by
    change rs.1.2 ≤ s.2 + _
    push_cast [List.length_cons]
    linarith

theorem le_scan {σ ι ο : Type} {body : σ × ℝ → ι → Rand ((σ × ℝ) × ο)} {b : ℝ}
    (hb : ∀ s i, AllOut (fun r => s.2 + b ≤ r.1.2) (body s i)) : ∀ (is : List ι) (s : σ × ℝ),
    AllOut (fun r => s.2 + is.length * b ≤ r.1.2) (Rand.scan body s is)
  | [], s => by
    change s.2 + _ ≤ s.2
    simp
  | i :: is, s => (hb s i).bind fun a ha => (le_scan hb is a.1).bind fun rs hrs => by
    change s.2 + _ ≤ rs.1.2
    push_cast [List.length_cons]
    linarith

theorem prob_ret {α : Type} (a : α) : (pure a : Rand α).IsProb := trivial

theorem prob_scan {σ ι ο : Type} {body : σ → ι → Rand (σ × ο)} (hb : ∀ s i, (body s i).IsProb) :
    ∀ (is : List ι) (s : σ), (Rand.scan body s is).IsProb
  | [], _ => trivial
  | i :: is, s => (hb s i).bind fun r => (prob_scan hb is r.1).bind fun _ => trivial

theorem splitAll_length' (k : Key) (n : ℕ) : (splitAll k n).length = n := by simp [splitAll]

theorem scanInputs_length (vs : Fin (K + 1) → V) (ts : Fin (K + 1) → ℝ) (k : Key) :
    (scanInputs (toArr1 vs) (toArr1 ts) (splitAll k K)).length = K := by
  simp [scanInputs, toArr1, Arr1.init, splitAll_length']

/-- All draws used by `pmcmc_kernel` are from probability measures. -/
structure ProbDraws (m : Funs N U V) (res : Smc.Resampling N) (fwdYs : Key → Rand (Fin (K + 1) → V)) : Prop where
  init : ∀ k v n, (m.initSampler k v n).IsProb
  trans : ∀ x v t k, (m.transSampler x v t k).IsProb
  res : ∀ w k, (res w k).IsProb
  fwd : ∀ k, (fwdYs k).IsProb

theorem pmcmcFilterStep_le [NeZero N] {m : Funs N U V} {res : Smc.Resampling N} {b : ℝ}
    (hl : ∀ v us v' t i, m.lik v us v' t i ≤ b) (key : Key) (vs : Fin (K + 1) → V) (u0s : Fin N → U)
    (ts : Fin (K + 1) → ℝ) :
    AllOut (fun r => r.2 ≤ K * b) (pmcmcFilterStep m res key (toArr1 vs) u0s (toArr1 ts)) := by
  refine (scan_le (b := b) (fun s inp => ?_) _ _).bind fun r hr => ?_
  · refine (allOut_true _).bind fun _ _ => (allOut_true _).bind fun _ _ => ?_
    have := logsumexp_le (fun j => hl inp.1 s.1 inp.2.1 inp.2.2.1 j)
    change s.2 - Real.log N + logsumexp (m.lik inp.1 s.1 inp.2.1 inp.2.2.1) ≤ s.2 + b
    linarith
  · have hlen : (scanInputs (toArr1 vs) (toArr1 ts) (splitAll key (toArr1 ts).2.length)).length = K := by
      simpa [toArr1] using scanInputs_length vs ts key
    rw [hlen] at hr
    change r.1.2 ≤ _
    simpa using hr

theorem le_pmcmcFilterStep [NeZero N] {m : Funs N U V} {res : Smc.Resampling N} {b : ℝ}
    (hl : ∀ v us v' t i, b ≤ m.lik v us v' t i) (key : Key) (vs : Fin (K + 1) → V) (u0s : Fin N → U)
    (ts : Fin (K + 1) → ℝ) :
    AllOut (fun r => K * b ≤ r.2) (pmcmcFilterStep m res key (toArr1 vs) u0s (toArr1 ts)) := by
  refine (le_scan (b := b) (fun s inp => ?_) _ _).bind fun r hr => ?_
  · refine (allOut_true _).bind fun _ _ => (allOut_true _).bind fun _ _ => ?_
    have := le_logsumexp (fun j => hl inp.1 s.1 inp.2.1 inp.2.2.1 j)
    change s.2 + b ≤ s.2 - Real.log N + logsumexp (m.lik inp.1 s.1 inp.2.1 inp.2.2.1)
    linarith
  · have hlen : (scanInputs (toArr1 vs) (toArr1 ts) (splitAll key (toArr1 ts).2.length)).length = K := by
      simpa [toArr1] using scanInputs_length vs ts key
    rw [hlen] at hr
    change _ ≤ r.1.2
    simpa using hr

theorem pmcmcEstimate_le [NeZero N] {m : Funs N U V} {res : Smc.Resampling N} {b : ℝ}
    (hl : ∀ v us v' t i, m.lik v us v' t i ≤ b) (key : Key) (p : Fin (K + 1) → V) (ts : Fin (K + 1) → ℝ) (i : Fin N) :
    AllOut (fun r => r.2 ≤ K * b) (pmcmcEstimate m res key p ts i) := by
  refine (allOut_true _).bind fun u0s _ => ?_
  exact (pmcmcFilterStep_le hl _ _ _ _).bind fun r hr => show AllOut _ (Rand.ret _) from hr

theorem bootstrapFilter_nell_ge [NeZero N] {m : Funs N U V} {res : Smc.Resampling N} {b : ℝ}
    (hl : ∀ v us v' t i, m.lik v us v' t i ≤ b) (key : Key) (p : Fin (K + 1) → V) (ts : Fin (K + 1) → ℝ) :
    AllOut (fun r => -(K * b) ≤ r.nell) (bootstrapFilter m res (toArr1 p) (toArr1 ts) key true true) := by
  refine (allOut_true _).bind fun u0s _ => ?_
  refine (le_scan (b := -b) (fun s inp => ?_) _ _).bind fun r hr => ?_
  · refine (allOut_true _).bind fun _ _ => (allOut_true _).bind fun _ _ => ?_
    have := logsumexp_le (fun j => hl inp.1 s.1 inp.2.1 inp.2.2.1 j)
    change s.2 + -b ≤ s.2 - (logsumexp (m.lik inp.1 s.1 inp.2.1 inp.2.2.1) - Real.log N)
    linarith
  · have hlen : (scanInputs (toArr1 p) (toArr1 ts) (splitAll (split key 2 1) (toArr1 p).2.length)).length = K := by
      simpa [toArr1] using scanInputs_length p ts (split key 2 1)
    rw [hlen] at hr
    change _ ≤ r.1.2
    simpa using hr

theorem bootstrapFilter_nell_le [NeZero N] {m : Funs N U V} {res : Smc.Resampling N} {b : ℝ}
    (hl : ∀ v us v' t i, b ≤ m.lik v us v' t i) (key : Key) (p : Fin (K + 1) → V) (ts : Fin (K + 1) → ℝ) :
    AllOut (fun r => r.nell ≤ -(K * b)) (bootstrapFilter m res (toArr1 p) (toArr1 ts) key true true) := by
  refine (allOut_true _).bind fun u0s _ => ?_
  refine (scan_le (b := -b) (fun s inp => ?_) _ _).bind fun r hr => ?_
  · refine (allOut_true _).bind fun _ _ => (allOut_true _).bind fun _ _ => ?_
    have := le_logsumexp (fun j => hl inp.1 s.1 inp.2.1 inp.2.2.1 j)
    change s.2 - (logsumexp (m.lik inp.1 s.1 inp.2.1 inp.2.2.1) - Real.log N) ≤ s.2 + -b
    linarith
  · have hlen : (scanInputs (toArr1 p) (toArr1 ts) (splitAll (split key 2 1) (toArr1 p).2.length)).length = K := by
      simpa [toArr1] using scanInputs_length p ts (split key 2 1)
    rw [hlen] at hr
    change r.1.2 ≤ _
    simpa using hr

/-- **C69, the start is not a state of the chain.**  If all log-likelihoods are negative, or all are positive, the start of
`gp_pmcmc.py` is never coherent: no run of the filter, on any path, with any keys, gives its `log_ell`. -/
theorem C69_gp_start_incoherent [NeZero N] {m : Funs N U V} {res : Smc.Resampling N} {c : ℝ} (hc : 0 < c) (hK : 0 < K)
    (hl : (∀ v us v' t i, m.lik v us v' t i ≤ -c) ∨ ∀ v us v' t i, c ≤ m.lik v us v' t i)
    (fwdYs : Key → Rand (Fin (K + 1) → V)) (ts : Fin (K + 1) → ℝ) (key : Key) {s : U × ℝ × (Fin (K + 1) → V)}
    (hs : (pmcmcInit m fwdYs ts key).Returns s) (y0 : V) (whichU : Fin N) (u : U) (ys : Fin (K + 1) → V) :
    ¬ Coherent m res y0 ts whichU u s.2.1 ys := by
  rintro ⟨-, k, k', u0s, uTs, -, hfil, -⟩
  simp only [pmcmcInit, Rand.returns_bind] at hs
  obtain ⟨path, -, out, hout, _, -, hs⟩ := hs
  rw [Rand.pure_eq, Rand.returns_ret] at hs
  subst hs
  have hKc : 0 < K * c := mul_pos (by exact_mod_cast hK) hc
  rcases hl with hl | hl
  · have h1 := (pmcmcFilterStep_le hl k' (fun i => ys (Fin.rev i)) u0s ts).returns hfil
    have h2 := (bootstrapFilter_nell_ge hl _ _ ts).returns hout
    simp only [mul_neg, neg_neg] at h1 h2
    linarith
  · have h1 := (le_pmcmcFilterStep hl k' (fun i => ys (Fin.rev i)) u0s ts).returns hfil
    have h2 := (bootstrapFilter_nell_le hl _ _ ts).returns hout
    simp only at h1 h2
    linarith

theorem prob_pmcmcEstimate {m : Funs N U V} {res : Smc.Resampling N} {fwdYs : Key → Rand (Fin (K + 1) → V)}
    (hd : ProbDraws m res fwdYs) (key : Key) (p : Fin (K + 1) → V) (ts : Fin (K + 1) → ℝ) (i : Fin N) :
    (pmcmcEstimate m res key p ts i).IsProb :=
  (hd.init _ _ _).bind fun _ => ((prob_scan (fun _ _ => (hd.res _ _).bind fun _ => (hd.trans _ _ _ _).bind fun _ =>
    prob_ret _) _ _).bind fun _ => prob_ret _).bind fun _ => prob_ret _

theorem E_reject_ge (k : Key) {d : ℝ} (hd : d ≤ 0) :
    ENNReal.ofReal (1 - Real.exp d) ≤ (uniform k).E fun z => if accepts z (min 0 d) then 0 else 1 := by
  rw [uniform, Rand.E_sample, unifMeasure, min_eq_right hd]
  have h : ∀ z ∈ Set.Ico (0 : ℝ) 1, (Set.Ici (Real.exp d)).indicator 1 z
      ≤ (if accepts z d = true then (0 : ℝ≥0∞) else 1) := by
    intro z hz
    by_cases hz' : z ∈ Set.Ici (Real.exp d)
    · have hpos : 0 < z := (Real.exp_pos d).trans_le hz'
      have : accepts z d = false := by
        simp only [accepts, decide_eq_false_iff_not, not_or, not_lt]
        exact ⟨hpos.ne', (Real.le_log_iff_exp_le hpos).2 hz'⟩
      simp [this, hz']
    · simp [hz']
  refine le_trans (le_of_eq ?_) (setLIntegral_mono' measurableSet_Ico h)
  rw [lintegral_indicator_one measurableSet_Ici, Measure.restrict_apply measurableSet_Ici]
  have h2 : Set.Ici (Real.exp d) ∩ Set.Ico 0 1 = Set.Ico (Real.exp d) 1 := by
    ext z
    simp only [Set.mem_inter_iff, Set.mem_Ici, Set.mem_Ico]
    exact ⟨fun h => ⟨h.1, h.2.2⟩, fun h => ⟨h.1, (Real.exp_pos d).le.trans h.1, h.2⟩⟩
  rw [h2, Real.volume_Ico]

theorem prob_stratified [NeZero N] (w : Fin N → ℝ) (k : Key) : (Resampling.stratified w k).IsProb :=
  ⟨inferInstanceAs (IsProbabilityMeasure (Measure.pi fun _ => unifMeasure)), fun _ => trivial⟩

variable [AddCommGroup V] [Module ℝ V]

theorem prob_pmcmcProposal {m : Funs N U V} {res : Smc.Resampling N} {y0 : V} {ts : Fin (K + 1) → ℝ}
    {fwdYs : Key → V → Rand (Fin (K + 1) → V)} (hd : ProbDraws m res fun k => fwdYs k y0) (sdeMean : ℝ → ℝ → V → V)
    (delta : Option ℝ) (key : Key) (ys : Fin (K + 1) → V) :
    (pmcmcProposal key ys y0 ts fwdYs sdeMean delta).IsProb := by
  cases delta with
  | none => exact hd.fwd _
  | some d => exact (hd.fwd _).bind fun _ => (hd.fwd _).bind fun _ => trivial

open scoped Classical in
/-- **C69, chains which do not leave their start.**  If the log-likelihoods of a step are at most `b`, then after any number
of calls the chain is still at a start with `log_ell = l ≥ K * b` with probability at least `(1 - exp (K * b - l)) ^ n`. -/
theorem C69_stuck [NeZero N] {m : Funs N U V} {res : Smc.Resampling N} {y0 : V} {ts : Fin (K + 1) → ℝ}
    {fwdYs : Key → V → Rand (Fin (K + 1) → V)} (hd : ProbDraws m res fun k => fwdYs k y0) (sdeMean : ℝ → ℝ → V → V)
    (delta : Option ℝ) (whichU : Fin N) {b : ℝ} (hl : ∀ v us v' t i, m.lik v us v' t i ≤ b)
    (s : U × ℝ × (Fin (K + 1) → V)) (hs : K * b ≤ s.2.1) : ∀ ks : List Key,
    ENNReal.ofReal (1 - Real.exp (K * b - s.2.1)) ^ ks.length
      ≤ (iterKernel (pmcmcNext m res y0 ts fwdYs sdeMean delta whichU) ks s).E fun s' => if s' = s then 1 else 0
  | [] => by simp [iterKernel]
  | k :: ks => by
    have ih := C69_stuck (ts := ts) hd sdeMean delta whichU hl s hs ks
    set ρ := ENNReal.ofReal (1 - Real.exp (K * b - s.2.1)) with hρ
    rw [iterKernel, Rand.E_bind, List.length_cons, pow_succ]
    have hstep : ρ ≤ (pmcmcNext m res y0 ts fwdYs sdeMean delta whichU k s).E fun s' => if s' = s then 1 else 0 := by
      simp only [pmcmcNext, pmcmcKernel, Rand.E_map, Rand.E_bind, Rand.pure_eq, Rand.E_ret]
      refine le_E_of_all (prob_pmcmcProposal hd sdeMean delta k _) (allOut_true _) fun p _ => ?_
      refine le_E_of_all (prob_pmcmcEstimate hd k p ts whichU) (pmcmcEstimate_le hl k p ts whichU) fun r h1 => ?_
      refine le_trans ?_ (le_trans (E_reject_ge (split k 4 3) (d := r.2 - s.2.1) (by linarith)) (Rand.E_mono _ fun z => ?_))
      · exact ENNReal.ofReal_le_ofReal (by gcongr)
      · by_cases hz : accepts z (min 0 (r.2 - s.2.1)) = true <;> simp [hz]
    calc ρ ^ ks.length * ρ ≤ ρ ^ ks.length * _ := mul_le_mul_right hstep _
      _ = (pmcmcNext m res y0 ts fwdYs sdeMean delta whichU k s).E fun s' => ρ ^ ks.length * (if s' = s then 1 else 0) := by
        rw [Rand.E_const_mul _ (ENNReal.pow_ne_top ENNReal.ofReal_ne_top)]
      _ ≤ _ := Rand.E_mono _ fun s' => by
        by_cases h : s' = s
        · subst h; simpa using ih
        · simp [h]

open scoped Classical in
/-- **C69, image experiments.**  The chains of the image experiments start at the zero image with `log_ell = 0`.  If the
log-likelihoods of a step are at most `-c`, all `n` samples of the chain are that image with probability at least
`(1 - exp (-K c)) ^ n`. -/
theorem C69_image_stuck [NeZero N] [Zero U] {m : Funs N U V} {res : Smc.Resampling N} {y0 : V} {ts : Fin (K + 1) → ℝ}
    {fwdYs : Key → V → Rand (Fin (K + 1) → V)} (hd : ProbDraws m res fun k => fwdYs k y0) (sdeMean : ℝ → ℝ → V → V)
    (delta : Option ℝ) (whichU : Fin N) {c : ℝ} (hc : 0 ≤ c) (hl : ∀ v us v' t i, m.lik v us v' t i ≤ -c) (key : Key)
    (ks : List Key) :
    ENNReal.ofReal (1 - Real.exp (-(K * c))) ^ ks.length
      ≤ (imgPmcmcInit (fun k => fwdYs k y0) key >>=
          iterKernel (pmcmcNext m res y0 ts fwdYs sdeMean delta whichU) ks).E fun s => if s.1 = 0 then 1 else 0 := by
  simp only [imgPmcmcInit, Rand.E_bind, Rand.pure_eq, Rand.E_ret]
  refine le_E_of_all (hd.fwd _) (allOut_true _) fun ys _ => ?_
  have h := C69_stuck (ts := ts) hd sdeMean delta whichU hl ((0 : U), (0 : ℝ), ys)
    (by simp only; nlinarith [mul_nonneg (Nat.cast_nonneg (α := ℝ) K) hc]) ks
  simp only [mul_neg, sub_zero] at h
  refine h.trans (Rand.E_mono _ fun s => ?_)
  by_cases hs : s = (0, 0, ys) <;> simp [hs]

open scoped Classical in
/-- **C69, the chain of `gp_pmcmc.py`.**  Since the sign of the stored value is wrong, unlikely data make the start look
likely: if the log-likelihoods of a step are at most `-c`, the chain is still at its start after `n` calls with probability
at least `(1 - exp (-2 K c)) ^ n`. -/
theorem C69_gp_stuck [NeZero N] {m : Funs N U V} {res : Smc.Resampling N} {y0 : V} {ts : Fin (K + 1) → ℝ}
    {fwdYs : Key → V → Rand (Fin (K + 1) → V)} (hd : ProbDraws m res fun k => fwdYs k y0)
    (sdeMean : ℝ → ℝ → V → V)
    (delta : Option ℝ) (whichU : Fin N) {c : ℝ} (hc : 0 ≤ c) (hl : ∀ v us v' t i, m.lik v us v' t i ≤ -c) (key : Key)
    (ks : List Key) :
    ENNReal.ofReal (1 - Real.exp (-(2 * K * c))) ^ ks.length
      ≤ (pmcmcInit m (fun k => fwdYs k y0) ts key >>= fun s => (fun s' => (s, s')) <$>
          iterKernel (pmcmcNext m res y0 ts fwdYs sdeMean delta whichU) ks s).E fun p => if p.2 = p.1 then 1 else 0 := by
  simp only [pmcmcInit, Rand.E_bind, Rand.pure_eq, Rand.E_ret, Rand.E_map]
  refine le_E_of_all (hd.fwd _) (allOut_true _) fun p _ => ?_
  have hp : (bootstrapFilter m Resampling.stratified (toArr1 fun i => p (Fin.rev i)) (toArr1 ts) (split key 4 2) true
      true).IsProb :=
    (hd.init _ _ _).bind fun _ => (prob_scan (fun _ _ => (hd.trans _ _ _ _).bind fun _ => (prob_stratified _ _).bind fun _ =>
      prob_ret _) _ _).bind fun _ => prob_ret _
  refine le_E_of_all hp (bootstrapFilter_nell_ge hl _ _ ts) fun out hout => ?_
  refine le_E_of_all (hd.fwd _) (allOut_true _) fun ys _ => ?_
  simp only [mul_neg, neg_neg] at hout
  have hKc := mul_nonneg (Nat.cast_nonneg (α := ℝ) K) hc
  refine le_trans ?_ (C69_stuck (ts := ts) hd sdeMean delta whichU hl (out.final 0, out.nell, ys)
    (by simp only [mul_neg]; linarith) ks)
  gcongr
  simp only [mul_neg]
  linarith

end Stuck

/-! ### The hypotheses can be met -/

/-- Three particles moved by uniform numbers, unlikely data. -/
noncomputable def coldSmc : Funs 3 ℝ ℝ where
  initSampler k _ _ := uniforms k 3
  transSampler x _ _ k := (fun u i => x i + u i) <$> uniforms k 3
  lik v x _ _ i := -5 - (v - x i) ^ 2

/-- A forward path of ten rows starting at `y0`. -/
noncomputable def tenFwd (k : Key) (y0 : ℝ) : Rand (Fin 10 → ℝ) := (fun u i => y0 + i * u) <$> uniform k

theorem coldSmc_le (v : ℝ) (us : Fin 3 → ℝ) (v' t : ℝ) (i : Fin 3) : coldSmc.lik v us v' t i ≤ -5 := by
  simp only [coldSmc]
  nlinarith [sq_nonneg (v - us i)]

theorem coldSmc_draws (y0 : ℝ) : ProbDraws coldSmc Resampling.stratified fun k => tenFwd k y0 where
  init _ _ _ := ⟨inferInstanceAs (IsProbabilityMeasure (Measure.pi fun _ => unifMeasure)), fun _ => trivial⟩
  trans _ _ _ _ := ⟨inferInstanceAs (IsProbabilityMeasure (Measure.pi fun _ => unifMeasure)), fun _ => trivial⟩
  res := prob_stratified
  fwd _ := ⟨inferInstanceAs (IsProbabilityMeasure unifMeasure), fun _ => trivial⟩

open scoped Classical in
/-- Nine steps, log-likelihoods at most -5: after a thousand calls the image is still zero with probability at least
`(1 - e⁻⁴⁵)¹⁰⁰⁰`. -/
example (y0 : ℝ) (ts : Fin 10 → ℝ) (key : Key) (ks : List Key) (hks : ks.length = 1000) :
    ENNReal.ofReal (1 - Real.exp (-45)) ^ 1000 ≤ (imgPmcmcInit (fun k => tenFwd k y0) key >>=
      iterKernel (pmcmcNext coldSmc Resampling.stratified y0 ts tenFwd (fun _ _ y => y) none 0) ks).E
        fun s => if s.1 = 0 then 1 else 0 := by
  have h := C69_image_stuck (ts := ts) (coldSmc_draws y0) (fun _ _ y => y) none 0 (by norm_num) coldSmc_le key ks
  rw [hks] at h
  norm_num at h ⊢
  exact h

/-- The same for the Gaussian process experiment, with the exponent doubled. -/
example (y0 : ℝ) (ts : Fin 10 → ℝ) (key : Key) : ENNReal.ofReal (1 - Real.exp (-90)) ≤
    (pmcmcInit coldSmc (fun k => tenFwd k y0) ts key >>= fun s => (fun s' => (s, s')) <$>
      iterKernel (pmcmcNext coldSmc Resampling.stratified y0 ts tenFwd (fun _ _ y => y) none 0) [key] s).E
        (open scoped Classical in fun p => if p.2 = p.1 then 1 else 0) := by
  have h := C69_gp_stuck (ts := ts) (coldSmc_draws y0) (fun _ _ y => y) none 0 (by norm_num) coldSmc_le key [key]
  norm_num at h ⊢
  exact h

example (y0 u : ℝ) (ts ys : Fin 10 → ℝ) (key : Key) {s : ℝ × ℝ × (Fin 10 → ℝ)}
    (hs : (pmcmcInit coldSmc (fun k => tenFwd k y0) ts key).Returns s) :
    ¬ Coherent coldSmc Resampling.stratified y0 ts 0 u s.2.1 ys :=
  C69_gp_start_incoherent (by norm_num) (by norm_num) (Or.inl coldSmc_le) _ ts key hs y0 0 u ys

/-- From the start of the image experiments every later state is the start or coherent. -/
example (u l : ℝ) (ts y : Fin 10 → ℝ) (h : PmcmcHistory coldSmc Resampling.stratified 2 ts tenFwd (fun _ _ y => y) (some 1) 0
    0 0 (fun _ => 2) u l y) : (u, l, y) = (0, 0, fun _ => 2) ∨ Coherent coldSmc Resampling.stratified 2 ts 0 u l y :=
  C69_coherent_once_accepted coldSmc _ 2 ts tenFwd _ (some 1) 0 (fun k p hp => by
    rw [tenFwd, Rand.returns_map] at hp
    obtain ⟨u, -, rfl⟩ := hp
    simp) rfl rfl h

example (y0 : ℝ) (ts : Fin 10 → ℝ) (key : Key) :
    (pmcmcInit (smcFuns tiltSpace 4) (fun k => tenFwd k y0) ts key).E (fun s => ENNReal.ofReal (Real.exp (-s.2.1)))
      = (tenFwd (split key 4 0) y0).E fun ys => tiltSpace.filterInt (toArr1 fun i => ys (Fin.rev i)) (toArr1 ts)
          fun _ => 1 :=
  C69_gp_start_sign (S := fun _ => tiltSpace) (fun v => implements_smcFuns tiltSpace 4 v) (fun k => tenFwd k y0)
    (fun _ => ⟨inferInstanceAs (IsProbabilityMeasure unifMeasure), fun _ => trivial⟩) ts key

/-- The event that the path ends above one is independent of the event that the particle is heads. -/
example (y0 : ℝ) (ts : Fin 10 → ℝ) (key : Key) :
    (pmcmcInit (smcFuns tiltSpace 4) (fun k => tenFwd k y0) ts key).E
        (open scoped Classical in fun s => (if 1 < s.2.2 9 then 1 else 0) * if s.1 then 1 else 0)
      = (tenFwd (split key 4 3) y0).E (open scoped Classical in fun ys => if 1 < ys 9 then 1 else 0)
        * (pmcmcInit (smcFuns tiltSpace 4) (fun k => tenFwd k y0) ts key).E fun s => if s.1 then 1 else 0 := by
  classical
  exact C69_gp_start_independent (smcFuns tiltSpace 4) (fun k => tenFwd k y0) ts key
    (f := fun u _ => if u then 1 else 0) (g := fun ys => if 1 < ys 9 then 1 else 0)
    (fun u _ => by cases u <;> simp) (fun ys => by split_ifs <;> simp)
    (fun _ => ⟨inferInstanceAs (IsProbabilityMeasure unifMeasure), fun _ => trivial⟩)

end Props
end Fbs
