import Verif.Props.Smoother
import Verif.Lemmas.Law

/-!
# C55: the law of the backward particle smoother
-/

open MeasureTheory
open scoped ENNReal

namespace Fbs
namespace Spec

variable {N : ℕ} {U V : Type}

/-- Backward simulation from the state `u`: the earlier states (latest first) are chosen among the particles of their
time with probabilities proportional to the transition density to the state chosen after them. -/
noncomputable def backSim (logM : U → U → V → ℝ → ℝ) : U → List ((Fin N → U) × V × ℝ) → (List U → ℝ≥0∞) → ℝ≥0∞
  | _, [], φ => φ []
  | u, (xs, v, t) :: l, φ => ∑ i, ENNReal.ofReal (Real.exp (logM u (xs i) v t) / ∑ j, Real.exp (logM u (xs j) v t)) *
      backSim logM (xs i) l (fun us => φ (xs i :: us))

end Spec

namespace Props

open Jax Rand Spec

variable {N : ℕ} {U V : Type}

theorem cat_softmax [NeZero N] (lw : Fin N → ℝ) (i : Fin N) :
    cat (fun i => Real.exp (lw i - logsumexp lw)) i = ENNReal.ofReal (Real.exp (lw i) / ∑ j, Real.exp (lw j)) := by
  have hpos : 0 < ∑ j, Real.exp (lw j) := Finset.sum_pos (fun j _ => Real.exp_pos _) ⟨0, Finset.mem_univ _⟩
  have e : ∀ i, Real.exp (lw i - logsumexp lw) = Real.exp (lw i) / ∑ j, Real.exp (lw j) := fun i => by
    rw [Real.exp_sub, logsumexp, Real.exp_log hpos]
  have ht : total (fun i => Real.exp (lw i - logsumexp lw)) = 1 := by
    show ∑ i, Real.exp (lw i - logsumexp lw) = 1
    simp only [e]
    rw [← Finset.sum_div, div_self hpos.ne']
  rw [cat, ht, div_one, e]

theorem E_smootherBody [NeZero N] (tl : U → (Fin N → U) → V → ℝ → (Fin N → ℝ)) (u : U) (xs : Fin N → U) (v : V) (t : ℝ)
    (key : Key) (f : U × U → ℝ≥0∞) : (Smc.smootherBody tl u (xs, v, t, key)).E f =
      ∑ i, ENNReal.ofReal (Real.exp (tl u xs v t i) / ∑ j, Real.exp (tl u xs v t j)) * f (xs i, xs i) := by
  simp only [Smc.smootherBody, Rand.E_bind, Rand.pure_eq, Rand.E_ret]
  have hT : 0 < total fun i => Real.exp (tl u xs v t i - logsumexp (tl u xs v t)) :=
    Finset.sum_pos (fun j _ => Real.exp_pos _) ⟨0, Finset.mem_univ _⟩
  rw [E_choice (fun i => (Real.exp_pos _).le) hT]
  simp only [cat_softmax]

theorem E_smoother_scan [NeZero N] (logM : U → U → V → ℝ → ℝ) : ∀ (l : List ((Fin N → U) × V × ℝ)) (keys : List Key)
    (u : U) (φ : List U → ℝ≥0∞), l.length = keys.length →
    (Rand.scan (Smc.smootherBody fun u xs v t i => logM u (xs i) v t) u
      ((l.zip keys).map fun p => (p.1.1, p.1.2.1, p.1.2.2, p.2))).E (fun r => φ r.2) = backSim logM u l φ
  | [], [], u, φ, _ => by simp [Rand.scan, backSim]
  | (xs, v, t) :: l, k :: keys, u, φ, hl => by
    simp only [List.zip_cons_cons, List.map_cons, Rand.scan, Rand.E_bind, Rand.pure_eq, Rand.E_ret, E_smootherBody,
      backSim]
    refine Finset.sum_congr rfl fun i _ => ?_
    rw [← E_smoother_scan logM l keys (xs i) (fun us => φ (xs i :: us)) (by simpa using hl)]

theorem zip_four {α β γ δ : Type} : ∀ (a : List α) (b : List β) (c : List γ) (d : List δ),
    a.zip (b.zip (c.zip d)) = ((a.zip (b.zip c)).zip d).map fun p => (p.1.1, p.1.2.1, p.1.2.2, p.2)
  | [], _, _, _ => by simp
  | _ :: _, [], _, _ => by simp
  | _ :: _, _ :: _, [], _ => by simp
  | _ :: _, _ :: _, _ :: _, [] => by simp
  | _ :: a, _ :: b, _ :: c, _ :: d => by simp [zip_four a b c d]

/-- **C55.**  Given the filter particles, the smoother draws the last state uniformly among the particles of the last
time, then goes back in time, choosing the state at time `k` among the particles of time `k` with probability
proportional to the transition density (with the measurement and time of step `k`) to the state chosen at `k + 1`; the
returned path is in the order of time. -/
theorem C55_law [NeZero N] (key : Key) (xss : Arr1 (Fin N → U)) (vs : Arr1 V) (ts : Arr1 ℝ)
    (hv : vs.2.length = xss.2.length) (ht : ts.2.length = xss.2.length) (logM : U → U → V → ℝ → ℝ)
    (f : List U → ℝ≥0∞) :
    (Smc.backwardSmoother key xss vs ts fun u xs v t i => logM u (xs i) v t).E f =
      (N : ℝ≥0∞)⁻¹ * ∑ i, backSim logM (xss.toList.getLast (by simp [Arr1.toList]) i)
        (xss.toList.dropLast.zip (vs.toList.dropLast.zip ts.toList.dropLast)).reverse
        (fun us => f (us.reverse ++ [xss.toList.getLast (by simp [Arr1.toList]) i])) := by
  have hlx : xss.toList.dropLast.length = xss.2.length := by simp [Arr1.toList]
  have hlv : vs.toList.dropLast.length = xss.2.length := by simp [Arr1.toList, hv]
  have hlt : ts.toList.dropLast.length = xss.2.length := by simp [Arr1.toList, ht]
  have hrev : (xss.toList.dropLast.zip (vs.toList.dropLast.zip ts.toList.dropLast)).reverse =
      xss.revInit.zip (vs.revInit.zip ts.revInit) := by
    unfold Arr1.revInit Arr1.init List.zip
    rw [← List.reverse_zipWith, ← List.reverse_zipWith]
    · rfl
    all_goals simp_all [Arr1.toList]
  have hlast : xss.last = xss.toList.getLast (by simp [Arr1.toList]) := rfl
  simp only [Smc.backwardSmoother, Rand.E_bind, Rand.pure_eq, Rand.E_ret, randint, Rand.E_sample]
  rw [lintegral_smul_measure, lintegral_count, tsum_fintype, smul_eq_mul]
  refine congrArg _ (Finset.sum_congr rfl fun i _ => ?_)
  rw [zip_four, hrev, E_smoother_scan logM _ _ _ (fun us => f (us.reverse ++ [xss.last i])) (by
    simp [Arr1.revInit, Arr1.init, splitAll, hv, ht])]
  rfl

/-- The probabilities of each backward step add up to one. -/
theorem C55_total [NeZero N] (logM : U → U → V → ℝ → ℝ) : ∀ (l : List ((Fin N → U) × V × ℝ)) (u : U) (c : ℝ≥0∞),
    backSim logM u l (fun _ => c) = c
  | [], _, _ => rfl
  | (xs, v, t) :: l, u, c => by
    have hpos : 0 < ∑ j, Real.exp (logM u (xs j) v t) :=
      Finset.sum_pos (fun j _ => Real.exp_pos _) ⟨0, Finset.mem_univ _⟩
    simp only [backSim, C55_total logM l]
    rw [← Finset.sum_mul, ← ENNReal.ofReal_sum_of_nonneg fun i _ => by positivity, ← Finset.sum_div,
      div_self hpos.ne', ENNReal.ofReal_one, one_mul]

/-- Two particles, one step, transition density `exp (-(u - x)^2 / 2)`: from the particles `0, 1` at both times, the
path `(1, 0)` has probability `e^{-1/2} / (2 (1 + e^{-1/2}))`. -/
example (f : List ℝ → ℝ≥0∞) :
    (Smc.backwardSmoother (N := 2) (V := ℝ) [] ((fun i => i : Fin 2 → ℝ), [fun i => i]) (0, [0]) (0, [1])
      fun u xs _ _ i => -(u - xs i) ^ 2 / 2).E f =
      2⁻¹ * (ENNReal.ofReal (1 / (1 + Real.exp (-1 / 2))) * f [0, 0]
        + ENNReal.ofReal (Real.exp (-1 / 2) / (1 + Real.exp (-1 / 2))) * f [1, 0]
        + (ENNReal.ofReal (Real.exp (-1 / 2) / (Real.exp (-1 / 2) + 1)) * f [0, 1]
        + ENNReal.ofReal (1 / (Real.exp (-1 / 2) + 1)) * f [1, 1])) := by
  have h := C55_law (N := 2) (U := ℝ) (V := ℝ) [] ((fun i => i : Fin 2 → ℝ), [fun i => i]) (0, [0]) (0, [1]) rfl rfl
    (fun u x _ _ => -(u - x) ^ 2 / 2) f
  rw [h]
  simp [Arr1.toList, backSim, Fin.sum_univ_two]

end Props
end Fbs
