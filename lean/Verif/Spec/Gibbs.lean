import Verif.Spec.Paths
import Verif.Model.Gibbs

/-!
# When the forward noising law factorises backwards

The hypothesis under which the Gibbs sampler is exact.
-/

open MeasureTheory ProbabilityTheory
open scoped ENNReal

namespace Fbs
namespace Spec

variable {U V Z : Type} [MeasurableSpace U] [MeasurableSpace V] {N : ℕ}

/-- Transition law and likelihood depend measurably on the observations as well. -/
def StateSpace.JointMeas (S : StateSpace U V) : Prop :=
  (∀ t, Measurable fun p : V × U => S.trans p.1 t p.2) ∧
    ∀ t, Measurable fun p : V × V × U => S.logG p.1 p.2.1 t p.2.2

/-- Average over `k` independent uniform indices in `0..N-1`. -/
noncomputable def avgIdx (N : ℕ) : ℕ → (List (Fin N) → ℝ≥0∞) → ℝ≥0∞
  | 0, f => f []
  | k + 1, f => (N : ℝ≥0∞)⁻¹ * ∑ b : Fin N, avgIdx N k fun l => f (b :: l)

/-- The same for the non-empty arrays of `K + 1` indices handled by the samplers. -/
noncomputable def avgBs (N K : ℕ) (f : Arr1 (Fin N) → ℝ≥0∞) : ℝ≥0∞ :=
  (N : ℝ≥0∞)⁻¹ * ∑ b : Fin N, avgIdx N K fun l => f (b, l)

/-- The array with the given rows. -/
def arr {α : Type} {K : ℕ} (p : Fin (K + 1) → α) : Arr1 α := (p 0, List.ofFn fun j : Fin K => p j.succ)

/-- A test function of two paths is measurable on paths with `K + 1` rows. -/
def MeasPaths (K : ℕ) (φ : Arr1 U → Arr1 V → ℝ≥0∞) : Prop :=
  Measurable fun q : (Fin (K + 1) → U) × (Fin (K + 1) → V) => φ (arr q.1) (arr q.2)

/-- The functions handed to the Gibbs sampler are exact for the conditional law `π0` of `x0` given `y0`:

* transition sampler and likelihood are those of the model `S`, particle by particle;
* the forward sampler started at `x` returns a path that starts at `x`;
* with `x0 ~ π0` the reversed path `u_0, v_0, ..., u_K, v_K` of the forward sampler has a law of the form
  `Λ(du_0, dv) Π_k exp(logG(v_k | u_{k-1}, v_{k-1})) M(du_k | u_{k-1}, v_{k-1})`. -/
structure BackwardExact (m : Gibbs.Funs N U V Z) (S : StateSpace U V) (π0 : Measure U) (y0 : V)
    (ts : Arr1 ℝ) (K : ℕ) : Prop where
  trans : ∀ xs v t k (F : (Fin N → U) → ℝ≥0∞), Measurable F →
    (m.transSampler xs v t k).E F = ∫⁻ x, F x ∂(Measure.pi fun i => S.trans v t (xs i))
  lik : ∀ v xs v' t i, m.lik v xs v' t i = S.logG v v' t (xs i)
  starts : ∀ key x (F : U → ℝ≥0∞), Measurable F →
    (m.fwd key x y0).E (fun p => F (m.unpack p).1.1) = F x
  factor : ∃ Λ : Measure (U × (Fin (K + 1) → V)), ∀ key φ, MeasPaths K φ →
    ∫⁻ x, (m.fwd key x y0).E (fun p => φ (m.unpack p).1.reverse (m.unpack p).2.reverse) ∂π0
      = ∫⁻ q, pathInt (S.steps (arr q.2).1 (arr q.2).2 ts.toList) q.1 (fun l => φ (q.1, l) (arr q.2)) ∂Λ

/-- The same when the sampler is initialised from a reference law `ν` (`explicit_final=True`): in addition the
initial sampler draws independent particles from `ν`, and the law of the reversed path is
`Λ(dv) exp(w(v, u_0)) ν(du_0) Π_k exp(logG(v_k | u_{k-1}, v_{k-1})) M(du_k | u_{k-1}, v_{k-1})`.
With `w = 0` the terminal state `u_0` is independent of the terminal observation and has law `ν`. -/
structure ReferenceExact (m : Gibbs.Funs N U V Z) (S : StateSpace U V) (ν π0 : Measure U) (y0 : V)
    (ts : Arr1 ℝ) (K : ℕ) (w : (Fin (K + 1) → V) → U → ℝ) : Prop where
  trans : ∀ xs v t k (F : (Fin N → U) → ℝ≥0∞), Measurable F →
    (m.transSampler xs v t k).E F = ∫⁻ x, F x ∂(Measure.pi fun i => S.trans v t (xs i))
  lik : ∀ v xs v' t i, m.lik v xs v' t i = S.logG v v' t (xs i)
  normal : ∀ k n (F : (Fin N → U) → ℝ≥0∞), Measurable F →
    (m.normal k n).E F = ∫⁻ x, F x ∂(Measure.pi fun _ => ν)
  starts : ∀ key x (F : U → ℝ≥0∞), Measurable F →
    (m.fwd key x y0).E (fun p => F (m.unpack p).1.1) = F x
  factor : ∃ Λ : Measure (Fin (K + 1) → V), ∀ key φ, MeasPaths K φ →
    ∫⁻ x, (m.fwd key x y0).E (fun p => φ (m.unpack p).1.reverse (m.unpack p).2.reverse) ∂π0
      = ∫⁻ v, ∫⁻ u, ENNReal.ofReal (Real.exp (w v u)) *
          pathInt (S.steps (arr v).1 (arr v).2 ts.toList) u (fun l => φ (u, l) (arr v)) ∂ν ∂Λ

end Spec
end Fbs
