import Verif.Model.Csmc
import Verif.Spec.Resampling

/-! Helper lemmas about the CSMC model. -/

namespace Fbs
namespace Csmc

open Jax Spec

variable {N : ℕ} {U V : Type}

theorem sum_exp_pos [NeZero N] (lw : Fin N → ℝ) : 0 < ∑ i, Real.exp (lw i) :=
  Finset.sum_pos (fun _ _ => Real.exp_pos _) ⟨0, Finset.mem_univ _⟩

theorem normalise_eq [NeZero N] (lw : Fin N → ℝ) (i : Fin N) :
    normalise lw i = Real.exp (lw i) / ∑ j, Real.exp (lw j) := by
  unfold normalise normaliseLog logsumexp
  rw [Real.exp_sub, Real.exp_log (sum_exp_pos lw)]

theorem normalise_pos (lw : Fin N → ℝ) (i : Fin N) : 0 < normalise lw i := Real.exp_pos _

theorem normalise_weights [NeZero N] (lw : Fin N → ℝ) : Weights (normalise lw) := by
  refine ⟨fun i => (normalise_pos lw i).le, ?_⟩
  simp only [normalise_eq]
  rw [← Finset.sum_div, div_self (sum_exp_pos lw).ne']

theorem logsumexp_normaliseLog [NeZero N] (lw : Fin N → ℝ) : logsumexp (normaliseLog lw) = 0 := by
  have := (normalise_weights lw).sum_one
  unfold normalise at this
  unfold logsumexp
  rw [this, Real.log_one]

theorem normalise_normaliseLog [NeZero N] (lw : Fin N → ℝ) :
    normalise (normaliseLog lw) = normalise lw := by
  funext i
  show Real.exp (normaliseLog lw i - logsumexp (normaliseLog lw)) = _
  rw [logsumexp_normaliseLog, sub_zero]
  rfl

/-! ### Unrolling the forward scan -/

theorem scanInputs_cons (u u' : U) (us : List U) (b b' : Fin N) (bs : List (Fin N)) (v v' : V)
    (vs : List V) (t t' : ℝ) (ts : List ℝ) (k : Key) (ks : List Key) :
    scanInputs (u, u' :: us) (b, b' :: bs) (v, v' :: vs) (t, t' :: ts) (k :: ks)
      = (v', v, t, b, b', k, u') :: scanInputs (u', us) (b', bs) (v', vs) (t', ts) ks := by
  simp [scanInputs, Arr1.init]

theorem scanInputs_nil (u : U) (b : Fin N) (v : V) (t : ℝ) (ks : List Key) :
    scanInputs (u, []) (b, []) (v, []) (t, []) ks = [] := by
  simp [scanInputs, Arr1.init]

theorem returns_scan_cons {σ ι ο : Type} {body : σ → ι → Rand (σ × ο)} {s : σ} {i : ι} {is : List ι}
    {s' : σ} {os : List ο} :
    (Rand.scan body s (i :: is)).Returns (s', os) ↔
      ∃ r os', (body s i).Returns r ∧ (Rand.scan body r.1 is).Returns (s', os') ∧ os = r.2 :: os' := by
  simp only [Rand.scan, Rand.returns_bind, Rand.pure_eq, Rand.returns_ret]
  constructor
  · rintro ⟨r, hr, ⟨s2, os2⟩, h, heq⟩
    simp only [Prod.mk.injEq] at heq
    obtain ⟨rfl, rfl⟩ := heq
    exact ⟨r, os2, hr, h, rfl⟩
  · rintro ⟨r, os', hr, h, rfl⟩
    exact ⟨r, hr, (s', os'), h, rfl⟩

theorem returns_scan_nil {σ ι ο : Type} {body : σ → ι → Rand (σ × ο)} {s : σ}
    {s' : σ} {os : List ο} :
    (Rand.scan body s []).Returns (s', os) ↔ s' = s ∧ os = [] := by
  simp [Rand.scan]

theorem returns_scanBody {m : Funs N U V} {res : CondResampling N} {lw : Fin N → ℝ} {x : Fin N → U}
    {v vp : V} {t : ℝ} {b b' : Fin N} {k : Key} {u : U} {r} :
    (scanBody m res (lw, x) (v, vp, t, b, b', k, u)).Returns r ↔
      ∃ A, (res (split k 2 0) (fun i => Real.exp (lw i)) b b' true).Returns A ∧
      ∃ raw, (m.transSampler (take x A) vp t (split k 2 1)).Returns raw ∧
        r = ((normaliseLog (m.lik v (take x A) vp t), atSet raw b' u),
            (normaliseLog (m.lik v (take x A) vp t), A, atSet raw b' u)) := by
  simp only [scanBody, Rand.returns_bind, Rand.pure_eq, Rand.returns_ret]

/-! ### Ancestor tracing -/

/-- The trajectory returned by the backward scanning pass started at index `i` of the last row. -/
def trace (x0 : Fin N → U) (os : List ((Fin N → Fin N) × (Fin N → U))) (i : Fin N) :
    List (U × Fin N) :=
  let xss : Arr1 (Fin N → U) := (x0, os.map Prod.snd)
  Arr1.insertReverse (xss.last i, i)
    (scan scanningBody i (xss.revInit.zip (os.map Prod.fst).reverse)).2

theorem trace_nil (x0 : Fin N → U) (i : Fin N) : trace x0 [] i = [(x0 i, i)] := rfl

theorem trace_snoc (x0 : Fin N → U) (os : List ((Fin N → Fin N) × (Fin N → U)))
    (A : Fin N → Fin N) (x : Fin N → U) (i : Fin N) :
    trace x0 (os ++ [(A, x)]) i = trace x0 os (A i) ++ [(x i, i)] := by
  have hlast : Arr1.last (x0, (os ++ [(A, x)]).map Prod.snd) = x := by
    simp [Arr1.last]
  have hinit : Arr1.revInit (x0, (os ++ [(A, x)]).map Prod.snd)
      = Arr1.last (x0, os.map Prod.snd) :: Arr1.revInit (x0, os.map Prod.snd) := by
    have h1 : Arr1.revInit (x0, (os ++ [(A, x)]).map Prod.snd) = (x0 :: os.map Prod.snd).reverse := by
      simp only [Arr1.revInit, Arr1.init, List.map_append, List.map_cons, List.map_nil]
      rw [← List.cons_append, List.dropLast_concat]
    rw [h1]
    conv_lhs => rw [← List.dropLast_append_getLast (List.cons_ne_nil x0 (os.map Prod.snd))]
    simp [Arr1.revInit, Arr1.init, Arr1.last]
  unfold trace
  simp only
  rw [hlast, hinit]
  simp only [List.map_append, List.map_cons, List.map_nil, List.reverse_append,
    List.reverse_cons, List.reverse_nil, List.nil_append, List.cons_append, List.zip_cons_cons]
  simp [Arr1.insertReverse, scan, scanningBody]

end Csmc
end Fbs
