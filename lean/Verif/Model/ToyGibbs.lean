import Verif.Model.Gibbs
import Verif.Model.Toy

/-!
# The functions the experiment scripts hand to `gibbs_kernel`

`experiments/toy/gp_gibbs.py`, `experiments/sb/gibbs.py` and `experiments/sb_imgs/supr.py` build them from a forward sampler of the
pair and from a reverse drift.
-/

namespace Fbs
namespace Toy

open Jax

variable {ι κ ζ : Type} {N : ℕ}

/-- `/repo/experiments/toy/gp_gibbs.py:167-171`, `/repo/experiments/sb/gibbs.py:168-171`,
`/repo/experiments/sb_imgs/supr.py:176-181`: the arguments of `gibbs_kernel`.  `fwd` is the sampler that `fwd_sampler` calls with the
concatenated pair: `simulate_cond_forward` (`/repo/experiments/toy/gp_gibbs.py:144-145`) or `euler_maruyama` with the forward drift
(`/repo/experiments/sb/gibbs.py:141-143`, `/repo/experiments/sb_imgs/supr.py:132-137`).  `bridge` is used only with `marg_y`. -/
noncomputable def gibbsFuns [Fintype ι] [Fintype κ] (e : ι ⊕ κ ≃ ζ) (drift : (ζ → ℝ) → ℝ → (ζ → ℝ)) (disp : ℝ → ℝ) (dt : ℝ)
    (fwd : Key → (ζ → ℝ) → Rand (Arr1 (ζ → ℝ))) (bridge : Key → (κ → ℝ) → (κ → ℝ) → Arr1 ℝ → Rand (Arr1 (κ → ℝ))) :
    Gibbs.Funs N (ι → ℝ) (κ → ℝ) (ζ → ℝ) where
  fwd key x0 y0 := fwd key (concat e x0 y0)
  unpack p := (p.map (unpackU e), p.map (unpackV e))
  bridge := bridge
  normal key _ := do
    let z ← normal key (Fin N × ι)
    pure fun j i => z (j, i)
  transSampler := transitionSampler e drift disp dt
  transLogpdf := transitionLogpdf e drift disp dt
  lik := likelihoodLogpdf e drift disp dt

end Toy
end Fbs
