import Verif.Base.Normal
import Verif.Model.CsmcLoop
import Verif.Model.Linear
import Verif.Model.Utils

/-! `/repo/tests/test_csmc.py`: the model functions of the test. -/

namespace Fbs
namespace CsmcTest

open Jax Matrix

/-- `/repo/tests/test_csmc.py:25-26` `gp_cov`: entry `(i, j)` compares `t1[j]` with `t2[i]`. -/
noncomputable def gpCov {m n : Type} (sigma ell : ℝ) (t1 : n → ℝ) (t2 : m → ℝ) : Matrix m n ℝ :=
  Matrix.of fun i j => sigma ^ 2 * Real.exp (-|t1 j - t2 i| / ell)

/-- `/repo/tests/test_csmc.py:29-31` `gp_sampler(key, ts)`; `cholesky` is `jnp.linalg.cholesky`. -/
noncomputable def gpSampler {n : Type} [Fintype n] (cholesky : Matrix n n ℝ → Matrix n n ℝ) (sigma ell : ℝ) (key : Key)
    (ts : n → ℝ) : Rand (n → ℝ) := do
  let c := cholesky (gpCov sigma ell ts ts)
  let z ← normal key n
  pure (c *ᵥ z)

/-- `/repo/tests/test_csmc.py:37,52-53`: the pair `(F, Q)`, with `a = -1 / ell` and `b = sqrt(2 / ell) * sigma`. -/
noncomputable def transFQ (sigma ell dt : ℝ) : ℝ × ℝ :=
  let a := -1 / ell
  let b := Real.sqrt (2 / ell) * sigma
  let FQ := Utils.discretiseLtiSde (a • (1 : Matrix (Fin 1) (Fin 1) ℝ)) (b ^ 2 • (1 : Matrix (Fin 1) (Fin 1) ℝ)) dt
  (FQ.1 0 0, FQ.2 0 0)

/-- `/repo/tests/test_csmc.py:57-58` `emission`. -/
noncomputable def emission (x : ℝ) : ℝ := Real.tanh x

/-- `/repo/tests/test_csmc.py:60-62` `sampler_ys_cond_xs(xs, key)`, `emission(xs) + sqrt(R) * normal(key, xs.shape)`. -/
noncomputable def samplerYs (R : ℝ) (key : Key) (xs : Arr1 ℝ) : Rand (Arr1 ℝ) := do
  let z ← normal key (Fin (xs.2.length + 1))
  pure (emission xs.1 + Real.sqrt R * z 0, List.ofFn fun j : Fin xs.2.length => emission (xs.2.get j) + Real.sqrt R * z j.succ)

/-- `/repo/tests/test_csmc.py:64-77`: the functions handed to `csmc_kernel`.  `F`, `Q` come from `discretise_lti_sde`; `N` is the
number of rows asked for by `csmc_kernel`. -/
noncomputable def funs (N : ℕ) (F Q R statVar : ℝ) : Csmc.Funs N ℝ ℝ where
  initSampler key _ := do
    let z ← normal key (Fin N)
    pure fun i => 0 + Real.sqrt statVar * z i
  initLik y0 xs _ i := Linear.normLogpdf y0 (emission (xs i)) (Real.sqrt R)
  transSampler xs _ _ key := do
    let z ← normal key (Fin N)
    pure fun i => xs i * F + z i * Real.sqrt Q
  transLogpdf x xsPrev _ _ i := Linear.normLogpdf x (xsPrev i * F) (Real.sqrt Q)
  lik y xs _ _ i := Linear.normLogpdf y (emission (xs i)) (Real.sqrt R)

end CsmcTest
end Fbs
