import Verif.Lemmas.Law

/-! Helper lemmas for the conditional killing theorem. -/

open MeasureTheory
open scoped ENNReal

namespace Fbs
namespace Jax

variable {n : ℕ}

/-- Redrawing one coordinate of a finite product law does not change it. -/
theorem sum_update {ι X : Type} [Fintype ι] [DecidableEq ι] [Fintype X] [DecidableEq X]
    (κ : ι → X → ℝ≥0∞) (J : ι) (hJ : ∑ a, κ J a = 1) (H : (ι → X) → ℝ≥0∞) :
    ∑ A : ι → X, (∏ m, κ m (A m)) * H A
      = ∑ B : ι → X, (∏ m, κ m (B m)) * ∑ a, κ J a * H (Function.update B J a) := by
  have hprod : ∀ (B : ι → X) (a : X),
      (∏ m, κ m (B m)) * κ J a = (∏ m, κ m (Function.update B J a m)) * κ J (B J) := by
    intro B a
    rw [← Finset.mul_prod_erase _ _ (Finset.mem_univ J),
      ← Finset.mul_prod_erase (s := Finset.univ) (f := fun m => κ m (Function.update B J a m))
        (h := Finset.mem_univ J)]
    have : ∏ m ∈ Finset.univ.erase J, κ m (Function.update B J a m)
        = ∏ m ∈ Finset.univ.erase J, κ m (B m) := by
      refine Finset.prod_congr rfl fun m hm => ?_
      rw [Function.update_of_ne (Finset.ne_of_mem_erase hm)]
    rw [this]
    simp only [Function.update_self]
    ring
  have hL : ∑ A : ι → X, (∏ m, κ m (A m)) * H A
      = ∑ x : (ι → X) × X, (∏ m, κ m (x.1 m)) * κ J x.2 * H x.1 := by
    rw [Fintype.sum_prod_type]
    refine Finset.sum_congr rfl fun A _ => ?_
    show _ = ∑ y, (∏ m, κ m (A m)) * κ J y * H A
    rw [← Finset.sum_mul, ← Finset.mul_sum, hJ, mul_one]
  have hR : ∑ B : ι → X, (∏ m, κ m (B m)) * ∑ a, κ J a * H (Function.update B J a)
      = ∑ x : (ι → X) × X, (∏ m, κ m (x.1 m)) * κ J x.2 * H (Function.update x.1 J x.2) := by
    rw [Fintype.sum_prod_type]
    refine Finset.sum_congr rfl fun A _ => ?_
    rw [Finset.mul_sum]
    exact Finset.sum_congr rfl fun a _ => by ring
  rw [hL, hR]
  let e : (ι → X) × X ≃ (ι → X) × X :=
    { toFun := fun x => (Function.update x.1 J x.2, x.1 J)
      invFun := fun x => (Function.update x.1 J x.2, x.1 J)
      left_inv := fun x => by simp
      right_inv := fun x => by simp }
  refine (Fintype.sum_equiv e _ _ fun x => ?_).symm
  show _ = (∏ m, κ m (Function.update x.1 J x.2 m)) * κ J (x.1 J) * H (Function.update x.1 J x.2)
  rw [hprod]

/-- Conditioning one coordinate of a product law. -/
theorem sum_condition {ι X : Type} [Fintype ι] [DecidableEq ι] [Fintype X] [DecidableEq X]
    (κ : ι → X → ℝ≥0∞) (J : ι) (hJ : ∑ a, κ J a = 1) (i : X) (G : (ι → X) → ℝ≥0∞) :
    ∑ A : ι → X, (∏ m, κ m (A m)) * (if A J = i then G A else 0)
      = κ J i * ∑ A : ι → X, (∏ m, κ m (A m)) * G (Function.update A J i) := by
  rw [sum_update κ J hJ]
  simp only [Function.update_self, mul_ite, mul_zero, Finset.sum_ite_eq', Finset.mem_univ, if_true]
  rw [Finset.mul_sum]
  exact Finset.sum_congr rfl fun B _ => by ring

theorem sum_killMass [NeZero n] {w : Fin n → ℝ} (hw : ∀ i, 0 ≤ w i) (hT : 0 < total w)
    (m : Fin n) : ∑ a, killMass w m a = 1 := by
  unfold killMass
  rw [Finset.sum_add_distrib, Finset.sum_ite_eq', if_pos (Finset.mem_univ _), ← Finset.mul_sum,
    sum_cat hw hT, mul_one]
  have h0 : 0 ≤ w m / vmax w := div_nonneg (hw m) (vmax_pos hw hT).le
  have h1 : w m / vmax w ≤ 1 := (div_le_one (vmax_pos hw hT)).2 (vmax_ge w m)
  rw [← ENNReal.ofReal_add h0 (by linarith)]
  simp

/-- The shift index as an element of `Fin n`. -/
def shiftIdx [NeZero n] (j J : Fin n) : Fin n := j - J

theorem roll_eq [NeZero n] {α : Type} (x : Fin n → α) (j J : Fin n) (k : Fin n) :
    roll x ((j : ℤ) - (J : ℤ)) k = x (k - (j - J)) := by
  unfold roll
  congr 1
  apply Fin.ext
  have hn : (0 : ℤ) < n := by exact_mod_cast Nat.pos_of_ne_zero (NeZero.ne n)
  have h1 := Int.emod_nonneg ((k : ℤ) - ((j : ℤ) - (J : ℤ))) hn.ne'
  apply Int.ofNat.inj
  simp only [Int.ofNat_eq_natCast, Int.toNat_of_nonneg h1, Fin.sub_def]
  have hlt : (n - (J : ℕ) + j) % n ≤ n := (Nat.mod_lt _ (by exact_mod_cast hn)).le
  rw [Int.natCast_mod, Nat.cast_add, Nat.cast_sub hlt, Int.natCast_mod, Nat.cast_add,
    Nat.cast_sub J.2.le]
  have hh : ((n : ℤ) - ((n : ℤ) - (J : ℤ) + (j : ℤ)) % n + k) % n
      = ((n : ℤ) - ((n : ℤ) - (J : ℤ) + (j : ℤ)) + k) % n := by
    rw [Int.add_emod, Int.sub_emod, Int.emod_emod, ← Int.sub_emod, ← Int.add_emod]
  rw [hh]
  have : (n : ℤ) - ((n : ℤ) - (J : ℤ) + (j : ℤ)) + k = (k - (j - J) : ℤ) := by ring
  rw [this]

theorem roll_nat_eq [NeZero n] {α : Type} (x : Fin n → α) (s k : Fin n) :
    roll x (s : ℤ) k = x (k - s) := by
  have := roll_eq x s 0 k
  simpa using this

theorem roll_update [NeZero n] {α : Type} (x : Fin n → α) (j J : Fin n) (v : α) :
    Function.update (roll x ((j : ℤ) - (J : ℤ))) j v
      = roll (Function.update x J v) ((j : ℤ) - (J : ℤ)) := by
  funext k
  rw [roll_eq]
  by_cases h : k = j
  · subst h; simp
  · rw [Function.update_of_ne h, roll_eq, Function.update_of_ne]
    intro h'
    apply h
    have : k = J + (j - J) := sub_eq_iff_eq_add.1 h'
    rw [this, add_sub_cancel]

end Jax
end Fbs
