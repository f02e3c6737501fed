import Verif.Model.Corrupt
import Verif.Props.Images
import Verif.Props.Restore
import Mathlib.Algebra.BigOperators.Fin

/-!
# C66: corrupted images and standardised data
-/

open MeasureTheory
open scoped ENNReal

namespace Fbs
namespace Props

open Jax Images Losses Corrupt

variable {h w c : ℕ}

/-- **C66, standardised columns.**  A column with two different entries gets mean zero and mean square one; multiplying it
by a positive number and adding a constant before changes nothing. -/
theorem C66_standardise {n d : ℕ} (a : Fin n → Fin d → ℝ) (k : Fin d) (hne : ∃ i j, a i k ≠ a j k) :
    ∃ z : Fin n → ℝ, (∀ i, standardise a i k = some (z i)) ∧ ∑ i, z i = 0 ∧ (∑ i, z i ^ 2) / n = 1 ∧
      (∀ i j, a i k < a j k ↔ z i < z j) ∧
      ∀ s : Fin d → ℝ, 0 < s k → ∀ t : Fin d → ℝ, ∀ i, standardise (fun i k => s k * a i k + t k) i k = some (z i) := by
  obtain ⟨i0, j0, hij⟩ := hne
  have hn : 0 < (n : ℝ) := Nat.cast_pos.2 (Fin.pos i0)
  set m := (∑ i', a i' k) / n with hm
  have hsum : ∑ i', a i' k = n * m := by rw [hm]; field_simp
  set v := (∑ i', (a i' k - m) ^ 2) / n with hv
  have hvpos : 0 < v := by
    refine div_pos (lt_of_le_of_ne (Finset.sum_nonneg fun _ _ => sq_nonneg _) fun h0 => hij ?_) hn
    have h1 := (Finset.sum_eq_zero_iff_of_nonneg fun i _ => sq_nonneg (a i k - m)).1 h0.symm
    have e1 := pow_eq_zero_iff (two_ne_zero) |>.1 (h1 i0 (Finset.mem_univ _))
    have e2 := pow_eq_zero_iff (two_ne_zero) |>.1 (h1 j0 (Finset.mem_univ _))
    linarith
  have hs : 0 < Real.sqrt v := Real.sqrt_pos.2 hvpos
  refine ⟨fun i => (a i k - m) / Real.sqrt v, fun i => ?_, ?_, ?_, fun i j => ?_, fun s hsk t i => ?_⟩
  · simp only [standardise, sq_abs, ← hm, ← hv, if_neg hs.ne']
  · rw [← Finset.sum_div, Finset.sum_sub_distrib, hsum]
    simp
  · simp only [div_pow, Real.sq_sqrt hvpos.le]
    rw [← Finset.sum_div, div_right_comm, ← hv, div_self hvpos.ne']
  · rw [div_lt_div_iff_of_pos_right hs]
    constructor <;> intro h <;> linarith
  · have hm' : (∑ i', (s k * a i' k + t k)) / n = s k * m + t k := by
      rw [Finset.sum_add_distrib, ← Finset.mul_sum, hsum]
      simp
      field_simp
    have hd : ∀ i', s k * a i' k + t k - (s k * m + t k) = s k * (a i' k - m) := fun i' => by ring
    have hv' : (∑ i', (s k * (a i' k - m)) ^ 2) / n = s k ^ 2 * v := by
      simp only [mul_pow, ← Finset.mul_sum]
      rw [hv]; ring
    have hsq : Real.sqrt (s k ^ 2 * v) = s k * Real.sqrt v := by
      rw [Real.sqrt_mul (sq_nonneg _), Real.sqrt_sq hsk.le]
    simp only [standardise, sq_abs, hm', hd, hv', hsq, if_neg (mul_pos hsk hs).ne']
    rw [mul_div_mul_left _ _ hsk.ne']

/-- **C66, constant columns** become `nan`. -/
theorem C66_standardise_nan {n d : ℕ} (a : Fin n → Fin d → ℝ) (k : Fin d) (hc : ∀ i j, a i k = a j k) (i : Fin n) :
    standardise a i k = none := by
  have hn : (n : ℝ) ≠ 0 := Nat.cast_ne_zero.2 (Fin.pos i).ne'
  have hm : (∑ i', a i' k) / n = a i k := by
    rw [Finset.sum_congr rfl fun i' _ => hc i' i]
    simp
    field_simp
  simp only [standardise, hm]
  rw [if_pos]
  have : ∀ i', a i' k - a i k = 0 := fun i' => by rw [hc i' i, sub_self]
  simp [this]

/-- **C66, blurred images are grey.**  All output channels of the blur are equal, because the kernel is broadcast over the
input and output channels and sums over the former. -/
theorem C66_grey [NeZero h] [NeZero w] {key : Key} {img : Fin h → Fin w → Fin c → ℝ} {s : ℕ}
    {out : Fin h → Fin w → Fin c → Option ℝ} (hr : (conv key img s).Returns out) (i : Fin h) (j : Fin w) (k k' : Fin c) :
    out i j k = out i j k' := by
  obtain ⟨u, -, hr⟩ := Rand.returns_bind.1 hr
  have := Rand.returns_ret.1 hr
  subst this
  rfl

/-- **C66, the blur forgets colours.**  Images with equal sums of channels have the same blurred image. -/
theorem C66_colour_blind (v : ℝ) (s : ℕ) (img img' : Fin h → Fin w → Fin c → ℝ)
    (hs : ∀ i j, ∑ k, img i j k = ∑ k, img' i j k) : blur v s img = blur v s img' := by
  funext i j _
  refine Finset.sum_congr rfl fun a _ => Finset.sum_congr rfl fun b _ => ?_
  simp only [← Finset.sum_mul]
  congr 1
  unfold padded
  split_ifs with hij
  · exact hs _ _
  · rfl

/-- **C66, range.**  The corrupted image, where it is defined, lies in `[0, 1]` and takes both values in every channel. -/
theorem C66_conv_range [NeZero h] [NeZero w] {key : Key} {img : Fin h → Fin w → Fin c → ℝ} {s : ℕ}
    {out : Fin h → Fin w → Fin c → ℝ} (hr : (conv key img s).Returns fun i j k => some (out i j k)) (k : Fin c) :
    (∀ i j, 0 ≤ out i j k ∧ out i j k ≤ 1) ∧ (∃ i j, out i j k = 0) ∧ ∃ i j, out i j k = 1 := by
  obtain ⟨u, -, hr⟩ := Rand.returns_bind.1 hr
  have := Rand.returns_ret.1 hr
  obtain ⟨h1, -, h2, h3⟩ := C45_norm _ out (fun i j k => (congrFun (congrFun (congrFun this i) j) k).symm) k
  exact ⟨h1, h2, h3⟩

theorem blur_smul (v a : ℝ) (s : ℕ) (img : Fin h → Fin w → Fin c → ℝ) (i j k) :
    blur v s (fun i j k => a * img i j k) i j k = a * blur v s img i j k := by
  simp only [blur, Finset.mul_sum]
  refine Finset.sum_congr rfl fun x _ => Finset.sum_congr rfl fun y _ => Finset.sum_congr rfl fun z _ => ?_
  rw [← mul_assoc]
  congr 1
  unfold padded
  split_ifs
  · rfl
  · rw [mul_zero]

/-- **C66, brightness.**  Multiplying the image by a positive number does not change the corrupted image. -/
theorem C66_conv_scale [NeZero h] [NeZero w] (key : Key) (img : Fin h → Fin w → Fin c → ℝ) (s : ℕ) {a : ℝ} (ha : 0 < a) :
    conv key (fun i j k => a * img i j k) s = conv key img s := by
  unfold conv
  congr 1
  funext u
  refine congrArg pure ?_
  funext i j k
  have := C45_norm_affine (blur (u * (5 - 0.1) + 0.1) s img) ha 0 i j k
  simp only [add_zero] at this
  rw [← this]
  congr 1
  funext i j k
  exact blur_smul _ _ _ _ _ _ _

/-- **C66, black images** become `nan`. -/
theorem C66_conv_nan [NeZero h] [NeZero w] {key : Key} {s : ℕ} {out : Fin h → Fin w → Fin c → Option ℝ}
    (hr : (conv key (fun _ _ _ => (0 : ℝ)) s).Returns out) (i j k) : out i j k = none := by
  obtain ⟨u, -, hr⟩ := Rand.returns_bind.1 hr
  have := Rand.returns_ret.1 hr
  subst this
  have h0 : ∀ v, blur v s (fun (_ : Fin h) (_ : Fin w) (_ : Fin c) => (0 : ℝ)) = fun _ _ _ => 0 := by
    intro v
    funext i j k
    simp [blur, padded]
  rw [h0, minMax, if_pos]
  exact (Finset.sup'_const _ 0).trans (Finset.inf'_const _ 0).symm

theorem lin_rev (s : ℕ) (a : Fin s) (hs : s ≠ 1) : lin s a.rev = -lin s a := by
  have ha := a.2
  have h1 : ((s - 1 : ℕ) : ℝ) ≠ 0 := Nat.cast_ne_zero.2 (by omega)
  have h2 : ((a.rev : ℕ) : ℝ) = (s - 1 : ℕ) - (a : ℕ) := by
    rw [Fin.val_rev, ← Nat.cast_sub (by omega)]
    congr 1
    omega
  rw [lin, lin, h2]
  field_simp
  ring

theorem lin_rev_sq (s : ℕ) (a : Fin s) : lin s a.rev ^ 2 = lin s a ^ 2 := by
  by_cases hs : s = 1
  · subst hs
    rw [Subsingleton.elim a.rev a]
  · rw [lin_rev s a hs, neg_sq]

/-- **C66, mirror images.**  For an odd kernel size the blur commutes with mirroring the image along either side. -/
theorem C66_mirror [NeZero h] [NeZero w] (v : ℝ) (q : ℕ) (img : Fin h → Fin w → Fin c → ℝ) (i : Fin h) (j : Fin w) (k : Fin c) :
    blur v (2 * q + 1) (fun i j => img i.rev j) i j k = blur v (2 * q + 1) img i.rev j k ∧
      blur v (2 * q + 1) (fun i j => img i j.rev) i j k = blur v (2 * q + 1) img i j.rev k := by
  have hq : (2 * q + 1 - 1) / 2 = q := by omega
  constructor
  · simp only [blur, hq]
    rw [← Equiv.sum_comp Fin.revPerm]
    refine Finset.sum_congr rfl fun a _ => Finset.sum_congr rfl fun b _ => Finset.sum_congr rfl fun k _ => ?_
    simp only [Fin.revPerm_apply, kernel, lin_rev_sq]
    congr 1
    have ha := a.2
    have hi := i.2
    unfold padded
    simp only [Fin.val_rev]
    by_cases hc : (0 ≤ ((h - (i + 1) : ℕ) : ℤ) + (a : ℕ) - q ∧ ((h - (i + 1) : ℕ) : ℤ) + (a : ℕ) - q < h) ∧
        0 ≤ ((j : ℕ) : ℤ) + (b : ℕ) - q ∧ ((j : ℕ) : ℤ) + (b : ℕ) - q < w
    · rw [dif_pos hc, dif_pos (by omega)]
      congr 1
      apply Fin.ext
      simp only [Fin.val_rev]
      omega
    · rw [dif_neg hc, dif_neg (by omega)]
  · simp only [blur, hq]
    refine Finset.sum_congr rfl fun a _ => ?_
    rw [← Equiv.sum_comp Fin.revPerm]
    refine Finset.sum_congr rfl fun b _ => Finset.sum_congr rfl fun k _ => ?_
    simp only [Fin.revPerm_apply, kernel, lin_rev_sq]
    congr 1
    have hb := b.2
    have hj := j.2
    unfold padded
    simp only [Fin.val_rev]
    by_cases hc : (0 ≤ ((i : ℕ) : ℤ) + (a : ℕ) - q ∧ ((i : ℕ) : ℤ) + (a : ℕ) - q < h) ∧
        0 ≤ ((w - (j + 1) : ℕ) : ℤ) + (b : ℕ) - q ∧ ((w - (j + 1) : ℕ) : ℤ) + (b : ℕ) - q < w
    · rw [dif_pos hc, dif_pos (by omega)]
      congr 1
      apply Fin.ext
      simp only [Fin.val_rev]
      omega
    · rw [dif_neg hc, dif_neg (by omega)]

/-- The image that is one at a single entry. -/
def impulse (p : Fin h) (q : Fin w) (k0 : Fin c) : Fin h → Fin w → Fin c → ℝ :=
  fun i j k => if i = p ∧ j = q ∧ k = k0 then 1 else 0

theorem padded_impulse (p : Fin h) (q : Fin w) (k0 : Fin c) (i j : ℤ) (k : Fin c) :
    padded (impulse p q k0) i j k = if i = (p : ℕ) ∧ j = (q : ℕ) ∧ k = k0 then 1 else 0 := by
  unfold padded impulse
  split_ifs with h1 h2 h3 h3
  · rfl
  · exact absurd ⟨by have := congrArg Fin.val h2.1; simp at this; omega,
      by have := congrArg Fin.val h2.2.1; simp at this; omega, h2.2.2⟩ h3
  · refine absurd ⟨Fin.ext ?_, Fin.ext ?_, h3.2.2⟩ h2
    · simp; omega
    · simp; omega
  · rfl
  · obtain ⟨a, b, -⟩ := ‹_ ∧ _ ∧ _›
    exact absurd ⟨⟨by omega, by omega⟩, by omega, by omega⟩ h1
  · rfl

theorem lin_odd (r : ℕ) (hr : 0 < r) (a : Fin (2 * r + 1)) : lin (2 * r + 1) a = ((a : ℕ) - r : ℝ) / r := by
  have : (r : ℝ) ≠ 0 := by positivity
  unfold lin
  push_cast [Nat.add_sub_cancel]
  field_simp
  ring

/-- **C66, point spread.**  With an odd kernel size `2 r + 1` a single bright pixel is blurred to a Gaussian bump of
variance `variance * r² / 2`, cut off at distance `r` along either axis. -/
theorem C66_point_spread (v : ℝ) (r : ℕ) (hr : 0 < r) (p i : Fin h) (q j : Fin w) (k0 k : Fin c) :
    blur v (2 * r + 1) (fun i' j' k' => if i' = p ∧ j' = q ∧ k' = k0 then 1 else 0) i j k =
      if |((p : ℕ) : ℤ) - (i : ℕ)| ≤ r ∧ |((q : ℕ) : ℤ) - (j : ℕ)| ≤ r then
        Real.exp (-(((p : ℕ) - (i : ℕ) : ℝ) ^ 2 + ((q : ℕ) - (j : ℕ) : ℝ) ^ 2) / (2 * (v * r ^ 2 / 2))) else 0 := by
  have hrr : (2 * r + 1 - 1) / 2 = r := by omega
  have hr0 : (r : ℝ) ≠ 0 := by positivity
  change blur v (2 * r + 1) (impulse p q k0) i j k = _
  simp only [blur, hrr, padded_impulse]
  split_ifs with hd
  · obtain ⟨h1, h2⟩ := hd
    rw [abs_le] at h1 h2
    rw [Finset.sum_eq_single (⟨((p : ℕ) + r) - i, by omega⟩ : Fin (2 * r + 1)),
      Finset.sum_eq_single (⟨((q : ℕ) + r) - j, by omega⟩ : Fin (2 * r + 1)), Finset.sum_eq_single k0]
    · rw [if_pos ⟨by push_cast; omega, by push_cast; omega, rfl⟩, one_mul, kernel, lin_odd r hr, lin_odd r hr, ← Real.exp_add]
      have e1 : ((((p : ℕ) + r - i : ℕ) : ℝ) - r) = (p : ℕ) - (i : ℕ) := by
        rw [Nat.cast_sub (by omega)]; push_cast; ring
      have e2 : ((((q : ℕ) + r - j : ℕ) : ℝ) - r) = (q : ℕ) - (j : ℕ) := by
        rw [Nat.cast_sub (by omega)]; push_cast; ring
      rw [e1, e2]
      congr 1
      rw [show 2 * (v * (r : ℝ) ^ 2 / 2) = r ^ 2 * v by ring, ← div_div, ← add_div]
      congr 1
      field_simp
      ring
    · intro b _ hb
      rw [if_neg (fun h => hb h.2.2), zero_mul]
    · exact fun h => absurd (Finset.mem_univ _) h
    · intro b _ hb
      refine Finset.sum_eq_zero fun x _ => ?_
      rw [if_neg (fun h => hb (Fin.ext (by have := h.2.1; simp; omega))), zero_mul]
    · exact fun h => absurd (Finset.mem_univ _) h
    · intro b _ hb
      refine Finset.sum_eq_zero fun x _ => Finset.sum_eq_zero fun y _ => ?_
      rw [if_neg (fun h => hb (Fin.ext (by have := h.1; simp; omega))), zero_mul]
    · exact fun h => absurd (Finset.mem_univ _) h
  · refine Finset.sum_eq_zero fun a _ => Finset.sum_eq_zero fun b _ => Finset.sum_eq_zero fun x _ => ?_
    rw [if_neg, zero_mul]
    rintro ⟨h1, h2, -⟩
    have := a.isLt
    have := b.isLt
    exact hd ⟨abs_le.2 ⟨by omega, by omega⟩, abs_le.2 ⟨by omega, by omega⟩⟩

example : blur 2 3 (fun (i' : Fin 8) (j' : Fin 8) (k' : Fin 3) => if i' = 4 ∧ j' = 4 ∧ k' = 1 then 1 else 0) 4 5 2 =
    Real.exp (-(((4 : ℕ) - (4 : ℕ) : ℝ) ^ 2 + ((4 : ℕ) - (5 : ℕ) : ℝ) ^ 2) / (2 * (2 * (1 : ℕ) ^ 2 / 2))) :=
  (C66_point_spread 2 1 one_pos (4 : Fin 8) 4 (4 : Fin 8) 5 (1 : Fin 3) 2).trans (if_pos (by decide))

/-- **C66, the sampler.**  The clean image is uniform over the data set, and given it the other image is a draw of
`corrupt`. -/
theorem C66_sampler [NeZero h] [NeZero w] (hh : 8 ≤ h) (hw : 8 ≤ w) {n : ℕ} (xs : Fin n → Fin h → Fin w → Fin c → ℝ)
    (task : Corrupt.Task) (key : Key)
    (f : (Fin h → Fin w → Fin c → ℝ) → Except String (Fin h → Fin w → Fin c → Option ℝ) → ℝ≥0∞) :
    (sampler hh hw xs task key).E (fun p => f p.1 p.2) =
      (n : ℝ≥0∞)⁻¹ * ∑ i, (corrupt hh hw (split key 2 1) (xs i) task).E (f (xs i)) := by
  simp only [sampler, Rand.E_bind, randint, Rand.E_sample, Rand.pure_eq, Rand.E_ret]
  rw [lintegral_smul_measure, lintegral_count, tsum_fintype, smul_eq_mul]

/-- **C66, what `corrupt` returns.**  Inpainting keeps each pixel or blackens it, super-resolution copies pixels of the image,
and a task that is none of the three raises. -/
theorem C66_corrupt [NeZero h] [NeZero w] (hh : 8 ≤ h) (hw : 8 ≤ w) {key : Key} {img : Fin h → Fin w → Fin c → ℝ}
    {task : Corrupt.Task} {y : Except String (Fin h → Fin w → Fin c → Option ℝ)}
    (hr : (corrupt hh hw key img task).Returns y) :
    match task with
    | .inpaint _ => ∃ out, y = .ok out ∧ ∀ i j, (∀ k, out i j k = some (img i j k)) ∨ ∀ k, out i j k = some 0
    | .deconv _ => ∃ out, y = .ok out ∧ ∀ i j k k', out i j k = out i j k'
    | .supr => ∃ out, y = .ok out ∧ ∀ i j, ∃ i' j', ∀ k, out i j k = some (img i' j' k)
    | .none | .other => y = .error "ValueError" := by
  cases task with
  | inpaint r =>
    obtain ⟨out, ho, rfl⟩ := Rand.returns_map.1 hr
    obtain ⟨m, -, rfl⟩ := Rand.returns_map.1 ho
    refine ⟨_, rfl, fun i j => ?_⟩
    by_cases hm : inSlice h (corner h r (m / 4)) (corner h r (m / 4) + r) i ∧
        inSlice w (corner w r (m % 4)) (corner w r (m % 4) + r) j
    · exact Or.inr fun k => by simp [mask, hm]
    · refine Or.inl fun k => ?_
      simp only [mask, if_neg hm, mul_one]
  | deconv s =>
    obtain ⟨out, ho, rfl⟩ := Rand.returns_map.1 hr
    exact ⟨out, rfl, fun i j k k' => C66_grey ho i j k k'⟩
  | supr =>
    obtain ⟨out, ho, rfl⟩ := Rand.returns_map.1 hr
    obtain ⟨m, -, rfl⟩ := Rand.returns_map.1 ho
    refine ⟨_, rfl, fun i j => ?_⟩
    by_cases hm : m = 0
    · simp only [hm, if_true]
      exact ⟨_, _, fun k => rfl⟩
    · simp only [hm, if_false]
      exact ⟨_, _, fun k => rfl⟩
  | none => exact Rand.returns_ret.1 hr
  | other => exact Rand.returns_ret.1 hr

theorem returns_vmapR {α : Type} : ∀ {n : ℕ} {p : Fin n → Rand α} {xs : Fin n → α}, (vmapR p).Returns xs →
    ∀ j, (p j).Returns (xs j)
  | 0, _, _, _, j => j.elim0
  | n + 1, p, xs, hr, j => by
    obtain ⟨a, ha, hr⟩ := Rand.returns_bind.1 hr
    obtain ⟨as, has, hr⟩ := Rand.returns_bind.1 hr
    have := Rand.returns_ret.1 hr
    subst this
    refine Fin.cases ha (fun j => ?_) j
    simpa using returns_vmapR has j

/-- **C66, batches.**  `enumerate_subset` returns the chosen images, and each with its own corruption under its own key;
without a task there is no second component. -/
theorem C66_enumerate [NeZero h] [NeZero w] (hh : 8 ≤ h) (hw : 8 ≤ w) {n m : ℕ} (xs : Fin n → Fin h → Fin w → Fin c → ℝ)
    (inds : Fin m → Fin n) (key : Key) (task : Corrupt.Task) {out} (hr : (enumerateJit hh hw xs inds key task).Returns out) :
    (∀ r, out.1 r = xs (inds r)) ∧
      (task = .none → out.2 = none) ∧
      (task ≠ .none → ∃ ys, out.2 = some ys ∧ ∀ r : Fin m, (corrupt hh hw (split key m r) (xs (inds r)) task).Returns (ys r)) := by
  cases task with
  | none =>
    have := Rand.returns_ret.1 hr
    subst this
    exact ⟨fun _ => rfl, fun _ => rfl, fun h => absurd rfl h⟩
  | _ =>
    obtain ⟨ys, hy, hr⟩ := Rand.returns_bind.1 hr
    have := Rand.returns_ret.1 hr
    subst this
    exact ⟨fun _ => rfl, fun h => by simp at h, fun _ => ⟨ys, rfl, returns_vmapR hy⟩⟩

/-- **C66, restoration data.**  `sampler` of the restoration tasks returns an image of the data set, a mask that splits
its pixels, and the observed ones; with the unobserved pixels put back the image is complete. -/
theorem C66_restore {α : Type} [Inhabited α] (zero : α) {n width height : ℕ} (xs : Fin n → List α)
    (hlen : ∀ i, (xs i).length = width * height) {srRandom : Bool} {task : Restore.Task}
    (ht : match task with
      | .inpaint s => s ≤ width ∧ s ≤ height
      | .supr s => 0 < s ∧ s ∣ width ∧ s ∣ height)
    {key : Key} {r} (hr : (restoreSampler xs width height srRandom task key).Returns r) :
    ∃ i y mask, r = .ok (xs i, y, mask) ∧ (mask.unobs ++ mask.obs).Perm (List.range (width * height)) ∧
      y.map some = mask.obs.map (fun k => (xs i)[k]?) ∧
      Restore.concat zero width height (Restore.unpack (xs i) mask).1 y mask = .ok (xs i) := by
  obtain ⟨i, -, hr⟩ := Rand.returns_bind.1 hr
  obtain ⟨m, hm, hr⟩ := Rand.returns_bind.1 hr
  have := Rand.returns_ret.1 hr
  subst this
  obtain ⟨mask, rfl, -, hp⟩ := C44_unobs_shape_partial ht hm
  refine ⟨i, _, mask, rfl, hp, ?_, C44_concat_unpack zero hp (hlen i)⟩
  exact gather_some (xs i) fun k hk => hlen i ▸ List.mem_range.1 (hp.mem_iff.1 (List.mem_append_right _ hk))

/-- A column with entries 1, 3 and 5. -/
example : ∃ z : Fin 3 → ℝ, (∀ i, standardise (d := 1) (fun i _ => 1 + 2 * ((i : ℕ) : ℝ)) i 0 = some (z i)) ∧ ∑ i, z i = 0 := by
  obtain ⟨z, h1, h2, -⟩ := C66_standardise (d := 1) (fun (i : Fin 3) _ => 1 + 2 * ((i : ℕ) : ℝ)) 0 ⟨0, 1, by norm_num⟩
  exact ⟨z, h1, h2⟩

/-- Red, green and blue pictures of the same shape are blurred to the same image. -/
example (v : ℝ) (f : Fin 8 → Fin 8 → ℝ) :
    blur (c := 3) v 15 (fun i j k => if k = 0 then f i j else 0) = blur v 15 (fun i j k => if k = 2 then f i j else 0) :=
  C66_colour_blind _ _ _ _ fun i j => by simp

/-- A data set of two images of 8 by 8 pixels with the task `'deconv-15'`. -/
example (xs : Fin 2 → Fin 8 → Fin 8 → Fin 3 → ℝ) (key : Key) {out}
    (hr : (enumerateJit (le_refl 8) (le_refl 8) xs id key (.deconv 15)).Returns out) :
    ∃ ys, out.2 = some ys ∧ ∀ r, ∃ y, ys r = .ok y ∧ ∀ i j, y i j 0 = y i j 2 := by
  obtain ⟨ys, h1, h2⟩ := (C66_enumerate (le_refl 8) (le_refl 8) xs id key (.deconv 15) hr).2.2 (by simp)
  refine ⟨ys, h1, fun r => ?_⟩
  obtain ⟨y, hy, hk⟩ := C66_corrupt (le_refl 8) (le_refl 8) (h2 r)
  exact ⟨y, hy, fun i j => hk i j 0 2⟩

end Props
end Fbs
