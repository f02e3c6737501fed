import Verif.Model.SbImgs
import Verif.Props.ImgSamplers
import Verif.Props.RestoreLaw

/-!
# C90: the interpolated guess

`interp_x0_sampler` enlarges the observed low-resolution image by linear interpolation and reads off the unobserved pixels.
-/

namespace Fbs
namespace Props

open Jax Restore ImgSamplers SbImgs

/-! ### The weights in one dimension -/

section Weights

variable {n rate : ℕ}

theorem samplePos_eq (hn : 0 < n) (o : ℕ) : samplePos n (rate * n) o = ((o : ℝ) + 1 / 2) / rate - 1 / 2 := by
  have : (n : ℝ) ≠ 0 := by positivity
  rw [samplePos]
  push_cast
  rw [show (n : ℝ) / (rate * n) = 1 / rate by rw [div_mul_cancel_right₀ this, one_div], mul_one_div]

theorem rawWeight_eq (hr : 0 < rate) (hn : 0 < n) (i o : ℕ) :
    rawWeight n (rate * n) i o = max 0 (1 - |samplePos n (rate * n) o - i|) := by
  have h0 : (n : ℝ) ≠ 0 := by positivity
  have h1 : (1 : ℝ) ≤ rate := by exact_mod_cast hr
  have h : max ((n : ℝ) / ((rate * n : ℕ) : ℝ)) 1 = 1 := by
    refine max_eq_right ?_
    push_cast
    rw [div_mul_cancel_right₀ h0]
    exact inv_le_one_of_one_le₀ h1
  rw [rawWeight, h, triangle, div_one, abs_abs]

/-- The block of an entry is at most half a step away. -/
theorem samplePos_block (hr : 0 < rate) (hn : 0 < n) (o : ℕ) : |samplePos n (rate * n) o - (o / rate : ℕ)| ≤ 1 / 2 := by
  rw [samplePos_eq hn]
  have hr' : (0 : ℝ) < rate := by exact_mod_cast hr
  have h1 : (o : ℝ) = rate * (o / rate : ℕ) + (o % rate : ℕ) := by exact_mod_cast (Nat.div_add_mod o rate).symm
  have h2 : ((o % rate : ℕ) : ℝ) + 1 ≤ rate := by exact_mod_cast Nat.mod_lt o hr
  have h3 : (0 : ℝ) ≤ (o % rate : ℕ) := by positivity
  have h4 : ((o : ℝ) + 1 / 2) / rate = (o / rate : ℕ) + ((o % rate : ℕ) + 1 / 2) / rate := by
    rw [h1]
    field_simp
    ring
  have h5 : (((o % rate : ℕ) : ℝ) + 1 / 2) / rate ≤ 1 := by
    rw [div_le_one hr']
    linarith
  have h6 : 0 ≤ (((o % rate : ℕ) : ℝ) + 1 / 2) / rate := by positivity
  rw [h4, abs_le]
  constructor <;> linarith

theorem rawWeight_nonneg (hr : 0 < rate) (hn : 0 < n) (i o : ℕ) : 0 ≤ rawWeight n (rate * n) i o := by
  rw [rawWeight_eq hr hn]
  exact le_max_left _ _

theorem tot_ge (hr : 0 < rate) (hn : 0 < n) (o : Fin (rate * n)) : 1 / 2 ≤ ∑ k : Fin n, rawWeight n (rate * n) k o := by
  have hb : (o : ℕ) / rate < n := Nat.div_lt_of_lt_mul o.2
  refine le_trans ?_ (Finset.single_le_sum (f := fun k : Fin n => rawWeight n (rate * n) k o)
    (fun k _ => rawWeight_nonneg hr hn _ _) (Finset.mem_univ ⟨o / rate, hb⟩))
  have := samplePos_block hr hn (o : ℕ)
  rw [rawWeight_eq hr hn]
  refine le_max_of_le_right ?_
  simp only
  linarith

theorem samplePos_bounds (hr : 0 < rate) (hn : 0 < n) (o : Fin (rate * n)) :
    -1 / 2 ≤ samplePos n (rate * n) o ∧ samplePos n (rate * n) o ≤ n - 1 / 2 := by
  have hr' : (0 : ℝ) < rate := by exact_mod_cast hr
  have h1 : ((o : ℕ) : ℝ) + 1 ≤ rate * n := by exact_mod_cast o.2
  rw [samplePos_eq hn]
  have h2 : ((o : ℕ) + 1 / 2 : ℝ) / rate ≤ n := by
    rw [div_le_iff₀ hr']
    linarith
  have h3 : 0 ≤ ((o : ℕ) + 1 / 2 : ℝ) / rate := by positivity
  constructor <;> linarith

theorem weight_eq (hr : 0 < rate) (hn : 0 < n) (i : Fin n) (o : Fin (rate * n)) :
    weight n (rate * n) i o = rawWeight n (rate * n) i o / ∑ k : Fin n, rawWeight n (rate * n) k o := by
  have ht := tot_ge hr hn o
  have h1 : 1000 * (2 : ℝ)⁻¹ ^ 23 < |∑ k : Fin n, rawWeight n (rate * n) k o| := by
    refine lt_of_lt_of_le ?_ (ht.trans (le_abs_self _))
    norm_num
  have h2 : ∑ k : Fin n, rawWeight n (rate * n) k o ≠ 0 := fun h => by rw [h] at ht; norm_num at ht
  simp only [weight]
  rw [if_pos (samplePos_bounds hr hn o), if_pos h1, if_pos h2]

/-- **C90, the weights.**  Every entry of the enlarged image is a weighted mean of the entries of the small one less than one
step away: the weights are non-negative, sum to one and vanish elsewhere. -/
theorem C90_weights (hr : 0 < rate) (hn : 0 < n) (o : Fin (rate * n)) :
    (∀ i, 0 ≤ weight n (rate * n) i o) ∧ ∑ i, weight n (rate * n) i o = 1 ∧
      ∀ i : Fin n, 1 ≤ |((o : ℕ) + 1 / 2 : ℝ) / rate - 1 / 2 - i| → weight n (rate * n) i o = 0 := by
  have ht := tot_ge hr hn o
  refine ⟨fun i => ?_, ?_, fun i hi => ?_⟩
  · rw [weight_eq hr hn]
    exact div_nonneg (rawWeight_nonneg hr hn _ _) (by linarith)
  · simp only [weight_eq hr hn]
    rw [← Finset.sum_div, div_self]
    intro h
    rw [h] at ht
    norm_num at ht
  · rw [weight_eq hr hn, rawWeight_eq hr hn, samplePos_eq hn, max_eq_left (by linarith), zero_div]

/-- Linear interpolation reproduces affine functions between the first and the last node. -/
theorem triangle_sum (α β : ℝ) : ∀ (n : ℕ) {p : ℝ}, 0 ≤ p → p ≤ n →
    ∑ i ∈ Finset.range (n + 1), max 0 (1 - |p - i|) * (α * i + β) = α * p + β
  | 0, p, h0, h1 => by
    have : p = 0 := le_antisymm (by exact_mod_cast h1) h0
    simp [this]
  | n + 1, p, h0, h1 => by
    rw [Finset.sum_range_succ]
    rcases le_or_gt p n with h | h
    · rw [triangle_sum α β n h0 h, max_eq_left, zero_mul, add_zero]
      push_cast
      rw [abs_of_nonpos (by linarith)]
      linarith
    · rw [Finset.sum_range_succ, Finset.sum_eq_zero, zero_add]
      · push_cast at h1 ⊢
        rw [abs_of_nonneg (by linarith), abs_of_nonpos (by linarith), max_eq_right (by linarith), max_eq_right (by linarith)]
        ring
      · intro i hi
        have : (i : ℝ) + 1 ≤ n := by exact_mod_cast Finset.mem_range.1 hi
        rw [max_eq_left, zero_mul]
        rw [abs_of_nonneg (by linarith)]
        linarith

theorem rawWeight_affine (hr : 0 < rate) (hn : 0 < n) (o : Fin (rate * n)) (h0 : 0 ≤ samplePos n (rate * n) o)
    (h1 : samplePos n (rate * n) o ≤ n - 1) (α β : ℝ) :
    ∑ i : Fin n, rawWeight n (rate * n) i o * (α * i + β) = α * samplePos n (rate * n) o + β := by
  obtain ⟨k, rfl⟩ : ∃ k, n = k + 1 := ⟨n - 1, by omega⟩
  rw [← triangle_sum α β k h0 (by push_cast at h1; linarith), Finset.sum_range]
  exact Finset.sum_congr rfl fun i _ => by rw [rawWeight_eq hr hn]

theorem weight_affine (hr : 0 < rate) (hn : 0 < n) (o : Fin (rate * n)) (h0 : 0 ≤ samplePos n (rate * n) o)
    (h1 : samplePos n (rate * n) o ≤ n - 1) (α β : ℝ) :
    ∑ i : Fin n, weight n (rate * n) i o * (α * i + β) = α * samplePos n (rate * n) o + β := by
  have h := rawWeight_affine hr hn o h0 h1
  have ht : ∑ i : Fin n, rawWeight n (rate * n) i o = 1 := by simpa using h 0 1
  simp only [weight_eq hr hn, ht, div_one]
  exact h α β

/-- A weight of one. -/
theorem weight_node (hr : 0 < rate) (hn : 0 < n) (o : Fin (rate * n)) (a : Fin n) (h : samplePos n (rate * n) o = a) (i : Fin n) :
    weight n (rate * n) i o = if i = a then 1 else 0 := by
  have hraw : ∀ k : Fin n, rawWeight n (rate * n) k o = if k = a then 1 else 0 := by
    intro k
    rw [rawWeight_eq hr hn, h]
    split_ifs with hk
    · simp [hk]
    · refine max_eq_left ?_
      have : (1 : ℝ) ≤ |((a : ℕ) : ℝ) - (k : ℕ)| := by
        have h2 : (1 : ℤ) ≤ |((a : ℕ) : ℤ) - (k : ℕ)| := Int.one_le_abs (by
          intro h3
          exact hk (Fin.ext (by omega)))
        exact_mod_cast h2
      linarith
  rw [weight_eq hr hn]
  simp only [hraw]
  simp

end Weights

/-! ### Images -/

section Images

variable {n rate c : ℕ}

/-- **C90, range.**  The enlarged image stays between the bounds of the small one; in particular constants are reproduced. -/
theorem C90_resize_range (hr : 0 < rate) (hn : 0 < n) {img : Fin n → Fin n → Fin c → ℝ} {lo hi : ℝ} {ch : Fin c}
    (h : ∀ i j, lo ≤ img i j ch ∧ img i j ch ≤ hi) (x y : Fin (rate * n)) :
    lo ≤ resize (rate * n) (rate * n) img x y ch ∧ resize (rate * n) (rate * n) img x y ch ≤ hi := by
  obtain ⟨hx0, hx1, -⟩ := C90_weights hr hn x
  obtain ⟨hy0, hy1, -⟩ := C90_weights hr hn y
  have hc : ∀ a : ℝ, ∑ i, ∑ j, weight n (rate * n) i x * weight n (rate * n) j y * a = a := by
    intro a
    simp_rw [mul_assoc, ← Finset.mul_sum, ← Finset.sum_mul]
    rw [hx1, hy1]
    ring
  constructor
  · rw [← hc lo]
    exact Finset.sum_le_sum fun i _ => Finset.sum_le_sum fun j _ =>
      mul_le_mul_of_nonneg_left (h i j).1 (mul_nonneg (hx0 i) (hy0 j))
  · rw [← hc hi]
    exact Finset.sum_le_sum fun i _ => Finset.sum_le_sum fun j _ =>
      mul_le_mul_of_nonneg_left (h i j).2 (mul_nonneg (hx0 i) (hy0 j))

/-- The pixel lies between the centres of the first and of the last blocks. -/
def Interior (n rate o : ℕ) : Prop := rate ≤ 2 * o + 1 ∧ 2 * o + 1 + rate ≤ 2 * rate * n

theorem interior_pos (hr : 0 < rate) (hn : 0 < n) {o : ℕ} (h : Interior n rate o) :
    0 ≤ samplePos n (rate * n) o ∧ samplePos n (rate * n) o ≤ n - 1 := by
  have hr' : (0 : ℝ) < rate := by exact_mod_cast hr
  have h1 : (rate : ℝ) ≤ 2 * o + 1 := by exact_mod_cast h.1
  have h2 : 2 * (o : ℝ) + 1 + rate ≤ 2 * rate * n := by exact_mod_cast h.2
  rw [samplePos_eq hn]
  constructor
  · rw [sub_nonneg, le_div_iff₀ hr']
    linarith
  · rw [tsub_le_iff_right, div_le_iff₀ hr']
    nlinarith

/-- **C90, ramps.**  In the interior the enlargement of an affine image is affine: the value at pixel `(x, y)` is that of the
small image at the point `((x + 1/2) / rate - 1/2, (y + 1/2) / rate - 1/2)`. -/
theorem C90_resize_ramp (hr : 0 < rate) (hn : 0 < n) {img : Fin n → Fin n → Fin c → ℝ} {α β γ : ℝ} {ch : Fin c}
    (h : ∀ i j, img i j ch = α * i + β * j + γ) {x y : Fin (rate * n)} (hx : Interior n rate x) (hy : Interior n rate y) :
    resize (rate * n) (rate * n) img x y ch =
      α * (((x : ℕ) + 1 / 2) / rate - 1 / 2) + β * (((y : ℕ) + 1 / 2) / rate - 1 / 2) + γ := by
  obtain ⟨hx0, hx1⟩ := interior_pos hr hn hx
  obtain ⟨hy0, hy1⟩ := interior_pos hr hn hy
  rw [← samplePos_eq hn, ← samplePos_eq hn]
  have h1 : ∀ i : Fin n, ∑ j : Fin n, weight n (rate * n) i x * weight n (rate * n) j y * img i j ch =
      weight n (rate * n) i x * (α * i + (β * samplePos n (rate * n) y + γ)) := by
    intro i
    have := weight_affine hr hn y hy0 hy1 β (α * i + γ)
    rw [show α * (i : ℝ) + (β * samplePos n (rate * n) y + γ) = β * samplePos n (rate * n) y + (α * i + γ) by ring, ← this,
      Finset.mul_sum]
    refine Finset.sum_congr rfl fun j _ => ?_
    rw [h]
    ring
  rw [resize]
  simp only [h1]
  rw [weight_affine hr hn x hx0 hx1]
  ring

/-- **C90, odd rates.**  For an odd rate the enlarged image equals the small one at the middle pixel of every block, which is the
pixel that the mask without random shifts observes. -/
theorem C90_resize_odd (hr : rate % 2 = 1) (hn : 0 < n) (img : Fin n → Fin n → Fin c → ℝ) (a b : Fin n) (ch : Fin c)
    {x y : Fin (rate * n)} (hx : (x : ℕ) = rate * a + rate / 2) (hy : (y : ℕ) = rate * b + rate / 2) :
    resize (rate * n) (rate * n) img x y ch = img a b ch := by
  have hr0 : 0 < rate := by omega
  have hr' : (0 : ℝ) < rate := by exact_mod_cast hr0
  have h2 : ((rate / 2 : ℕ) : ℝ) * 2 + 1 = rate := by exact_mod_cast (by omega : rate / 2 * 2 + 1 = rate)
  have hp : ∀ (o : Fin (rate * n)) (a : Fin n), (o : ℕ) = rate * a + rate / 2 → samplePos n (rate * n) o = a := by
    intro o a ho
    rw [samplePos_eq hn, ho]
    push_cast
    field_simp
    linarith
  rw [resize]
  simp only [weight_node hr0 hn x a (hp x a hx), weight_node hr0 hn y b (hp y b hy)]
  simp

/-- **C90, even rates.**  For an even rate this fails: the small image is put half a pixel away from where it was observed. -/
theorem C90_resize_even (hr : rate % 2 = 0) (hr0 : 0 < rate) (hn : 2 ≤ n) :
    ∃ img : Fin n → Fin n → Fin 1 → ℝ, ∀ {x y : Fin (rate * n)}, (x : ℕ) = rate / 2 → (y : ℕ) = rate / 2 →
      resize (rate * n) (rate * n) img x y 0 ≠ img ⟨0, by omega⟩ ⟨0, by omega⟩ 0 := by
  refine ⟨fun i _ _ => ((i : ℕ) : ℝ), fun {x y} hx hy => ?_⟩
  have hi : Interior n rate (rate / 2) := by
    refine ⟨by omega, ?_⟩
    have := Nat.mul_le_mul_left (2 * rate) hn
    omega
  rw [C90_resize_ramp hr0 (by omega) (α := 1) (β := 0) (γ := 0) (fun i j => by simp) (hx ▸ hi) (hy ▸ hi), hx]
  have h3 : ((rate / 2 : ℕ) : ℝ) = rate / 2 := by
    have : ((rate / 2 : ℕ) : ℝ) * 2 = rate := by exact_mod_cast (by omega : rate / 2 * 2 = rate)
    linarith
  have hr' : (0 : ℝ) < rate := by exact_mod_cast hr0
  rw [h3]
  have h4 : (1 : ℝ) * (((rate : ℝ) / 2 + 1 / 2) / rate - 1 / 2) + 0 * (((y : ℕ) + 1 / 2) / rate - 1 / 2) + 0 = 1 / (2 * rate) := by
    field_simp
    ring
  rw [h4]
  simp only [Nat.cast_zero]
  positivity

end Images

/-! ### The guess -/

section Guess

variable {low rate c : ℕ} {mask : Mask}

/-- The image of shape `(low, low, c)` with the observed pixels `y0`. -/
def lowRes (hl : mask.obs.length = low * low) (y0 : Fin mask.obs.length × Fin c → ℝ) : Fin low → Fin low → Fin c → ℝ :=
  fun i j ch => y0 (⟨i * low + j, by
    rw [hl]
    have h1 : (i : ℕ) * low + low ≤ low * low := by
      rw [← Nat.succ_mul]
      exact Nat.mul_le_mul_right _ i.2
    have := j.2
    omega⟩, ch)

/-- `interp_x0_sampler` does not raise; its entries are those of the enlarged image at the unobserved pixels. -/
theorem interpX0_eq {res : ℕ} (hp : (mask.unobs ++ mask.obs).Perm (List.range (res * res)))
    (hl : mask.obs.length = low * low) (y0 : Fin mask.obs.length × Fin c → ℝ) :
    ∃ g, interpX0 res low mask y0 = .ok g ∧ ∀ (j : Fin mask.unobs.length) (ch : Fin c) (x y : Fin res),
      mask.unobs[j] = x * res + y → g (j, ch) = resize res res (lowRes hl y0) x y ch := by
  rw [interpX0, dif_pos hl]
  refine ⟨_, rfl, fun j ch x y hj => ?_⟩
  rw [unpackMask_eq hp]
  simp only [Toy.unpackU]
  obtain ⟨h1, h2⟩ := maskEquiv_inl (c := c) hp j ch
  have h3 : (maskEquiv c hp (Sum.inl (j, ch))).1 = finProdFinEquiv (x, y) := by
    apply Fin.ext
    rw [h1, hj]
    simp [finProdFinEquiv]
    ring
  rw [h2, h3, Equiv.symm_apply_apply]
  have h4 : (fun (i j : Fin low) (ch : Fin c) => y0 (Fin.cast hl.symm (finProdFinEquiv (i, j)), ch)) = lowRes hl y0 := by
    funext i j ch
    rw [lowRes]
    congr 2
    apply Fin.ext
    simp [finProdFinEquiv]
    ring
  rw [h4]

theorem unobs_lt {N : ℕ} (hp : (mask.unobs ++ mask.obs).Perm (List.range N)) (j : Fin mask.unobs.length) :
    mask.unobs[j] < N :=
  List.mem_range.1 (hp.mem_iff.1 (List.mem_append_left _ (List.getElem_mem _)))

/-- **C90, the range of the guess.**  If the observed pixels lie between two bounds so do the entries of the interpolated guess. -/
theorem C90_interp_range (hr : 0 < rate) (hn : 0 < low)
    (hp : (mask.unobs ++ mask.obs).Perm (List.range (rate * low * (rate * low)))) (hl : mask.obs.length = low * low)
    {y0 : Fin mask.obs.length × Fin c → ℝ} {lo hi : ℝ} (hy : ∀ p, lo ≤ y0 p ∧ y0 p ≤ hi) :
    ∃ g, interpX0 (rate * low) low mask y0 = .ok g ∧ ∀ p, lo ≤ g p ∧ g p ≤ hi := by
  obtain ⟨g, h1, h2⟩ := interpX0_eq hp hl y0
  refine ⟨g, h1, fun ⟨j, ch⟩ => ?_⟩
  have hlt := unobs_lt hp j
  have hpos : 0 < rate * low := by positivity
  rw [h2 j ch ⟨mask.unobs[j] / (rate * low), Nat.div_lt_of_lt_mul hlt⟩ ⟨mask.unobs[j] % (rate * low), Nat.mod_lt _ hpos⟩
    (by simp only; rw [mul_comm]; exact (Nat.div_add_mod _ _).symm)]
  exact C90_resize_range hr hn (fun i j => hy _) _ _

/-- The random guess lies in `[0, 1)`. -/
theorem C90_random_range {a c : ℕ} {key : Key} {u : Fin a × Fin c → ℝ} (h : (randomX0 a c key).Returns u) (p : Fin a × Fin c) :
    0 ≤ u p ∧ u p < 1 := by
  exact Rand.returns_sample.1 h p

/-- The entries of the random guess are independent and uniform on `[0, 1)`. -/
theorem C90_random_law {a c : ℕ} {key : Key} {lo hi : Fin a × Fin c → ℝ} (h0 : ∀ p, 0 ≤ lo p) (h1 : ∀ p, hi p ≤ 1) :
    Rand.E (randomX0 a c key) ({u | ∀ p, lo p ≤ u p ∧ u p < hi p}.indicator 1) = ∏ p, ENNReal.ofReal (hi p - lo p) := by
  have hset : {u : Fin a × Fin c → ℝ | ∀ p, lo p ≤ u p ∧ u p < hi p} = Set.univ.pi fun p => Set.Ico (lo p) (hi p) := by
    ext u
    simp
  rw [randomX0, Rand.E_sample, hset,
    MeasureTheory.lintegral_indicator_one (MeasurableSet.univ_pi fun _ => measurableSet_Ico), MeasureTheory.Measure.pi_pi]
  refine Finset.prod_congr rfl fun p _ => ?_
  have h2 : Set.Ico (lo p) (hi p) ∩ Set.Ico 0 1 = Set.Ico (lo p) (hi p) :=
    Set.inter_eq_left.2 (Set.Ico_subset_Ico (h0 p) (h1 p))
  rw [unifMeasure, MeasureTheory.Measure.restrict_apply measurableSet_Ico, h2, Real.volume_Ico]

/-- **C90, the blank guess.**  Put together with the observed pixels of an image it is the image with every unobserved pixel set
to zero. -/
theorem C90_blank {w h c : ℕ} (hp : (mask.unobs ++ mask.obs).Perm (List.range (w * h))) (img : Fin (w * h) × Fin c → ℝ)
    {u : Fin mask.unobs.length × Fin c → ℝ} (hu : (blankX0 mask.unobs.length c).Returns u) :
    concatMask w h mask u (unpackMask mask img).2 = .ok fun p => if (p.1 : ℕ) ∈ mask.obs then img p else 0 := by
  obtain rfl : u = fun _ => 0 := Rand.returns_ret.1 hu
  rw [concatMask_eq hp, unpackMask_eq hp]
  refine congrArg Except.ok (funext fun p => ?_)
  obtain ⟨q, rfl⟩ := (maskEquiv c hp).surjective p
  have hd := (List.nodup_append'.1 (hp.nodup_iff.2 List.nodup_range)).2.2
  rcases q with ⟨i, ch⟩ | ⟨i, ch⟩
  · have hm : mask.unobs[i] ∉ mask.obs := fun hm => hd (List.getElem_mem i.2) hm
    rw [(maskEquiv_inl hp i ch).1, if_neg hm]
    simp [Toy.concat]
  · have hm : mask.obs[i] ∈ mask.obs := List.getElem_mem i.2
    rw [(maskEquiv_inr hp i ch).1, if_pos hm]
    simp [Toy.concat, Toy.unpackV]

/-- **C90, ramps.**  Let the mask be that of a super-resolution task without random shifts and let the observed pixels be those of
an affine image.  At the unobserved pixels between the centres of the outer blocks the guess is the image itself for an odd
rate, and the image half a pixel further down and to the right for an even rate. -/
theorem C90_interp_ramp (hr : 0 < rate) (hn : 0 < low) {key : Key} {r : Except String Mask}
    (h : (suprMask (rate * low) (rate * low) key rate false).Returns r) (α β γ : Fin c → ℝ) :
    ∃ mask, r = .ok mask ∧ ∃ g, interpX0 (rate * low) low mask
        (unpackMask (w := rate * low) (h := rate * low) mask fun p =>
          α p.2 * ((p.1 : ℕ) / (rate * low) : ℕ) + β p.2 * ((p.1 : ℕ) % (rate * low) : ℕ) + γ p.2).2 = .ok g ∧
      ∀ (j : Fin mask.unobs.length) (ch : Fin c) (x y : ℕ), mask.unobs[j] = x * (rate * low) + y → y < rate * low →
        Interior low rate x → Interior low rate y →
        g (j, ch) = α ch * x + β ch * y + γ ch + if rate % 2 = 1 then 0 else (α ch + β ch) / 2 := by
  obtain ⟨mask, rfl, hp, hl, -⟩ := C44_supr hr h
  obtain ⟨mask', he, hobs⟩ := C44_supr_centred hr h
  obtain rfl : mask = mask' := Except.ok.inj he
  refine ⟨mask, rfl, ?_⟩
  obtain ⟨g, h1, h2⟩ := interpX0_eq hp hl (unpackMask (w := rate * low) (h := rate * low) mask fun p =>
          α p.2 * ((p.1 : ℕ) / (rate * low) : ℕ) + β p.2 * ((p.1 : ℕ) % (rate * low) : ℕ) + γ p.2).2
  refine ⟨g, h1, fun j ch x y hj hy hix hiy => ?_⟩
  have hlt := unobs_lt hp j
  have hx : x < rate * low := by
    by_contra hx
    have := Nat.mul_le_mul_right (rate * low) (not_lt.1 hx)
    omega
  rw [h2 j ch ⟨x, hx⟩ ⟨y, hy⟩ hj]
  have hs : rate / 2 < rate := Nat.div_lt_self hr one_lt_two
  have hsmall : ∀ a b : Fin low, lowRes hl (unpackMask (w := rate * low) (h := rate * low) mask fun p =>
      α p.2 * ((p.1 : ℕ) / (rate * low) : ℕ) + β p.2 * ((p.1 : ℕ) % (rate * low) : ℕ) + γ p.2).2 a b ch =
      (α ch * rate) * a + (β ch * rate) * b + (α ch * (rate / 2 : ℕ) + β ch * (rate / 2 : ℕ) + γ ch) := by
    intro a b
    rw [lowRes, unpackMask_eq hp]
    simp only [Toy.unpackV]
    rw [(maskEquiv_inr hp _ ch).1, (maskEquiv_inr hp _ ch).2]
    have hk : mask.obs[(a : ℕ) * low + b]'(by
        rw [hl]
        have h1 : (a : ℕ) * low + low ≤ low * low := by
          rw [← Nat.succ_mul]
          exact Nat.mul_le_mul_right _ a.2
        have := b.2
        omega) = (a * rate + rate / 2) * (rate * low) + (b * rate + rate / 2) := by
      simp only [hobs, shownPixels, List.getElem_ofFn]
      rw [Nat.add_comm ((a : ℕ) * low), Nat.add_mul_div_right _ _ hn, Nat.div_eq_of_lt b.2, Nat.add_mul_mod_self_right,
        Nat.mod_eq_of_lt b.2, zero_add]
    have hb : (b : ℕ) * rate + rate / 2 < rate * low := by
      have : ((b : ℕ) + 1) * rate ≤ low * rate := Nat.mul_le_mul_right _ b.2
      rw [mul_comm rate low]
      rw [Nat.succ_mul] at this
      omega
    simp only [Fin.getElem_fin]
    rw [hk, Nat.add_comm _ ((b : ℕ) * rate + rate / 2), Nat.add_mul_div_right _ _ (by positivity), Nat.div_eq_of_lt hb,
      Nat.add_mul_mod_self_right, Nat.mod_eq_of_lt hb]
    push_cast
    ring
  rw [C90_resize_ramp hr hn hsmall hix hiy]
  have hr' : (rate : ℝ) ≠ 0 := by positivity
  split_ifs with hodd
  · have h3 : ((rate / 2 : ℕ) : ℝ) = (rate - 1) / 2 := by
      have : ((rate / 2 : ℕ) : ℝ) * 2 + 1 = rate := by exact_mod_cast (by omega : rate / 2 * 2 + 1 = rate)
      linarith
    rw [h3]
    field_simp
    ring
  · have h3 : ((rate / 2 : ℕ) : ℝ) = rate / 2 := by
      have : ((rate / 2 : ℕ) : ℝ) * 2 = rate := by exact_mod_cast (by omega : rate / 2 * 2 = rate)
      linarith
    rw [h3]
    field_simp
    ring

/-! ### Examples -/

/-- Enlarging 7 × 7 pixels to 28 × 28: the weights of row 5 are those of `7/8`. -/
example : (∀ i, 0 ≤ weight 7 (4 * 7) i 5) ∧ ∑ i, weight 7 (4 * 7) i 5 = 1 :=
  ⟨(C90_weights (by norm_num) (by norm_num) 5).1, (C90_weights (by norm_num) (by norm_num) 5).2.1⟩

/-- Rate 3: the middle pixel of the first block has its observed value. -/
example (img : Fin 2 → Fin 2 → Fin 1 → ℝ) : resize (3 * 2) (3 * 2) img 1 4 0 = img 0 1 0 :=
  C90_resize_odd (rate := 3) (n := 2) rfl (by norm_num) img 0 1 0 rfl rfl

/-- Rate 4: it does not. -/
example : ∃ img : Fin 7 → Fin 7 → Fin 1 → ℝ, resize (4 * 7) (4 * 7) img 2 2 0 ≠ img 0 0 0 := by
  obtain ⟨img, h⟩ := C90_resize_even (rate := 4) (n := 7) rfl (by norm_num) (by norm_num)
  exact ⟨img, h rfl rfl⟩

/-- The task of the experiment: rate 4, 28 × 28 pixels. -/
example {key : Key} {r : Except String Mask} (h : (suprMask (4 * 7) (4 * 7) key 4 false).Returns r) (α β γ : Fin 1 → ℝ) :=
  C90_interp_ramp (rate := 4) (low := 7) (by norm_num) (by norm_num) h α β γ

example : Interior 7 4 2 ∧ Interior 7 4 25 ∧ ¬ Interior 7 4 1 ∧ ¬ Interior 7 4 26 := by
  unfold Interior
  omega

/-- One observed pixel of four. -/
example (y0 : Fin 1 × Fin 2 → ℝ) (hy : ∀ p, 0 ≤ y0 p ∧ y0 p ≤ 1) :
    ∃ g, interpX0 (2 * 1) 1 ⟨[0, 1, 2], [3]⟩ y0 = .ok g ∧ ∀ p, 0 ≤ g p ∧ g p ≤ 1 :=
  C90_interp_range (mask := ⟨[0, 1, 2], [3]⟩) (rate := 2) (low := 1) (by norm_num) (by norm_num) (by decide) rfl hy

/-- Half of the random guesses have their only entry below one half. -/
example (key : Key) : Rand.E (randomX0 1 1 key) ({u | ∀ p, 0 ≤ u p ∧ u p < 1 / 2}.indicator 1) = ENNReal.ofReal (1 / 2) := by
  simpa using C90_random_law (a := 1) (c := 1) (key := key) (lo := fun _ => 0) (hi := fun _ => 1 / 2) (fun _ => le_rfl)
    (fun _ => by norm_num)

example (img : Fin (2 * 2) × Fin 1 → ℝ) :
    concatMask 2 2 ⟨[0, 1, 2], [3]⟩ (fun _ : Fin 3 × Fin 1 => 0) (unpackMask (w := 2) (h := 2) ⟨[0, 1, 2], [3]⟩ img).2 =
      .ok fun p => if (p.1 : ℕ) ∈ [3] then img p else 0 :=
  C90_blank (mask := ⟨[0, 1, 2], [3]⟩) (w := 2) (h := 2) (by decide) img (Rand.returns_ret.2 rfl)

end Guess

end Props
end Fbs
