import Verif.Props.Restore
import Verif.Props.ImgSamplers

/-!
# C44: laws of the masks, and rates larger than the image
-/

namespace Fbs
namespace Props

open MeasureTheory Restore Data Jax
open scoped ENNReal

/-- **C44, rates larger than the image.**  A super-resolution rate of at least both sides of the image, and larger than one of
them, observes no pixel at all, without an exception. -/
theorem C44_supr_large_rate {w h rate : ℕ} (hw : 0 < w) (hh : 0 < h) (hwr : w ≤ rate) (hhr : h ≤ rate) (hlt : w * h < rate ^ 2)
    {key : Key} {random : Bool} {r : Except String Mask} (hr : (suprMask w h key rate random).Returns r) :
    ∃ mask, r = .ok mask ∧ mask.obs = [] ∧ mask.unobs = List.range (w * h) := by
  have hr0 : 0 < rate := by omega
  rw [suprMask, if_neg hr0.ne'] at hr
  obtain ⟨sh, hs, h2⟩ := Rand.returns_bind.1 hr
  have h2 := Rand.returns_ret.1 h2
  subst h2
  rw [Nat.div_eq_of_lt hlt] at hs ⊢
  have h0 : sh = [] := List.length_eq_zero_iff.1 (shifts_ok hr0 hs).1
  have h1 : ∀ n, 0 < n → n ≤ rate → rangeStep n rate = [0] := fun n hn hn' => by
    have : (n + rate - 1) / rate = 1 := by
      rw [Nat.div_eq_iff hr0]
      constructor <;> omega
    simp [rangeStep, this]
  subst h0
  rw [h1 w hw hwr, h1 h hh hhr]
  refine ⟨_, rfl, rfl, ?_⟩
  simp [setdiff1d, allInds_eq]

theorem lintegral_randints {m n : ℕ} [NeZero n] (key : Key) (u : Fin m → Fin n) :
    (randints key m n).E (fun x => if x = u then 1 else 0) = ((n : ℝ≥0∞)⁻¹) ^ m := by
  unfold randints
  rw [Rand.E_sample]
  have h1 : (fun x : Fin m → Fin n => if x = u then (1 : ℝ≥0∞) else 0) = Set.indicator {u} 1 := by
    funext x; simp [Set.indicator]
  have : IsFiniteMeasure ((n : ℝ≥0∞)⁻¹ • (Measure.count : Measure (Fin n))) :=
    ⟨by
      rw [Measure.smul_apply, smul_eq_mul]
      exact ENNReal.mul_lt_top (by simp [pos_iff_ne_zero, NeZero.ne n]) (by simp)⟩
  rw [h1, lintegral_indicator_one (measurableSet_singleton _), Measure.pi_singleton]
  simp

/-- The pixels which are observed if block number `b` shows its pixel in row `(s b).1` and column `(s b).2`. -/
def shownPixels (p q rate : ℕ) (s : Fin (p * q) → Fin rate × Fin rate) : List ℕ :=
  List.ofFn fun b : Fin (p * q) => ((b : ℕ) / q * rate + (s b).1) * (rate * q) + ((b : ℕ) % q * rate + (s b).2)

theorem supr_obs {p q rate : ℕ} (hr : 0 < rate) (s : Fin (p * q) → ℕ × ℕ) (hs : ∀ b, (s b).1 < rate ∧ (s b).2 < rate) :
    (((rangeStep (rate * p) rate).product (rangeStep (rate * q) rate)).zip (List.ofFn s)).map
        (fun x => ravel (rate * p) (rate * q) (x.1.1 + x.2.1) (x.1.2 + x.2.2)) =
      List.ofFn fun b : Fin (p * q) => ((b : ℕ) / q * rate + (s b).1) * (rate * q) + ((b : ℕ) % q * rate + (s b).2) := by
  have hlt1 : ∀ {a s n : ℕ}, a < n → s < rate → a * rate + s < rate * n := by
    intro a s n ha hs
    calc a * rate + s < a * rate + rate := by omega
      _ = rate * (a + 1) := by ring
      _ ≤ rate * n := Nat.mul_le_mul_left _ ha
  have hblocks : (rangeStep (rate * p) rate).product (rangeStep (rate * q) rate) =
      ((List.range p).product (List.range q)).map fun x => (x.1 * rate, x.2 * rate) := by
    rw [rangeStep_mul hr, rangeStep_mul hr]
    simp only [List.product, List.flatMap_map, List.map_flatMap, List.map_map]
    rfl
  have hl : ((List.range p).product (List.range q)).length = p * q := by simp [length_prod]
  rw [hblocks]
  refine List.ext_getElem? fun k => ?_
  by_cases hk : k < p * q
  · have hq : 0 < q := Nat.pos_of_ne_zero fun h => by subst h; omega
    have ha : k / q < p := (Nat.div_lt_iff_lt_mul hq).2 hk
    have hb : k % q < q := Nat.mod_lt _ hq
    have h1 := getElem?_product p q ha hb
    rw [Nat.div_add_mod' k q] at h1
    have h2 := hs ⟨k, hk⟩
    simp only [List.getElem?_map, List.zip, List.getElem?_zipWith, h1, List.getElem?_ofFn, hk, dif_pos, Option.map_some]
    rw [ravel_of_lt (hlt1 ha h2.1) (hlt1 hb h2.2)]
  · rw [List.getElem?_eq_none (by simp [hl]; omega), List.getElem?_eq_none (by simp; omega)]

theorem shownPixels_injective {p q rate : ℕ} : Function.Injective (shownPixels p q rate) := by
  intro s s' h
  have h1 := List.ofFn_injective h
  funext b
  have h2 : ((b : ℕ) / q * rate + (s b).1) * (rate * q) + ((b : ℕ) % q * rate + (s b).2) =
      ((b : ℕ) / q * rate + (s' b).1) * (rate * q) + ((b : ℕ) % q * rate + (s' b).2) := congrFun h1 b
  have hq : 0 < q := Nat.pos_of_ne_zero fun h => by have := b.2; subst h; omega
  have hlt : ∀ t : Fin rate, (b : ℕ) % q * rate + t < rate * q := fun t => by
    have h3 := Nat.mod_lt (b : ℕ) hq
    calc (b : ℕ) % q * rate + t < (b : ℕ) % q * rate + rate := by have := t.2; omega
      _ = rate * ((b : ℕ) % q + 1) := by ring
      _ ≤ rate * q := Nat.mul_le_mul_left _ h3
  have hdm : ∀ i j, j < rate * q → (i * (rate * q) + j) / (rate * q) = i ∧ (i * (rate * q) + j) % (rate * q) = j := fun i j hj =>
    ⟨by rw [Nat.mul_comm, Nat.mul_add_div (by omega), Nat.div_eq_of_lt hj, Nat.add_zero],
     by rw [Nat.mul_comm, Nat.mul_add_mod, Nat.mod_eq_of_lt hj]⟩
  have e1 := hdm ((b : ℕ) / q * rate + (s b).1) _ (hlt (s b).2)
  have e2 := hdm ((b : ℕ) / q * rate + (s' b).1) _ (hlt (s' b).2)
  rw [h2] at e1
  exact Prod.ext (Fin.ext (by omega)) (Fin.ext (by omega))

theorem suprMask_obs {p q rate : ℕ} (hr : 0 < rate) (s : Fin (p * q) → Fin rate × Fin rate) :
    ∃ mask : Mask, mask.obs = shownPixels p q rate s ∧
      (broadcast ((rangeStep (rate * p) rate).product (rangeStep (rate * q) rate))
          (List.ofFn fun b => ((s b).1.1, (s b).2.1))).map (fun bs =>
        let obs := bs.map fun p' => ravel (rate * p) (rate * q) (p'.1.1 + p'.2.1) (p'.1.2 + p'.2.2)
        { unobs := setdiff1d (allInds (rate * p) (rate * q)) obs (rate * p * (rate * q) - p * q), obs := obs : Mask }) = .ok mask := by
  rw [broadcast_eq (by
    rw [rangeStep_mul hr, rangeStep_mul hr, length_prod]
    simp)]
  refine ⟨_, ?_, rfl⟩
  exact supr_obs hr (fun b => ((s b).1.1, (s b).2.1)) fun b => ⟨(s b).1.2, (s b).2.2⟩

/-- **C44, random super-resolution masks.**  With random shifts every choice of one pixel per block is equally likely: rows
and columns within a block, and the blocks, are independent and uniform. -/
theorem C44_supr_law {p q rate : ℕ} (hr : 0 < rate) (key : Key) (s : Fin (p * q) → Fin rate × Fin rate) :
    (suprMask (rate * p) (rate * q) key rate true).E
      (fun r => onOk (fun mask => if mask.obs = shownPixels p q rate s then 1 else 0) r) =
      (((rate : ℝ≥0∞) ^ 2)⁻¹) ^ (p * q) := by
  have hnb : rate * p * (rate * q) / rate ^ 2 = p * q := by
    rw [show rate * p * (rate * q) = rate ^ 2 * (p * q) by ring, Nat.mul_div_cancel_left _ (by positivity)]
  have : NeZero rate := ⟨hr.ne'⟩
  simp only [suprMask, if_neg hr.ne', hnb]
  simp only [shifts, if_true]
  rw [Rand.E_bind, Rand.E_map]
  simp only [Rand.pure_eq, Rand.E_ret]
  have h1 : ∀ u : Fin (p * q * 2) → Fin rate, onOk (fun mask : Mask => if mask.obs = shownPixels p q rate s then (1 : ℝ≥0∞) else 0)
      ((broadcast ((rangeStep (rate * p) rate).product (rangeStep (rate * q) rate))
          (List.ofFn fun b : Fin (p * q) => ((u (finProdFinEquiv (b, (0 : Fin 2))) : ℕ), (u (finProdFinEquiv (b, (1 : Fin 2))) : ℕ)))).map
            (fun bs =>
        let obs := bs.map fun p' => ravel (rate * p) (rate * q) (p'.1.1 + p'.2.1) (p'.1.2 + p'.2.2)
        { unobs := setdiff1d (allInds (rate * p) (rate * q)) obs (rate * p * (rate * q) - p * q), obs := obs : Mask })) =
      if u = fun k => if (finProdFinEquiv.symm k).2 = (0 : Fin 2) then (s (finProdFinEquiv.symm k).1).1
        else (s (finProdFinEquiv.symm k).1).2 then 1 else 0 := by
    intro u
    obtain ⟨mask, hm, he⟩ := suprMask_obs hr fun b =>
      ((u (finProdFinEquiv (b, (0 : Fin 2)))), (u (finProdFinEquiv (b, (1 : Fin 2)))))
    rw [he]
    simp only [onOk, hm, shownPixels_injective.eq_iff]
    refine if_congr ⟨fun h => ?_, fun h => ?_⟩ rfl rfl
    · funext k
      obtain ⟨⟨b, i⟩, rfl⟩ := finProdFinEquiv.surjective k
      have hb := congrFun h b
      simp only [Equiv.symm_apply_apply]
      fin_cases i
      · exact congrArg Prod.fst hb
      · exact congrArg Prod.snd hb
    · subst h
      funext b
      simp
  simp only [h1]
  rw [lintegral_randints, Nat.mul_comm, pow_mul, ENNReal.inv_pow]

/-- **C44, centred super-resolution masks.**  Without random shifts every block shows the pixel in row and column `rate // 2`. -/
theorem C44_supr_centred {p q rate : ℕ} (hr : 0 < rate) {key : Key} {r : Except String Mask}
    (h : (suprMask (rate * p) (rate * q) key rate false).Returns r) :
    ∃ mask, r = .ok mask ∧
      mask.obs = shownPixels p q rate fun _ => (⟨rate / 2, Nat.div_lt_self hr one_lt_two⟩, ⟨rate / 2, Nat.div_lt_self hr one_lt_two⟩) := by
  have hnb : rate * p * (rate * q) / rate ^ 2 = p * q := by
    rw [show rate * p * (rate * q) = rate ^ 2 * (p * q) by ring, Nat.mul_div_cancel_left _ (by positivity)]
  simp only [suprMask, if_neg hr.ne', hnb, shifts, Bool.false_eq_true, if_false] at h
  obtain ⟨sh, hs, h2⟩ := Rand.returns_bind.1 h
  have h1 := Rand.returns_ret.1 hs
  have h2 := Rand.returns_ret.1 h2
  subst h1 h2
  obtain ⟨mask, hm, he⟩ := suprMask_obs (p := p) (q := q) hr fun _ =>
    (⟨rate / 2, Nat.div_lt_self hr one_lt_two⟩, ⟨rate / 2, Nat.div_lt_self hr one_lt_two⟩)
  refine ⟨mask, ?_, hm⟩
  rw [← he]
  simp only [List.ofFn_const]

/-- The four by four image of the experiments' smallest rate: each of the `4 ^ 4` masks has probability `4⁻⁴`. -/
example (key : Key) :=
  C44_supr_law (p := 2) (q := 2) (rate := 2) two_pos key fun b => (⟨(b : ℕ) % 2, Nat.mod_lt _ two_pos⟩, 1)

example : (0 < 3 ∧ 0 < 4 ∧ 3 ≤ 4 ∧ 4 ≤ 4) ∧ 3 * 4 < 4 ^ 2 := by decide

end Props
end Fbs
