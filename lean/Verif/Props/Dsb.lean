import Verif.Model.Dsb
import Mathlib.Tactic.Positivity
import Mathlib.Tactic.Linarith

/-!
# C37: the iterative proportional fitting losses
-/

open Fbs.Jax

namespace Fbs
namespace Spec

variable {ι : Type} [Fintype ι]

/-- The points visited by the simulated process: an Euler chain on the times `t` driven by the noise `r`. -/
noncomputable def visited (f : (ι → ℝ) → ℝ → (ι → ℝ)) (σ : ℝ → ℝ) (t : ℕ → ℝ) (r : ℕ → ι → ℝ) (x : ι → ℝ) :
    ℕ → ι → ℝ
  | 0 => x
  | k + 1 => fun i => visited f σ t r x k i + f (visited f σ t r x k) (t k) i * |t (k + 1) - t k|
      + Real.sqrt |t (k + 1) - t k| * σ (t k) * r k i

/-- The increment mismatch of step `k` between the learnt drift `b` and the simulated drift `f`. -/
noncomputable def mismatch (b f : (ι → ℝ) → ℝ → (ι → ℝ)) (t : ℕ → ℝ) (X : ℕ → ι → ℝ) (k : ℕ) (i : ι) : ℝ :=
  b (X (k + 1)) (t (k + 1)) i * |t (k + 1) - t k| -
    ((X k i + f (X k) (t k) i * |t (k + 1) - t k|) - (X (k + 1) i + f (X (k + 1)) (t k) i * |t (k + 1) - t k|))

/-- Mean over steps of the mean over entries of the squared mismatch. -/
noncomputable def ipfValue (b f : (ι → ℝ) → ℝ → (ι → ℝ)) (t : ℕ → ℝ) (X : ℕ → ι → ℝ) (n : ℕ) : ℝ :=
  (∑ k ∈ Finset.range n, (∑ i, mismatch b f t X k i ^ 2) / Fintype.card ι) / n

/-- The array `t 0, ..., t n`. -/
def grid (t : ℕ → ℝ) (n : ℕ) : Arr1 ℝ := (t 0, (List.range n).map fun k : ℕ => t (k + 1))

end Spec

namespace Props

open Dsb Spec

variable {ι : Type} [Fintype ι]

theorem grid_succ (t : ℕ → ℝ) (n : ℕ) :
    grid t (n + 1) = (t 0, t 1 :: (grid (fun k => t (k + 1)) n).2) := by
  simp only [grid, List.range_succ_eq_map, List.map_cons, List.map_map, Function.comp_def]

theorem grid_length (t : ℕ → ℝ) (n : ℕ) : (grid t n).2.length = n := by simp [grid]

theorem exists_grid (ts : Arr1 ℝ) : ∃ t : ℕ → ℝ, ts = grid t ts.2.length := by
  refine ⟨fun k => ts.toList.getD k 0, ?_⟩
  obtain ⟨a, l⟩ := ts
  refine Prod.ext (by simp [grid, Arr1.toList]) ?_
  refine List.ext_getElem (by simp [grid]) fun k h1 h2 => ?_
  have : k < l.length := h1
  simp [grid, Arr1.toList, this]

omit [Fintype ι] in
theorem visited_shift (f : (ι → ℝ) → ℝ → (ι → ℝ)) (σ : ℝ → ℝ) (t : ℕ → ℝ) (r : ℕ → ι → ℝ) (x : ι → ℝ) (k : ℕ) :
    visited f σ (fun k => t (k + 1)) (fun k => r (k + 1)) (visited f σ t r x 1) k = visited f σ t r x (k + 1) := by
  induction k with
  | zero => rfl
  | succ k ih => funext i; simp only [visited] at ih ⊢; simp only [ih]

omit [Fintype ι] in
theorem mismatch_shift (b f : (ι → ℝ) → ℝ → (ι → ℝ)) (t : ℕ → ℝ) (X : ℕ → ι → ℝ) (k : ℕ) :
    mismatch b f (fun k => t (k + 1)) (fun k => X (k + 1)) k = mismatch b f t X (k + 1) := rfl

theorem contScan (b f : (ι → ℝ) → ℝ → (ι → ℝ)) (σ : ℝ → ℝ) : ∀ (rnds : List (ι → ℝ)) (t : ℕ → ℝ) (x : ι → ℝ) (e : ℝ),
    (scan (contBody b f σ) (x, e) ((grid t rnds.length).init.zip ((grid t rnds.length).2.zip rnds))).1.2 =
      e + ∑ k ∈ Finset.range rnds.length,
        (∑ i, mismatch b f t (visited f σ t (fun k => rnds.getD k 0) x) k i ^ 2) / Fintype.card ι
  | [], t, x, e => by simp [scan]
  | r :: rnds, t, x, e => by
    have ih := contScan b f σ rnds (fun k => t (k + 1)) (visited f σ t (fun k => (r :: rnds).getD k 0) x 1)
      (e + (∑ i, mismatch b f t (visited f σ t (fun k => (r :: rnds).getD k 0) x) 0 i ^ 2) / Fintype.card ι)
    have hv := funext (visited_shift f σ t (fun k => (r :: rnds).getD k 0) x)
    simp only [List.getD_cons_succ] at hv
    rw [hv] at ih
    simp only [mismatch_shift] at ih
    rw [List.length_cons, grid_succ, Finset.sum_range_succ', add_comm (Finset.sum _ _), ← add_assoc, ← ih]
    rfl

omit [Fintype ι] in
theorem contVScan_length (f : (ι → ℝ) → ℝ → (ι → ℝ)) (σ : ℝ → ℝ) : ∀ (l : List (ℝ × ℝ × (ι → ℝ))) (x : ι → ℝ),
    (scan (contVBody f σ) x l).2.length = l.length
  | [], x => rfl
  | e :: l, x => by simp only [scan, List.length_cons, contVScan_length f σ l]

omit [Fintype ι] in
theorem contVErrs_eq (b f : (ι → ℝ) → ℝ → (ι → ℝ)) (σ : ℝ → ℝ) : ∀ (rnds : List (ι → ℝ)) (t : ℕ → ℝ) (x : ι → ℝ),
    contVErrs b f (x, (scan (contVBody f σ) x ((grid t rnds.length).init.zip ((grid t rnds.length).2.zip rnds))).2)
      (grid t rnds.length) =
    (List.range rnds.length).map fun k : ℕ => mismatch b f t (visited f σ t (fun k => rnds.getD k 0) x) k
  | [], t, x => by simp [scan, contVErrs]
  | r :: rnds, t, x => by
    have ih := contVErrs_eq b f σ rnds (fun k => t (k + 1)) (visited f σ t (fun k => (r :: rnds).getD k 0) x 1)
    have hv := funext (visited_shift f σ t (fun k => (r :: rnds).getD k 0) x)
    simp only [List.getD_cons_succ] at hv
    rw [hv] at ih
    simp only [mismatch_shift] at ih
    rw [List.length_cons, grid_succ, List.range_succ_eq_map, List.map_cons, List.map_map]
    have : ((fun k : ℕ => mismatch b f t (visited f σ t (fun k => (r :: rnds).getD k 0) x) k) ∘ Nat.succ) =
      fun k : ℕ => mismatch b f t (visited f σ t (fun k => (r :: rnds).getD k 0) x) (k + 1) := rfl
    rw [this, ← ih]
    rfl

theorem sum_map_range (g : ℕ → ℝ) (n : ℕ) : ((List.range n).map g).sum = ∑ k ∈ Finset.range n, g k := by
  induction n with
  | zero => rfl
  | succ n ih => rw [List.range_succ, List.map_append, List.sum_append, ih, Finset.sum_range_succ]; simp

/-- **C37, value of `ipf_loss_cont`.** -/
theorem C37_cont_value (key : Key) (x0 : ι → ℝ) (t : ℕ → ℝ) (n : ℕ) (b f : (ι → ℝ) → ℝ → (ι → ℝ)) (σ : ℝ → ℝ) :
    ipfLossCont key x0 (grid t n) b f σ =
      (fun rnds => ipfValue b f t (visited f σ t (fun k => rnds.getD k 0) x0) n) <$>
        normalRows (split key 2 1) n ι := by
  simp only [ipfLossCont, grid_length]
  simp only [normalRows, bind_pure_comp, Functor.map_map]
  congr 1
  funext w
  have := contScan b f σ (List.ofFn w) t x0 0
  simp only [List.length_ofFn, zero_add] at this
  rw [this]; rfl

/-- **C37, value of `ipf_loss_cont_v`.** -/
theorem C37_cont_v_value (key : Key) (x0 : ι → ℝ) (t : ℕ → ℝ) (n : ℕ) (b f : (ι → ℝ) → ℝ → (ι → ℝ)) (σ : ℝ → ℝ) :
    ipfLossContV key x0 (grid t n) b f σ =
      (fun rnds => ipfValue b f t (visited f σ t (fun k => rnds.getD k 0) x0) n) <$>
        normalRows (split key 2 1) n ι := by
  simp only [ipfLossContV, grid_length]
  simp only [normalRows, bind_pure_comp, Functor.map_map]
  congr 1
  funext w
  have := contVErrs_eq b f σ (List.ofFn w) t x0
  simp only [List.length_ofFn] at this
  rw [this]
  simp only [meanRows, ipfValue, List.map_map, List.length_map, List.length_range, Function.comp_def]
  rw [← Finset.sum_div, div_div, mul_comm (n : ℝ)]
  rw [sum_map_range]

/-- **C37.** The two continuous-time losses are the same function of their arguments, key included. -/
theorem C37_agree (key : Key) (x0 : ι → ℝ) (ts : Arr1 ℝ) (b f : (ι → ℝ) → ℝ → (ι → ℝ)) (σ : ℝ → ℝ) :
    ipfLossCont key x0 ts b f σ = ipfLossContV key x0 ts b f σ := by
  obtain ⟨t, ht⟩ := exists_grid ts
  rw [ht, C37_cont_value, C37_cont_v_value]

theorem discScan (b f : (ι → ℝ) → ℝ → (ι → ℝ)) (σ : ℝ → ℝ) (hσ : ∀ s, 0 ≤ σ s) (parFn simFn : (ι → ℝ) → ℝ → (ι → ℝ)) :
    ∀ (rnds : List (ι → ℝ)) (t κ : ℕ → ℝ) (x : ι → ℝ) (e : ℝ)
      (_ : ∀ k < rnds.length, ∀ x, simFn x (κ k) = fun i => x i + f x (t k) i * |t (k + 1) - t k|)
      (_ : ∀ k < rnds.length, ∀ x, parFn x (κ (k + 1)) = fun i => x i + b x (t (k + 1)) i * |t (k + 1) - t k|),
    (scan (discBody parFn simFn) (x, e) ((grid κ rnds.length).init.zip ((grid κ rnds.length).2.zip
      (((List.range rnds.length).map fun k : ℕ => |t (k + 1) - t k| * σ (t k) ^ 2).zip rnds)))).1.2 =
      e + ∑ k ∈ Finset.range rnds.length,
        (∑ i, mismatch b f t (visited f σ t (fun k => rnds.getD k 0) x) k i ^ 2) / Fintype.card ι
  | [], t, κ, x, e, _, _ => by simp [scan]
  | r :: rnds, t, κ, x, e, hs, hp => by
    have ih := discScan b f σ hσ parFn simFn rnds (fun k => t (k + 1)) (fun k => κ (k + 1))
      (visited f σ t (fun k => (r :: rnds).getD k 0) x 1)
      (e + (∑ i, mismatch b f t (visited f σ t (fun k => (r :: rnds).getD k 0) x) 0 i ^ 2) / Fintype.card ι)
      (fun k hk => hs (k + 1) (by simpa using hk)) (fun k hk => hp (k + 1) (by simpa using hk))
    have hv := funext (visited_shift f σ t (fun k => (r :: rnds).getD k 0) x)
    simp only [List.getD_cons_succ] at hv
    rw [hv] at ih
    simp only [mismatch_shift] at ih
    rw [List.length_cons, grid_succ, Finset.sum_range_succ', add_comm (Finset.sum _ _), ← add_assoc, ← ih,
      List.range_succ_eq_map, List.map_cons, List.map_map]
    have hsq : Real.sqrt (|t 1 - t 0| * σ (t 0) ^ 2) = Real.sqrt |t 1 - t 0| * σ (t 0) := by
      rw [Real.sqrt_mul (abs_nonneg _), Real.sqrt_sq (hσ _)]
    have h1 : (fun i => simFn x (κ 0) i + Real.sqrt (|t 1 - t 0| * σ (t 0) ^ 2) * r i) =
        visited f σ t (fun k => (r :: rnds).getD k 0) x 1 := by
      funext i
      rw [hs 0 (by simp), hsq]; simp [visited]
    have hbody : discBody parFn simFn (x, e) (κ 0, κ 1, |t 1 - t 0| * σ (t 0) ^ 2, r) =
        ((visited f σ t (fun k => (r :: rnds).getD k 0) x 1,
          e + (∑ i, mismatch b f t (visited f σ t (fun k => (r :: rnds).getD k 0) x) 0 i ^ 2) / Fintype.card ι), ()) := by
      have h1' : ∀ i, simFn x (κ 0) i + Real.sqrt (|t 1 - t 0| * σ (t 0) ^ 2) * r i =
        visited f σ t (fun k => (r :: rnds).getD k 0) x 1 i := fun i => congrFun h1 i
      simp only [discBody, h1']
      rw [hs 0 (by simp), hs 0 (by simp), hp 0 (by simp), mean]
      congr 4
      refine Finset.sum_congr rfl fun i _ => ?_
      simp only [mismatch]
      have h0 : visited f σ t (fun k => (r :: rnds).getD k 0) x 0 = x := rfl
      rw [h0]
      ring
    have hz : ∀ l, scan (discBody parFn simFn) (x, e) ((κ 0, κ 1, |t 1 - t 0| * σ (t 0) ^ 2, r) :: l) =
        ((scan (discBody parFn simFn) (discBody parFn simFn (x, e) (κ 0, κ 1, |t 1 - t 0| * σ (t 0) ^ 2, r)).1 l).1,
          () :: (scan (discBody parFn simFn)
            (discBody parFn simFn (x, e) (κ 0, κ 1, |t 1 - t 0| * σ (t 0) ^ 2, r)).1 l).2) := fun l => rfl
    refine (congrArg (fun p => p.1.2) (hz _)).trans ?_
    rw [hbody]
    rfl

/-- **C37, the discrete loss.**  With Euler maps in place of drifts and the matching noise scale, `ipf_loss_disc`
is the number of steps times the continuous loss.  `κ` are the step labels passed as `ks`. -/
theorem C37_disc (key : Key) (x0 : ι → ℝ) (t κ : ℕ → ℝ) (n : ℕ) (b f : (ι → ℝ) → ℝ → (ι → ℝ)) (σ : ℝ → ℝ)
    (hσ : ∀ s, 0 ≤ σ s) (parFn simFn : (ι → ℝ) → ℝ → (ι → ℝ))
    (hs : ∀ k < n, ∀ x, simFn x (κ k) = fun i => x i + f x (t k) i * |t (k + 1) - t k|)
    (hp : ∀ k < n, ∀ x, parFn x (κ (k + 1)) = fun i => x i + b x (t (k + 1)) i * |t (k + 1) - t k|) :
    ipfLossDisc x0 (grid κ n) ((List.range n).map fun k : ℕ => |t (k + 1) - t k| * σ (t k) ^ 2) parFn simFn key =
      (fun v : ℝ => n * v) <$> ipfLossCont key x0 (grid t n) b f σ := by
  rw [C37_cont_value]
  simp only [ipfLossDisc, grid_length]
  simp only [normalRows, bind_pure_comp, Functor.map_map]
  congr 1
  funext w
  have := discScan b f σ hσ parFn simFn (List.ofFn w) t κ x0 0 (by simpa using hs) (by simpa using hp)
  simp only [List.length_ofFn, zero_add] at this
  rw [this, ipfValue]
  rcases Nat.eq_zero_or_pos n with rfl | hn
  · simp
  · field_simp

theorem ipfValue_nonneg (b f : (ι → ℝ) → ℝ → (ι → ℝ)) (t : ℕ → ℝ) (X : ℕ → ι → ℝ) (n : ℕ) : 0 ≤ ipfValue b f t X n := by
  unfold ipfValue; positivity

theorem ipfValue_zero [Nonempty ι] (b f : (ι → ℝ) → ℝ → (ι → ℝ)) (t : ℕ → ℝ) (X : ℕ → ι → ℝ) {n : ℕ} (hn : n ≠ 0) :
    ipfValue b f t X n = 0 ↔ ∀ k < n, ∀ i, mismatch b f t X k i = 0 := by
  have hn' : (n : ℝ) ≠ 0 := by exact_mod_cast hn
  have hc : (Fintype.card ι : ℝ) ≠ 0 := by exact_mod_cast Fintype.card_ne_zero
  rw [ipfValue, div_eq_zero_iff, or_iff_left hn', Finset.sum_eq_zero_iff_of_nonneg fun k _ => by positivity]
  refine ⟨fun h k hk i => ?_, fun h k hk => ?_⟩
  · have := h k (Finset.mem_range.2 hk)
    rw [div_eq_zero_iff, or_iff_left hc, Finset.sum_eq_zero_iff_of_nonneg fun i _ => sq_nonneg _] at this
    exact pow_eq_zero_iff (two_ne_zero) |>.1 (this i (Finset.mem_univ i))
  · rw [Finset.sum_eq_zero fun i _ => by rw [h k (Finset.mem_range.1 hk) i]; ring, zero_div]

/-- **C37.** Every returned loss is non-negative. -/
theorem C37_nonneg (key : Key) (x0 : ι → ℝ) (ts : Arr1 ℝ) (b f : (ι → ℝ) → ℝ → (ι → ℝ)) (σ : ℝ → ℝ) {v : ℝ}
    (h : (ipfLossCont key x0 ts b f σ).Returns v) : 0 ≤ v := by
  obtain ⟨t, ht⟩ := exists_grid ts
  rw [ht, C37_cont_value, Rand.returns_map] at h
  obtain ⟨_, -, rfl⟩ := h
  exact ipfValue_nonneg ..

/-- The discrete loss is non-negative for arbitrary maps and step sizes. -/
theorem C37_disc_nonneg (key : Key) (x0 : ι → ℝ) (ks : Arr1 ℝ) (gammas : List ℝ) (parFn simFn : (ι → ℝ) → ℝ → (ι → ℝ))
    {v : ℝ} (h : (ipfLossDisc x0 ks gammas parFn simFn key).Returns v) : 0 ≤ v := by
  have aux : ∀ (l : List (ℝ × ℝ × ℝ × (ι → ℝ))) (c : (ι → ℝ) × ℝ), 0 ≤ c.2 →
      0 ≤ (scan (discBody parFn simFn) c l).1.2 := by
    intro l
    induction l with
    | nil => intro c hc; exact hc
    | cons e l ih =>
      intro c hc
      refine ih _ ?_
      refine add_nonneg hc ?_
      unfold mean; positivity
  simp only [ipfLossDisc, Rand.returns_bind, Rand.pure_eq, Rand.returns_ret] at h
  obtain ⟨_, -, rfl⟩ := h
  exact aux _ _ le_rfl

/-- **C37.** The loss of a draw vanishes exactly when the matched increments agree at every visited point. -/
theorem C37_zero [Nonempty ι] (key : Key) (x0 : ι → ℝ) (t : ℕ → ℝ) {n : ℕ} (hn : n ≠ 0) (b f : (ι → ℝ) → ℝ → (ι → ℝ))
    (σ : ℝ → ℝ) : ∃ loss : List (ι → ℝ) → ℝ,
      ipfLossCont key x0 (grid t n) b f σ = loss <$> normalRows (split key 2 1) n ι ∧
      ∀ rnds, loss rnds = 0 ↔
        ∀ k < n, ∀ i, mismatch b f t (visited f σ t (fun k => rnds.getD k 0) x0) k i = 0 :=
  ⟨_, C37_cont_value .., fun _ => ipfValue_zero _ _ _ _ hn⟩

/-- The hypotheses of `C37_disc` are met by step labels `0, 1, ..., n` on a non-uniform grid. -/
example (b f : (Fin 2 → ℝ) → ℝ → (Fin 2 → ℝ)) (t : ℕ → ℝ) (n : ℕ) :
    ∃ parFn simFn : (Fin 2 → ℝ) → ℝ → (Fin 2 → ℝ),
      (∀ k < n, ∀ x, simFn x (k : ℝ) = fun i => x i + f x (t k) i * |t (k + 1) - t k|) ∧
      (∀ k < n, ∀ x, parFn x ((k + 1 : ℕ) : ℝ) = fun i => x i + b x (t (k + 1)) i * |t (k + 1) - t k|) := by
  refine ⟨fun x s i => x i + b x (t ⌊s⌋₊) i * |t ⌊s⌋₊ - t (⌊s⌋₊ - 1)|,
    fun x s i => x i + f x (t ⌊s⌋₊) i * |t (⌊s⌋₊ + 1) - t ⌊s⌋₊|, fun k _ x => ?_, fun k _ x => ?_⟩
  · simp only [Nat.floor_natCast]
  · simp only [Nat.floor_natCast, Nat.add_sub_cancel]

end Props
end Fbs
