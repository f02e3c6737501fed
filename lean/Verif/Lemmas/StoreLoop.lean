import Verif.Lemmas.Averages
import Verif.Lemmas.Minor
import Verif.Model.ChainSamples
import Mathlib.MeasureTheory.Constructions.Pi

/-! Expectations over the stored samples in terms of a Markov kernel. -/

open MeasureTheory ProbabilityTheory
open scoped ENNReal

namespace Fbs
namespace Props

open Jax Chains Losses

variable {σ τ : Type} [MeasurableSpace τ]

/-- From the states satisfying `G`, the part `p` of the state moves according to `K`. -/
structure Runs (next : Key → σ → Rand σ) (p : σ → τ) (G : σ → Prop) (K : τ → Measure τ) : Prop where
  keep : ∀ k s, G s → (next k s).Leaves G
  law : ∀ k s, G s → ∀ F, Measurable F → (next k s).E (fun s' => F (p s')) = ∫⁻ u, F u ∂(K (p s))

/-- Iterated expectation. -/
noncomputable def iterInt (K : τ → Measure τ) (F : τ → ℝ≥0∞) : ℕ → τ → ℝ≥0∞
  | 0, x => F x
  | k + 1, x => ∫⁻ u, iterInt K F k u ∂(K x)

theorem measurable_iterInt {κ : Kernel τ τ} {F : τ → ℝ≥0∞} (hF : Measurable F) : ∀ k, Measurable (iterInt κ F k)
  | 0 => hF
  | k + 1 => (measurable_iterInt hF k).lintegral_kernel

/-- The sum of `f k x` over a list, `k` the number of entries after `x`. -/
def tailSum (f : ℕ → τ → ℝ) : List τ → ℝ
  | [] => 0
  | x :: l => f l.length x + tailSum f l

/-- `g` for the last `n` entries only. -/
noncomputable def lastN (n : ℕ) (g : τ → ℝ) (k : ℕ) (x : τ) : ℝ := if k < n then g x else 0

omit [MeasurableSpace τ] in
theorem tailSum_lastN {n : ℕ} (g : τ → ℝ) : ∀ (b : ℕ) (l : List τ), l.length = b + n →
    tailSum (lastN n g) l = ((l.drop b).map g).sum
  | 0, l, hl => by
    have : ∀ l : List τ, l.length ≤ n → tailSum (lastN n g) l = (l.map g).sum := by
      intro l
      induction l with
      | nil => simp [tailSum]
      | cons x l ih =>
        intro h
        rw [List.length_cons] at h
        rw [tailSum, ih (by omega), lastN, if_pos (by omega), List.map_cons, List.sum_cons]
    simpa using this l (by omega)
  | b + 1, [], hl => by simp at hl; omega
  | b + 1, x :: l, hl => by
    rw [List.length_cons] at hl
    rw [tailSum, tailSum_lastN g b l (by omega), lastN, if_neg (by omega), zero_add, List.drop_succ_cons]

omit [MeasurableSpace τ] in
theorem leaves_store_length {next : Key → σ → Rand σ} {p : σ → τ} : ∀ (n : ℕ) (key : Key) (s : σ),
    (storeLoop next p n key s).Leaves fun l => l.length = n
  | 0, _, _ => rfl
  | n + 1, key, s => (Rand.leaves_true _).bind fun s' _ => (leaves_store_length n (split key 2 0) s').bind fun l hl => by
      show (p s' :: l).length = n + 1
      simp [hl]

theorem E_store_sq {next : Key → σ → Rand σ} {p : σ → τ} {G : σ → Prop} {K : τ → Measure τ}
    [∀ x, IsProbabilityMeasure (K x)] (hr : Runs next p G K) {f : ℕ → τ → ℝ} {b v : ℕ → τ → ℝ} (h : SumMoments K f b v)
    (hf : ∀ n, Measurable (f n)) {C : ℝ} (hC : ∀ n x, |f n x| ≤ C) : ∀ (n : ℕ) (key : Key) (a : ℝ) (s : σ), G s →
    (storeLoop next p n key s).E (fun l => ENNReal.ofReal ((a + tailSum f l) ^ 2)) = sqSum K f n a (p s)
  | 0, key, a, s, _ => by simp [storeLoop, sqSum, tailSum]
  | n + 1, key, a, s, hs => by
    simp only [storeLoop, Rand.E_bind, Rand.pure_eq, Rand.E_ret, tailSum, sqSum]
    have hm : Measurable fun u => sqSum K f n (a + f n u) u := by
      simp only [sqSum_eq h hf hC]
      exact ENNReal.measurable_ofReal.comp ((((measurable_const.add (hf n)).add (h.mb n)).pow_const 2).add (h.mv n))
    rw [← hr.law (split key 2 1) s hs _ hm]
    refine Rand.E_congr_leaves (hr.keep _ _ hs) fun s' hs' => ?_
    rw [← E_store_sq hr h hf hC n (split key 2 0) (a + f n (p s')) s' hs']
    refine Rand.E_congr_leaves (leaves_store_length n _ s') fun l hl => ?_
    rw [hl, add_assoc]

/-- The chains run side by side. -/
theorem E_vmap_pi {C : ℕ} {next : Fin C → Rand σ} {p : σ → τ} {μ : Fin C → Measure τ} [∀ c, IsProbabilityMeasure (μ c)]
    (h : ∀ c F, Measurable F → (next c).E (fun s' => F (p s')) = ∫⁻ u, F u ∂(μ c)) {F : (Fin C → τ) → ℝ≥0∞}
    (hF : Measurable F) : (vmapR next).E (fun s => F fun c => p (s c)) = ∫⁻ x, F x ∂(Measure.pi μ) := by
  induction C with
  | zero =>
    simp only [vmapR, Rand.pure_eq, Rand.E_ret]
    rw [Measure.pi_of_empty, lintegral_dirac' _ hF]
    congr 1
    funext c
    exact c.elim0
  | succ C ih =>
    simp only [vmapR, Rand.E_bind, Rand.pure_eq, Rand.E_ret]
    have e : ∀ (a : σ) (as : Fin C → σ), (fun c => p ((Fin.cons a as : Fin (C + 1) → σ) c))
        = (Fin.cons (p a) fun c => p (as c) : Fin (C + 1) → τ) := fun a as => by
      funext c
      refine Fin.cases rfl (fun c => ?_) c
      simp
    have hcons : Measurable fun q : τ × (Fin C → τ) => (Fin.cons q.1 q.2 : Fin (C + 1) → τ) := by
      refine measurable_pi_iff.2 fun c => ?_
      refine Fin.cases ?_ (fun c => ?_) c
      · exact measurable_fst
      · exact (measurable_pi_apply c).comp measurable_snd
    have hin : ∀ a : σ, (vmapR fun c : Fin C => next c.succ).E (fun as => F fun c => p ((Fin.cons a as : Fin (C + 1) → σ) c))
        = ∫⁻ y, F (Fin.cons (p a) y) ∂(Measure.pi fun c : Fin C => μ c.succ) := fun a => by
      simp only [e]
      exact ih (next := fun c => next c.succ) (μ := fun c => μ c.succ) (fun c F hF => h c.succ F hF)
        (F := fun y => F (Fin.cons (p a) y)) (hF.comp (hcons.comp measurable_prodMk_left))
    rw [Rand.E_congr _ hin, h 0 (fun u => ∫⁻ y, F (Fin.cons u y) ∂(Measure.pi fun c : Fin C => μ c.succ))
      (hF.comp hcons).lintegral_prod_right']
    have hmp := (measurePreserving_piFinSuccAbove μ 0).symm
    rw [← hmp.lintegral_comp hF]
    refine Eq.trans ?_ (lintegral_prod _ (hF.comp hmp.measurable).aemeasurable).symm
    refine lintegral_congr fun u => lintegral_congr fun y => ?_
    simp [MeasurableEquiv.piFinSuccAbove, Fin.insertNthEquiv]

theorem leaves_vmapR {P : σ → Prop} : ∀ {C : ℕ} {next : Fin C → Rand σ}, (∀ c, (next c).Leaves P) →
    (vmapR next).Leaves fun s => ∀ c, P (s c)
  | 0, _, _ => by simp [vmapR, Rand.Leaves]
  | C + 1, next, h => by
    refine (h 0).bind fun a ha => (leaves_vmapR fun c => h c.succ).bind fun as has => ?_
    exact fun c => Fin.cases ha has c

theorem Runs.vmap {next : Key → σ → Rand σ} {p : σ → τ} {G : σ → Prop} {K : τ → Measure τ}
    [∀ x, IsProbabilityMeasure (K x)] (hr : Runs next p G K) (C : ℕ) :
    Runs (vmapNext C next) (fun s c => p (s c)) (fun s => ∀ c, G (s c)) fun x => Measure.pi fun c => K (x c) where
  keep _ _ hs := leaves_vmapR fun c => hr.keep _ _ (hs c)
  law _ _ hs _ hF := E_vmap_pi (fun c F hF => hr.law _ _ (hs c) F hF) hF

variable {next : Key → σ → Rand σ} {p : σ → τ} {G : σ → Prop} {κ : Kernel τ τ} [IsMarkovKernel κ]

theorem measurable_lastN {N : ℕ} {g : τ → ℝ} (hg : Measurable g) (n : ℕ) : Measurable (lastN N g n) := by
  unfold lastN
  split_ifs
  · exact hg
  · exact measurable_const

omit [MeasurableSpace τ] in
theorem abs_lastN_le {N : ℕ} {g : τ → ℝ} {C : ℝ} (hC0 : 0 ≤ C) (hC : ∀ x, |g x| ≤ C) (n : ℕ) (x : τ) : |lastN N g n x| ≤ C := by
  unfold lastN
  split_ifs
  · exact hC x
  · simpa using hC0

/-- Centred expectations of the last `N` terms. -/
theorem abs_sumMean_le {F : τ → ℝ} (hF : Measurable F) (h0 : ∀ x, 0 ≤ F x) (h1 : ∀ x, F x ≤ 1) {m ρ : ℝ} (hm0 : 0 ≤ m)
    (hm1 : m ≤ 1) (hρ0 : 0 ≤ ρ) (hρ : ρ < 1) {A : Set τ}
    (he : ∀ k, ∀ x ∈ A, |(iterInt κ (fun x => ENNReal.ofReal (F x)) k x).toReal - m| ≤ ρ ^ k) (N n : ℕ) (x : τ) (hx : x ∈ A) :
    |sumMean κ (lastN N fun x => F x - m) n x| ≤ ρ ^ (n - N) * (ρ / (1 - ρ)) := by
  set L := iterInt κ fun x => ENNReal.ofReal (F x) with hL
  have hLm : ∀ k, Measurable (L k) := measurable_iterInt (ENNReal.measurable_ofReal.comp hF)
  have hL1 : ∀ k x, L k x ≤ 1 := by
    intro k
    induction k with
    | zero => exact fun x => ENNReal.ofReal_le_one.2 (h1 x)
    | succ k ih =>
      intro x
      refine (lintegral_mono ih).trans ?_
      simp
  have hLt : ∀ k x, L k x ≠ ∞ := fun k x => ne_top_of_le_ne_top ENNReal.one_ne_top (hL1 k x)
  have hL1' : ∀ k x, (L k x).toReal ≤ 1 := fun k x => by
    simpa using ENNReal.toReal_mono ENNReal.one_ne_top (hL1 k x)
  let e : ℕ → τ → ℝ := fun k x => (L k x).toReal - m
  have hes : ∀ k x, e (k + 1) x = ∫ u, e k u ∂(κ x) := fun k x => by
    have hi : Integrable (fun u => (L k u).toReal) (κ x) := .of_bound (hLm k).ennreal_toReal.aestronglyMeasurable 1
      (.of_forall fun u => by simpa [abs_of_nonneg ENNReal.toReal_nonneg] using hL1' k u)
    show (∫⁻ u, L k u ∂(κ x)).toReal - m = ∫ u, ((L k u).toReal - m) ∂(κ x)
    rw [integral_sub hi (integrable_const _), integral_toReal (hLm k).aemeasurable
      (.of_forall fun u => (hLt k u).lt_top)]
    simp
  have heq := sumMean_eq (κ := κ) (f := lastN N fun x => F x - m) (g := fun x => F x - m) (N := N)
    (fun n hn x => by simp [lastN, hn]) (fun n hn x => by simp [lastN, not_lt.2 hn]) (e := e)
    (fun x => by simp [e, hL, iterInt, ENNReal.toReal_ofReal (h0 x)]) hes
    (fun k => (hLm k).ennreal_toReal.sub_const m) (C := 1)
    (fun k x => abs_sub_le_iff.2 ⟨by linarith [hL1' k x], by
      have := @ENNReal.toReal_nonneg (L k x)
      show m - (L k x).toReal ≤ 1
      linarith⟩) n x
  rw [heq]
  refine (Finset.abs_sum_le_sum_abs _ _).trans ?_
  calc ∑ k ∈ Finset.range (min n N), |e (k + (n - N) + 1) x|
      ≤ ∑ k ∈ Finset.range (min n N), ρ ^ (n - N) * ρ * ρ ^ k := Finset.sum_le_sum fun k _ =>
        (he _ x hx).trans_eq (by ring)
    _ = ρ ^ (n - N) * ρ * ∑ k ∈ Finset.range (min n N), ρ ^ k := by rw [Finset.mul_sum]
    _ ≤ ρ ^ (n - N) * ρ * (1 - ρ)⁻¹ := by
        refine mul_le_mul_of_nonneg_left ?_ (by positivity)
        rw [← tsum_geometric_of_lt_one hρ0 hρ]
        exact (summable_geometric_of_lt_one hρ0 hρ).sum_le_tsum _ fun _ _ => by positivity
    _ = _ := by ring

/-- Mean square error of the average over the samples of several chains kept after a burn-in. -/
theorem pooled_mse (hr : Runs next p G κ) {F : τ → ℝ} (hF : Measurable F) (h0 : ∀ x, 0 ≤ F x) (h1 : ∀ x, F x ≤ 1)
    {m ρ : ℝ} (hm0 : 0 ≤ m) (hm1 : m ≤ 1) (hρ0 : 0 ≤ ρ) (hρ : ρ < 1) {A : Set τ} (hA : ∀ x ∈ A, ∀ᵐ u ∂(κ x), u ∈ A)
    (he : ∀ k, ∀ x ∈ A, |(iterInt κ (fun x => ENNReal.ofReal (F x)) k x).toReal - m| ≤ ρ ^ k) (burnin : ℕ) {n C : ℕ}
    (hn : n ≠ 0) (hC : C ≠ 0) (key : Key) {s : Fin C → σ} (hs : ∀ c, G (s c)) (hsA : ∀ c, p (s c) ∈ A) :
    (storeLoop (vmapNext C next) (fun s c => p (s c)) (burnin + n) key s).E
        (fun l => ENNReal.ofReal ((((l.drop burnin).map fun x => ∑ c, F (x c)).sum / (n * C) - m) ^ 2))
      ≤ ENNReal.ofReal ((1 + ρ) / (1 - ρ) / (n * C) + (ρ ^ burnin * (ρ / (1 - ρ)) / n) ^ 2) := by
  have hg : Measurable fun x => F x - m := hF.sub_const m
  have hg1 : ∀ x, |F x - m| ≤ 1 := fun x => abs_sub_le_iff.2 ⟨by linarith [h1 x], by linarith [h0 x]⟩
  set f := lastN n fun x => F x - m with hfd
  have hf : ∀ k, Measurable (f k) := measurable_lastN hg
  have hf1 : ∀ k x, |f k x| ≤ 1 := abs_lastN_le zero_le_one hg1
  have hM := moments_ker (κ := κ) hf hf1
  have hMp := moments_pi (C := C) hM hf hf1
  have hn' : (0 : ℝ) < n := by exact_mod_cast Nat.pos_of_ne_zero hn
  have hC' : (0 : ℝ) < C := by exact_mod_cast Nat.pos_of_ne_zero hC
  have h1ρ : 0 < 1 - ρ := by linarith
  have hfp : ∀ k, Measurable fun x : Fin C → τ => ∑ c, f k (x c) := fun k =>
    Finset.measurable_fun_sum _ fun c _ => (hf k).comp (measurable_pi_apply c)
  have hfp1 : ∀ k (x : Fin C → τ), |∑ c, f k (x c)| ≤ C := fun k x =>
    (Finset.abs_sum_le_sum_abs _ _).trans ((Finset.sum_le_sum fun c _ => hf1 k (x c)).trans (by simp))
  have hmain := E_store_sq (hr.vmap C) hMp hfp hfp1 (burnin + n) key 0 s hs
  rw [sqSum_eq hMp hfp hfp1] at hmain
  have hB := fun k x hx => abs_sumMean_le hF h0 h1 hm0 hm1 hρ0 hρ he n k x hx
  have hB' : ∀ k, ∀ x ∈ A, |sumMean κ f k x| ≤ ρ / (1 - ρ) := fun k x hx => (hB k x hx).trans
    (mul_le_of_le_one_left (by positivity) (pow_le_one₀ hρ0 hρ.le))
  have hle := fun c => hM.sq_le hf hf1 (N := n) (fun k hk x => by simp [hfd, lastN, not_lt.2 hk]) hA hB' (burnin + n) (p (s c))
    (hsA c)
  rw [min_eq_right (by omega)] at hle
  have hrew : (storeLoop (vmapNext C next) (fun s c => p (s c)) (burnin + n) key s).E
        (fun l => ENNReal.ofReal ((((l.drop burnin).map fun x => ∑ c, F (x c)).sum / (n * C) - m) ^ 2))
      = ENNReal.ofReal ((((n : ℝ) * C) ^ 2)⁻¹) * ENNReal.ofReal ((0 + ∑ c, sumMean κ f (burnin + n) (p (s c))) ^ 2
        + ∑ c, sumVar κ f (burnin + n) (p (s c))) := by
    rw [← hmain, ← Rand.E_const_mul _ ENNReal.ofReal_ne_top]
    refine Rand.E_congr_leaves (leaves_store_length _ key s) fun l hl => ?_
    rw [← ENNReal.ofReal_mul (by positivity)]
    congr 1
    have e1 : (fun k (x : Fin C → τ) => ∑ c, f k (x c)) = lastN n fun x => ∑ c, (F (x c) - m) := by
      funext k x
      simp only [hfd, lastN]
      split_ifs <;> simp
    have e2 : ∀ l : List (Fin C → τ), (l.map fun x : Fin C → τ => ∑ c, (F (x c) - m)).sum
        = (l.map fun x => ∑ c, F (x c)).sum - l.length * C * m := by
      intro l
      induction l with
      | nil => simp
      | cons a l ih =>
        rw [List.map_cons, List.sum_cons, ih, List.map_cons, List.sum_cons, List.length_cons]
        simp only [Finset.sum_sub_distrib, Finset.sum_const, Finset.card_univ, Fintype.card_fin, nsmul_eq_mul]
        push_cast
        ring
    rw [e1, tailSum_lastN _ burnin l hl, e2, List.length_drop, hl, Nat.add_sub_cancel_left]
    field_simp
    ring
  rw [hrew, ← ENNReal.ofReal_mul (by positivity)]
  refine ENNReal.ofReal_le_ofReal ?_
  rw [zero_add]
  have hb : |∑ c, sumMean κ f (burnin + n) (p (s c))| ≤ C * (ρ ^ burnin * (ρ / (1 - ρ))) :=
    (Finset.abs_sum_le_sum_abs _ _).trans ((Finset.sum_le_sum fun c _ => hB (burnin + n) _ (hsA c)).trans (by simp))
  have hb2 : (∑ c, sumMean κ f (burnin + n) (p (s c))) ^ 2 ≤ (C * (ρ ^ burnin * (ρ / (1 - ρ)))) ^ 2 := by
    rw [← sq_abs]
    exact pow_le_pow_left₀ (abs_nonneg _) hb 2
  have hv : ∑ c, sumVar κ f (burnin + n) (p (s c)) ≤ C * (n * (1 + 2 * (ρ / (1 - ρ)))) := by
    refine (Finset.sum_le_sum fun c _ => ((le_add_of_nonneg_left (sq_nonneg _)).trans (hle c))).trans ?_
    simp
  calc _ ≤ (((n : ℝ) * C) ^ 2)⁻¹ * ((C * (ρ ^ burnin * (ρ / (1 - ρ)))) ^ 2 + C * (n * (1 + 2 * (ρ / (1 - ρ))))) :=
        mul_le_mul_of_nonneg_left (add_le_add hb2 hv) (by positivity)
    _ = _ := by
      field_simp
      ring

/-- Mean square error of averages over one chain. -/
theorem one_chain_mse (hr : Runs next p G κ) {F : τ → ℝ} (hF : Measurable F) (h0 : ∀ x, 0 ≤ F x) (h1 : ∀ x, F x ≤ 1)
    {m ρ : ℝ} (hm0 : 0 ≤ m) (hm1 : m ≤ 1) (hρ0 : 0 ≤ ρ) (hρ : ρ < 1) {A : Set τ} (hA : ∀ x ∈ A, ∀ᵐ u ∂(κ x), u ∈ A)
    (he : ∀ k, ∀ x ∈ A, |(iterInt κ (fun x => ENNReal.ofReal (F x)) k x).toReal - m| ≤ ρ ^ k) (burnin : ℕ) {n : ℕ}
    (hn : n ≠ 0) (key : Key) {s : σ} (hs : G s) (hsA : p s ∈ A) :
    (storeLoop next p (burnin + n) key s).E (fun l => ENNReal.ofReal ((((l.drop burnin).map F).sum / n - m) ^ 2))
      ≤ ENNReal.ofReal ((1 + ρ) / (1 - ρ) / n) := by
  have hg : Measurable fun x => F x - m := hF.sub_const m
  have hg1 : ∀ x, |F x - m| ≤ 1 := fun x => abs_sub_le_iff.2 ⟨by linarith [h1 x], by linarith [h0 x]⟩
  set f := lastN n fun x => F x - m with hfd
  have hf : ∀ k, Measurable (f k) := measurable_lastN hg
  have hf1 : ∀ k x, |f k x| ≤ 1 := abs_lastN_le zero_le_one hg1
  have hM := moments_ker (κ := κ) hf hf1
  have hn' : (0 : ℝ) < n := by exact_mod_cast Nat.pos_of_ne_zero hn
  have h1ρ : 0 < 1 - ρ := by linarith
  have hmain := E_store_sq hr hM hf hf1 (burnin + n) key 0 s hs
  rw [sqSum_eq hM hf hf1] at hmain
  have hle := hM.sq_le hf hf1 (N := n) (fun k hk x => by simp [hfd, lastN, not_lt.2 hk]) hA
    (fun k x hx => (abs_sumMean_le hF h0 h1 hm0 hm1 hρ0 hρ he n k x hx).trans
      (mul_le_of_le_one_left (by positivity) (pow_le_one₀ hρ0 hρ.le))) (burnin + n) (p s) hsA
  rw [min_eq_right (by omega)] at hle
  have hrew : (storeLoop next p (burnin + n) key s).E (fun l => ENNReal.ofReal ((((l.drop burnin).map F).sum / n - m) ^ 2))
      = ENNReal.ofReal (((n : ℝ) ^ 2)⁻¹) * ENNReal.ofReal ((0 + sumMean κ f (burnin + n) (p s)) ^ 2
        + sumVar κ f (burnin + n) (p s)) := by
    rw [← hmain, ← Rand.E_const_mul _ ENNReal.ofReal_ne_top]
    refine Rand.E_congr_leaves (leaves_store_length _ key s) fun l hl => ?_
    rw [← ENNReal.ofReal_mul (by positivity)]
    congr 1
    have e2 : ∀ l : List τ, (l.map fun x => F x - m).sum = (l.map F).sum - l.length * m := by
      intro l
      induction l with
      | nil => simp
      | cons a l ih => simp only [List.map_cons, List.sum_cons, ih, List.length_cons]; push_cast; ring
    rw [hfd, tailSum_lastN _ burnin l hl, e2, List.length_drop, hl, Nat.add_sub_cancel_left]
    field_simp
    ring
  rw [hrew, ← ENNReal.ofReal_mul (by positivity)]
  refine ENNReal.ofReal_le_ofReal ?_
  rw [zero_add]
  calc _ ≤ ((n : ℝ) ^ 2)⁻¹ * (n * (1 + 2 * (ρ / (1 - ρ)))) := mul_le_mul_of_nonneg_left hle (by positivity)
    _ = _ := by
      field_simp
      ring

omit [MeasurableSpace τ] in
/-- Storing less of the state. -/
theorem E_store_map {α : Type} (g : τ → α) (f : List α → ℝ≥0∞) : ∀ (n : ℕ) (key : Key) (s : σ),
    (storeLoop next (fun s => g (p s)) n key s).E f = (storeLoop next p n key s).E fun l => f (l.map g)
  | 0, _, _ => rfl
  | n + 1, key, s => by
    simp only [storeLoop, Rand.E_bind, Rand.pure_eq, Rand.E_ret]
    refine Rand.E_congr _ fun s' => ?_
    rw [E_store_map g (fun l => f (g (p s') :: l)) n]
    rfl

/-- Closeness of extended numbers, for real numbers. -/
theorem abs_toReal_sub_le {a b r : ℝ≥0∞} (ha : a ≠ ∞) (hb : b ≠ ∞) (hr : r ≠ ∞) (h : a ≤ b + r) (h' : b ≤ a + r) :
    |a.toReal - b.toReal| ≤ r.toReal := by
  have h1 := ENNReal.toReal_mono (ENNReal.add_ne_top.2 ⟨hb, hr⟩) h
  have h2 := ENNReal.toReal_mono (ENNReal.add_ne_top.2 ⟨ha, hr⟩) h'
  rw [ENNReal.toReal_add hb hr] at h1
  rw [ENNReal.toReal_add ha hr] at h2
  exact abs_sub_le_iff.2 ⟨by linarith, by linarith⟩

/-- Chebyshev. -/
theorem E_dev_le {α : Type} (q : Rand α) (X : α → ℝ) {B : ℝ} (h : q.E (fun a => ENNReal.ofReal (X a ^ 2)) ≤ ENNReal.ofReal B)
    {ε : ℝ} (hε : 0 < ε) : q.E (fun a => if ε ≤ |X a| then 1 else 0) ≤ ENNReal.ofReal (B / ε ^ 2) := by
  calc _ ≤ q.E (fun a => ENNReal.ofReal ((ε ^ 2)⁻¹) * ENNReal.ofReal (X a ^ 2)) := Rand.E_mono _ fun a => by
        rw [← ENNReal.ofReal_mul (by positivity)]
        split_ifs with hX
        · rw [← ENNReal.ofReal_one]
          refine ENNReal.ofReal_le_ofReal ?_
          rw [inv_mul_eq_div, one_le_div (by positivity), ← sq_abs (X a)]
          exact pow_le_pow_left₀ hε.le hX 2
        · exact bot_le
    _ = ENNReal.ofReal ((ε ^ 2)⁻¹) * q.E (fun a => ENNReal.ofReal (X a ^ 2)) := Rand.E_const_mul _ ENNReal.ofReal_ne_top _
    _ ≤ ENNReal.ofReal ((ε ^ 2)⁻¹) * ENNReal.ofReal B := by gcongr
    _ = _ := by rw [← ENNReal.ofReal_mul (by positivity), inv_mul_eq_div]

end Props
end Fbs
