import Verif.Lemmas.Ideal
import Verif.Spec.Ideal
import Verif.Props.Ergodic
import Verif.Props.ForcePeskun
import Verif.Props.PosteriorStability

/-!
# C97: one call of the conditional samplers is a draw from the target up to `O(1/N)`
-/

open MeasureTheory ProbabilityTheory
open scoped ENNReal

namespace Fbs
namespace Props

open Jax Spec Csmc Gibbs

variable {n N : ℕ} {U V Z : Type} [MeasurableSpace U]

/-! ### Arithmetic -/

theorem stepShare_ge [NeZero N] {κ β : ℝ} (hκ : ((N : ℝ) - 1) ^ 2 / N ≤ κ) (hβ : 0 ≤ β) {i K : ℕ} (hi : i ≤ K + 1) :
    ENNReal.ofReal (1 - 2 * (1 + Real.exp (2 * β * (K + 1))) / N) ≤ stepShare κ β N i := by
  have hN : (0 : ℝ) < N := by exact_mod_cast Nat.pos_of_ne_zero (NeZero.ne N)
  refine ENNReal.ofReal_le_ofReal ?_
  have hi' : (i : ℝ) ≤ K + 1 := by exact_mod_cast hi
  have h1 : Real.exp (2 * β * i) ≤ Real.exp (2 * β * (K + 1)) :=
    Real.exp_le_exp.2 (mul_le_mul_of_nonneg_left hi' (by linarith))
  have he := Real.exp_pos (2 * β * i)
  set E := Real.exp (2 * β * i)
  set E' := Real.exp (2 * β * (K + 1))
  have h2 : 1 - 2 * (1 + E') / N ≤ 1 - 2 * (1 + E) / N := by
    have : 2 * (1 + E) / (N : ℝ) ≤ 2 * (1 + E') / N := div_le_div_of_nonneg_right (by linarith) hN.le
    linarith
  refine h2.trans ?_
  have h3 : ((N : ℝ) - 1) ^ 2 / N / (2 * E + N) ≤ κ / (2 * E + N) := div_le_div_of_nonneg_right hκ (by positivity)
  refine le_trans ?_ h3
  rw [div_div, le_div_iff₀ (by positivity)]
  have e : (1 - 2 * (1 + E) / (N : ℝ)) * (N * (2 * E + N)) = (N - 2 * (1 + E)) * (2 * E + N) := by field_simp
  rw [e]
  nlinarith [sq_nonneg E]

theorem passShare_ge [NeZero N] {κ β : ℝ} (hκ : ((N : ℝ) - 1) ^ 2 / N ≤ κ) (hβ : 0 ≤ β) (K : ℕ) :
    ENNReal.ofReal (1 - 2 * (1 + Real.exp (2 * β * (K + 1))) / N) ^ K ≤ passShare κ β N K := by
  unfold passShare
  calc _ = ∏ i ∈ Finset.range K, ENNReal.ofReal (1 - 2 * (1 + Real.exp (2 * β * (K + 1))) / N) := by simp
    _ ≤ _ := Finset.prod_le_prod' fun i hi => stepShare_ge hκ hβ (by have := Finset.mem_range.1 hi; omega)

theorem one_le_share [NeZero N] {κ β : ℝ} (hκ : ((N : ℝ) - 1) ^ 2 / N ≤ κ) (hβ : 0 ≤ β) (K : ℕ) {r : ℝ≥0∞}
    (hr : ENNReal.ofReal (1 - 2 * (1 + Real.exp (2 * β * (K + 1))) / N) ≤ r) :
    1 ≤ passShare κ β N K * r + ENNReal.ofReal (idealErr β N K) := by
  have hN : (0 : ℝ) < N := by exact_mod_cast Nat.pos_of_ne_zero (NeZero.ne N)
  have h1 := mul_le_mul' (passShare_ge (N := N) hκ hβ K) hr
  rw [← pow_succ] at h1
  refine le_trans ?_ (add_le_add h1 le_rfl)
  set x := 2 * (1 + Real.exp (2 * β * (K + 1))) / (N : ℝ) with hx
  have hx0 : 0 ≤ x := by positivity
  have hK : idealErr β N K = (K + 1) * x := by rw [idealErr, hx]; ring
  rw [hK]
  by_cases h : 1 ≤ x
  · have : 1 ≤ ((K : ℝ) + 1) * x := by nlinarith [(Nat.cast_nonneg K : (0 : ℝ) ≤ K)]
    calc (1 : ℝ≥0∞) = ENNReal.ofReal 1 := by simp
      _ ≤ ENNReal.ofReal ((K + 1) * x) := ENNReal.ofReal_le_ofReal this
      _ ≤ _ := le_add_self
  · push Not at h
    rw [← ENNReal.ofReal_pow (by linarith), ← ENNReal.ofReal_add (pow_nonneg (by linarith) _) (by positivity)]
    have h2 := one_add_mul_le_pow (a := -x) (by linarith) (K + 1)
    push_cast at h2
    calc (1 : ℝ≥0∞) = ENNReal.ofReal 1 := by simp
      _ ≤ _ := ENNReal.ofReal_le_ofReal (by rw [sub_eq_add_neg]; linarith)

theorem two_sided {Θ δ e e' s s' : ℝ≥0∞} (hΘ : 1 ≤ Θ + δ) (h : Θ * s ≤ e) (h' : Θ * s' ≤ e') (he : e + e' ≤ 1)
    (hs : s + s' = 1) : e ≤ s + δ ∧ s ≤ e + δ := by
  have hs1 : s ≤ 1 := hs ▸ le_self_add
  have hs1' : s' ≤ 1 := hs ▸ le_add_self
  have key : ∀ t : ℝ≥0∞, t ≤ 1 → t ≤ Θ * t + δ := fun t ht => by
    calc t = 1 * t := (one_mul t).symm
      _ ≤ (Θ + δ) * t := mul_le_mul' hΘ le_rfl
      _ = Θ * t + δ * t := add_mul _ _ _
      _ ≤ Θ * t + δ := add_le_add le_rfl (mul_le_of_le_one_right bot_le ht)
  refine ⟨?_, (key s hs1).trans (add_le_add h le_rfl)⟩
  have hfin : Θ * s' ≠ ∞ := ne_top_of_le_ne_top ENNReal.one_ne_top (h'.trans (le_add_self.trans he))
  refine (ENNReal.add_le_add_iff_right hfin).1 ?_
  calc e + Θ * s' ≤ e + e' := add_le_add le_rfl h'
    _ ≤ s + s' := he.trans hs.symm.le
    _ ≤ s + (Θ * s' + δ) := add_le_add le_rfl (key s' hs1')
    _ = _ := by ring

/-! ### The ideal draws are probabilities -/

theorem measurable_tail {K : ℕ} {φ : List U → ℝ≥0∞} (hφ : MeasList (1 + K) φ) :
    Measurable fun q : U × (ℕ → U) => φ (q.1 :: (List.range K).map q.2) := by
  have := measurable_prefix (p := []) (n := K) hφ (by simp; omega)
  simpa using this

theorem pathInt_compl {ss : List (FKStep U)} {φ : List U → ℝ≥0∞} (hφ : MeasList (1 + ss.length) φ) (h1 : ∀ l, φ l ≤ 1)
    (u : U) : pathInt ss u (fun l => φ (u :: l)) + pathInt ss u (fun l => 1 - φ (u :: l)) = pathInt ss u fun _ => 1 := by
  have h := pathInt_add ss u (f := fun l => φ (u :: l)) (g := fun l => 1 - φ (u :: l))
    ((measurable_tail hφ).comp (measurable_prodMk_left (x := u)))
  have e : ∀ l, φ (u :: l) + (1 - φ (u :: l)) = 1 := fun l => add_tsub_cancel_of_le (h1 _)
  simp only [e] at h
  exact h.symm

theorem pathInt_one_ne {β : ℝ} {ss : List (FKStep U)} (hβ : ∀ s ∈ ss, ∀ u, |s.g u| ≤ β) (u : U) :
    (pathInt ss u fun _ => 1) ≠ 0 ∧ (pathInt ss u fun _ => 1) ≠ ∞ :=
  ⟨(pathInt_pos ss u).ne', ne_top_of_le_ne_top (ENNReal.pow_ne_top ENNReal.ofReal_ne_top) (pathInt_one_le ss hβ u)⟩

theorem pinMean_add {β : ℝ} {ss : List (FKStep U)} (hβ : ∀ s ∈ ss, ∀ u, |s.g u| ≤ β) {φ : List U → ℝ≥0∞}
    (hφ : MeasList (1 + ss.length) φ) (h1 : ∀ l, φ l ≤ 1) (u : U) :
    pinMean ss u φ + pinMean ss u (fun l => 1 - φ l) = 1 := by
  unfold pinMean
  rw [← add_mul, pathInt_compl hφ h1 u]
  exact ENNReal.mul_inv_cancel (pathInt_one_ne hβ u).1 (pathInt_one_ne hβ u).2

theorem refMean_add {β : ℝ} {ss : List (FKStep U)} (hβ : ∀ s ∈ ss, ∀ u, |s.g u| ≤ β) {ν : Measure U}
    [IsProbabilityMeasure ν] {g0 : U → ℝ} (hg0 : Measurable g0) (hg : ∀ u, |g0 u| ≤ β) {φ : List U → ℝ≥0∞}
    (hφ : MeasList (1 + ss.length) φ) (h1 : ∀ l, φ l ≤ 1) :
    refMean ν g0 ss φ + refMean ν g0 ss (fun l => 1 - φ l) = 1 := by
  have mG : Measurable fun u => ENNReal.ofReal (Real.exp (g0 u)) :=
    ENNReal.measurable_ofReal.comp (Real.measurable_exp.comp hg0)
  have mφ : Measurable fun u => ENNReal.ofReal (Real.exp (g0 u)) * pathInt ss u fun l => φ (u :: l) :=
    mG.mul (measurable_pathInt_param ss (fun u l => φ (u :: l)) (measurable_tail hφ) id measurable_id)
  have hle : ∀ u, ENNReal.ofReal (Real.exp (g0 u)) * (pathInt ss u fun _ => 1)
      ≤ ENNReal.ofReal (Real.exp β) * ENNReal.ofReal (Real.exp β) ^ ss.length := fun u =>
    mul_le_mul' (ENNReal.ofReal_le_ofReal (Real.exp_le_exp.2 (le_of_abs_le (hg u)))) (pathInt_one_le ss hβ u)
  have hge : ∀ u, ENNReal.ofReal (Real.exp (-β)) * ENNReal.ofReal (Real.exp (-β)) ^ ss.length
      ≤ ENNReal.ofReal (Real.exp (g0 u)) * (pathInt ss u fun _ => 1) := fun u =>
    mul_le_mul' (ENNReal.ofReal_le_ofReal (Real.exp_le_exp.2 (neg_le_of_abs_le (hg u)))) (le_pathInt_one ss hβ u)
  unfold refMean
  rw [← add_mul, ← lintegral_add_left mφ]
  have : ∀ u, ENNReal.ofReal (Real.exp (g0 u)) * pathInt ss u (fun l => φ (u :: l))
      + ENNReal.ofReal (Real.exp (g0 u)) * pathInt ss u (fun l => 1 - φ (u :: l))
      = ENNReal.ofReal (Real.exp (g0 u)) * pathInt ss u fun _ => 1 := by
    intro u
    rw [← mul_add, pathInt_compl hφ h1 u]
  rw [lintegral_congr this]
  refine ENNReal.mul_inv_cancel ?_ ?_
  · have h := lintegral_mono (μ := ν) hge
    simp only [lintegral_const, measure_univ, mul_one] at h
    intro h0
    rw [h0] at h
    have h2 : ENNReal.ofReal (Real.exp (-β)) * ENNReal.ofReal (Real.exp (-β)) ^ ss.length ≠ 0 :=
      mul_ne_zero (ENNReal.ofReal_pos.2 (Real.exp_pos _)).ne' (pow_ne_zero _ (ENNReal.ofReal_pos.2 (Real.exp_pos _)).ne')
    exact h2 (le_bot_iff.1 h)
  · have h := lintegral_mono (μ := ν) hle
    simp only [lintegral_const, measure_univ, mul_one] at h
    exact ne_top_of_le_ne_top (ENNReal.mul_ne_top ENNReal.ofReal_ne_top (ENNReal.pow_ne_top ENNReal.ofReal_ne_top)) h

/-! ### The final choice of the trajectory -/

theorem regular_of_exp [NeZero N] {β : ℝ} (hN : Real.exp (2 * β) < (10 ^ 12 - 1) * ((N : ℝ) - 1)) {lw : Fin N → ℝ}
    (h : ∀ i, |lw i| ≤ β) : Regular (normalise lw) := by
  intro k
  left
  have hw := normalise_weights lw
  have h1 : ∀ j, normalise lw k ≤ Real.exp (2 * β) * normalise lw j := by
    intro j
    rw [normalise_eq, normalise_eq, ← mul_div_assoc]
    refine div_le_div_of_nonneg_right ?_ (Finset.sum_nonneg fun _ _ => (Real.exp_pos _).le)
    rw [← Real.exp_add]
    refine Real.exp_le_exp.2 ?_
    have := (abs_le.1 (h k)).2
    have := (abs_le.1 (h j)).1
    linarith
  have h2 : ((N : ℝ) - 1) * normalise lw k ≤ Real.exp (2 * β) * (1 - normalise lw k) := by
    have h3 : ∑ j ∈ Finset.univ.erase k, normalise lw k ≤ ∑ j ∈ Finset.univ.erase k, Real.exp (2 * β) * normalise lw j :=
      Finset.sum_le_sum fun j _ => h1 j
    rw [← Finset.mul_sum, Finset.sum_const, Finset.card_erase_of_mem (Finset.mem_univ _), Finset.card_univ,
      Fintype.card_fin, nsmul_eq_mul, Nat.cast_sub (Nat.pos_of_ne_zero (NeZero.ne N))] at h3
    have h4 := Finset.add_sum_erase Finset.univ (normalise lw) (Finset.mem_univ k)
    rw [hw.sum_one] at h4
    have h5 : ∑ j ∈ Finset.univ.erase k, normalise lw j = 1 - normalise lw k := by linarith
    rw [h5] at h3
    simpa using h3
  have h0 := hw.nonneg k
  have hE := Real.exp_pos (2 * β)
  refine lt_of_lt_of_le ?_ (le_max_right _ _)
  by_contra hc
  push Not at hc
  have h6 : (1 : ℝ) - normalise lw k ≤ 1e-12 := by linarith
  have h7 : (0 : ℝ) < N - 1 := by
    by_contra hneg
    push Not at hneg
    nlinarith
  have h8 : ((N : ℝ) - 1) * (1 - 1e-12) ≤ Real.exp (2 * β) * 1e-12 :=
    (mul_le_mul_of_nonneg_left hc h7.le).trans (h2.trans (mul_le_mul_of_nonneg_left h6 hE.le))
  norm_num at h8 hN
  linarith

omit [MeasurableSpace U] in
/-- Away from the degenerate branch the forced move chooses every other trajectory at least with its weight. -/
theorem move_ge_regular [NeZero N] (eb : Bool) (F : U → ℝ≥0∞) (st : St N U) (b : Fin N) (hW : Weights st.W)
    (hr : eb = true → Regular st.W) :
    1 * ∑ a ∈ Finset.univ.erase b,
        ENNReal.ofReal (st.W a) * ((st.P a).map Prod.fst).getLast?.elim 0 F ≤ moveΨ eb F st b := by
  unfold moveΨ
  cases eb
  · exact select_ge (fun us => us.getLast?.elim 0 F) st b hW
  · simp only [if_true]
    unfold forceΨ
    refine le_trans ?_ le_self_add
    rw [one_mul]
    refine le_trans (Finset.sum_le_sum fun a ha => ?_) (Finset.sum_le_sum_of_subset (Finset.erase_subset b _))
    refine mul_le_mul' (ENNReal.ofReal_le_ofReal ?_) le_rfl
    have hab := Finset.ne_of_mem_erase ha
    rcases hr rfl b with h | h
    · exact weight_le_moveP hW h hab
    · have h2 : st.W a + st.W b ≤ 1 := by
        rw [← hW.sum_one, ← Finset.sum_pair (f := st.W) hab]
        exact Finset.sum_le_sum_of_subset_of_nonneg (Finset.subset_univ _) fun j _ _ => hW.nonneg j
      exact le_trans (by linarith) (moveP_nonneg hW b a)

theorem measList_getLast {K : ℕ} {F : U → ℝ≥0∞} (hF : Measurable F) :
    MeasList (1 + K) fun us : List U => us.getLast?.elim 0 F := by
  have h : Measurable fun p : Fin (1 + K) → U => F (p ⟨K, by omega⟩) := hF.comp (measurable_pi_apply _)
  unfold MeasList
  convert h using 1
  funext p
  have : (List.ofFn p).getLast? = some (p ⟨K, by omega⟩) := by
    rw [List.getLast?_eq_getElem?]
    simp [show 1 + K - 1 = K by omega]
  simp only [this]
  rfl

theorem measList_compl {K : ℕ} {φ : List U → ℝ≥0∞} (hφ : MeasList K φ) : MeasList K fun l => 1 - φ l :=
  measurable_const.sub hφ

theorem steps_abs {S : StateSpace U V} {β : ℝ} (hβ : ∀ v v' t u, |S.logG v v' t u| ≤ β) (vs : List V) (ts : List ℝ) (v : V) :
    ∀ s ∈ S.steps v vs ts, ∀ u, |s.g u| ≤ β := by
  intro s hs u
  refine abs_le.2 ⟨?_, steps_le (fun v v' t u => le_of_abs_le (hβ v v' t u)) vs ts v s hs u⟩
  have h : ∀ (vs : List V) (ts : List ℝ) (v : V), ∀ s ∈ S.steps v vs ts, ∀ u, -β ≤ s.g u := by
    intro vs
    induction vs with
    | nil => intro ts v s h; simp [StateSpace.steps] at h
    | cons v' vs ih =>
      intro ts v s h u
      cases ts with
      | nil => simp [StateSpace.steps] at h
      | cons t ts =>
        simp only [StateSpace.steps, List.mem_cons] at h
        rcases h with rfl | h
        · exact neg_le_of_abs_le (hβ _ _ _ _)
        · exact ih ts v' s h u
  exact h vs ts v s hs u

/-! ### One call of conditional SMC -/

theorem csmc_ge [NeZero N] {m : Csmc.Funs N U V} {S : StateSpace U V} (hm : Implements m S)
    {res : CondResampling N} (sch : ExactScheme res) {κ : ℝ} (hκ0 : 0 ≤ κ) (hκ : Spreads res κ) (hpb : PairBound res) {β : ℝ}
    (k : ℕ) (key : Key) (us : Arr1 U) (bs : Arr1 (Fin N)) (vs : Arr1 V) (ts : Arr1 ℝ)
    (hβs : ∀ s ∈ S.steps vs.1 vs.2 ts.toList, ∀ u, |s.g u| ≤ β) (hβ0 : ∀ u, |S.logG0 vs.1 (vs.2.headD vs.1) u| ≤ β) (hl : us.2.length = vs.2.length)
    (hb : bs.2.length = vs.2.length) (ht : ts.2.length = vs.2.length) {φ : List U → ℝ≥0∞}
    (hφ : MeasList (1 + vs.2.length) φ) (h1 : ∀ l, φ l ≤ 1) :
    passShare κ β N vs.2.length * stepShare ((N : ℝ) - 1) β N (vs.2.length + 1) *
        refMean S.init (S.logG0 vs.1 (vs.2.headD vs.1)) (S.steps vs.1 vs.2 ts.toList) φ
      ≤ (Csmc.kernel m res k false key us bs vs ts).E fun out => φ out.1 := by
  obtain ⟨u, l⟩ := us
  obtain ⟨b, bl⟩ := bs
  simp only at hl hb
  have hz : (l.zip bl).length = vs.2.length := by simp [hl, hb]
  have hlen : (S.steps vs.1 vs.2 ts.toList).length = vs.2.length := by
    rw [Csmc.steps_length]; simp [Arr1.toList, ht]
  have hout : MeasOut (N := N) (1 + vs.2.length) fun us _ => φ us :=
    hφ.comp (measurable_pi_iff.2 fun j => measurable_fst.comp (measurable_pi_apply j))
  have h := E_forwardPass hm sch (Ψ := selectΨ fun us _ => φ us) k (split key 2 0) ((u, b), l.zip bl) vs ts
    hz.symm (ht.trans hz.symm) (by rw [hz]; exact measFun_select hout)
  have e1 : Arr1.map Prod.fst (((u, b), l.zip bl) : Arr1 (U × Fin N)) = (u, l) := by
    simp [Arr1.map, List.map_fst_zip, hl, hb]
  have e2 : Arr1.map Prod.snd (((u, b), l.zip bl) : Arr1 (U × Fin N)) = (b, bl) := by
    simp [Arr1.map, List.map_snd_zip, hl, hb]
  rw [e1, e2] at h
  rw [E_kernel_scanning m res k key (u, l) (b, bl) vs ts _ (fun us _ => φ us), h]
  have h3 := fun y : Fin N → U => ideal_Cf sch hκ0 hκ hpb (θ := 1) (Ψ := selectΨ fun us _ => φ us) (φ := φ) hφ h1
    (Q := fun _ => True) (fun _ _ => trivial) (fun st b hW _ => select_ge φ st b hW) (S.steps vs.1 vs.2 ts.toList)
    (l.zip bl) (hz.trans hlen.symm) hβs
    (initSt (S.logG0 vs.1 (vs.2.headD vs.1)) (Function.update y b u)) b (normalise_weights _) trivial
    (fun a => by rw [hlen]; rfl)
  refine le_trans ?_ (lintegral_mono h3)
  rw [hlen]
  refine le_trans ?_ (lintegral_const_mul_le _ _)
  rw [one_mul, mul_assoc]
  gcongr
  have h4 := ideal_init (N := N) (S.measG0 vs.1 (vs.2.headD vs.1)) hβ0 S.init u b
    (n := (S.steps vs.1 vs.2 ts.toList).length)
    (Φ := fun u => pathInt (S.steps vs.1 vs.2 ts.toList) u (fun l => φ (u :: l)))
    (D := fun u => pathInt (S.steps vs.1 vs.2 ts.toList) u (fun _ => 1))
    (measurable_pathInt_param _ (fun u l => φ (u :: l)) (measurable_tail (hlen ▸ hφ)) id measurable_id)
    (measurable_pathInt_one _) (fun u => pathInt_mono _ _ fun l => h1 _) (pathInt_one_le _ hβs) (le_pathInt_one _ hβs)
  rw [hlen] at h4
  exact h4

theorem csmc_total [NeZero N] {m : Csmc.Funs N U V} {S : StateSpace U V} (hm : Implements m S)
    {res : CondResampling N} (sch : ExactScheme res) (k : ℕ) (key : Key)
    (us : Arr1 U) (bs : Arr1 (Fin N)) (vs : Arr1 V) (ts : Arr1 ℝ) (hl : us.2.length = vs.2.length)
    (hb : bs.2.length = vs.2.length) (ht : ts.2.length = vs.2.length) :
    (Csmc.kernel m res k false key us bs vs ts).E (fun _ => 1) = 1 := by
  obtain ⟨u, l⟩ := us
  obtain ⟨b, bl⟩ := bs
  simp only at hl hb
  have hz : (l.zip bl).length = vs.2.length := by simp [hl, hb]
  have hout : MeasOut (N := N) (U := U) (1 + vs.2.length) fun _ _ => 1 := measurable_const
  have h := E_forwardPass hm sch (Ψ := selectΨ fun _ _ => 1) k (split key 2 0) ((u, b), l.zip bl) vs ts
    hz.symm (ht.trans hz.symm) (by rw [hz]; exact measFun_select hout)
  have e1 : Arr1.map Prod.fst (((u, b), l.zip bl) : Arr1 (U × Fin N)) = (u, l) := by
    simp [Arr1.map, List.map_fst_zip, hl, hb]
  have e2 : Arr1.map Prod.snd (((u, b), l.zip bl) : Arr1 (U × Fin N)) = (b, bl) := by
    simp [Arr1.map, List.map_snd_zip, hl, hb]
  rw [e1, e2] at h
  rw [E_kernel_scanning m res k key (u, l) (b, bl) vs ts _ (fun _ _ => 1), h]
  have h3 : ∀ y : Fin N → U, Cf sch.cond (selectΨ fun _ _ => 1) (S.steps vs.1 vs.2 ts.toList) (l.zip bl)
      (initSt (S.logG0 vs.1 (vs.2.headD vs.1)) (Function.update y b u)) b = 1 := fun y =>
    Cf_const sch 1 _ _ _ _ (normalise_weights _) (fun a => by simp [initSt]) fun st b hW _ => by
      unfold selectΨ
      rw [hW.sum_one]
      simp only [div_one, mul_one]
      rw [← ENNReal.ofReal_sum_of_nonneg fun m _ => hW.nonneg m, hW.sum_one]
      simp
  rw [lintegral_congr h3]
  simp

/-- The bound below, with log potentials bounded by `β` for the observations at hand. -/
theorem C97_csmc_ideal_at [NeZero N] {m : Csmc.Funs N U V} {S : StateSpace U V} (hm : Implements m S)
    {res : CondResampling N} (sch : ExactScheme res) {κ : ℝ} (hκN : ((N : ℝ) - 1) ^ 2 / N ≤ κ) (hκ : Spreads res κ)
    (hpb : PairBound res) {β : ℝ} (hβ0 : 0 ≤ β)
    (k : ℕ) (key : Key) (us : Arr1 U) (bs : Arr1 (Fin N)) (vs : Arr1 V) (ts : Arr1 ℝ)
    (hβs : ∀ s ∈ S.steps vs.1 vs.2 ts.toList, ∀ u, |s.g u| ≤ β) (hg : ∀ u, |S.logG0 vs.1 (vs.2.headD vs.1) u| ≤ β) (hl : us.2.length = vs.2.length)
    (hb : bs.2.length = vs.2.length) (ht : ts.2.length = vs.2.length) {φ : List U → ℝ≥0∞}
    (hφ : MeasList (1 + vs.2.length) φ) (h1 : ∀ l, φ l ≤ 1) :
    (Csmc.kernel m res k false key us bs vs ts).E (fun out => φ out.1)
        ≤ refMean S.init (S.logG0 vs.1 (vs.2.headD vs.1)) (S.steps vs.1 vs.2 ts.toList) φ
          + ENNReal.ofReal (idealErr β N vs.2.length)
      ∧ refMean S.init (S.logG0 vs.1 (vs.2.headD vs.1)) (S.steps vs.1 vs.2 ts.toList) φ
        ≤ (Csmc.kernel m res k false key us bs vs ts).E (fun out => φ out.1)
          + ENNReal.ofReal (idealErr β N vs.2.length) := by
  have hN : (0 : ℝ) < N := by exact_mod_cast Nat.pos_of_ne_zero (NeZero.ne N)
  have hκ0 : 0 ≤ κ := le_trans (by positivity) hκN
  have hlen : (S.steps vs.1 vs.2 ts.toList).length = vs.2.length := by
    rw [Csmc.steps_length]; simp [Arr1.toList, ht]
  have hN1 : ((N : ℝ) - 1) ^ 2 / N ≤ N - 1 := by
    have : (1 : ℝ) ≤ N := by exact_mod_cast Nat.pos_of_ne_zero (NeZero.ne N)
    rw [div_le_iff₀ hN]
    nlinarith
  refine two_sided (one_le_share hκN hβ0 vs.2.length (stepShare_ge hN1 hβ0 le_rfl))
    (csmc_ge hm sch hκ0 hκ hpb k key us bs vs ts hβs hg hl hb ht hφ h1)
    (csmc_ge hm sch hκ0 hκ hpb k key us bs vs ts hβs hg hl hb ht (measList_compl hφ) fun l => tsub_le_self) ?_
    (refMean_add hβs (S.measG0 _ _) hg (by rw [hlen]; exact hφ) h1)
  refine (Rand.E_add_le _ _ _).trans ?_
  have e : ∀ out : List U × List (Fin N), φ out.1 + (1 - φ out.1) = 1 := fun out => add_tsub_cancel_of_le (h1 _)
  refine le_trans (le_of_eq ?_) (csmc_total hm sch k key us bs vs ts hl hb ht).le
  congr 1
  funext out
  exact e out

/-- **C97, `csmc_kernel` with `backward=False`.** If the log potentials are bounded by `β`, then whatever the reference
trajectory and its indices are, the law of the returned trajectory is within `2 (K+1) (1 + e^{2β(K+1)}) / N` of the
normalised target, in total variation. -/
theorem C97_csmc_ideal [NeZero N] {m : Csmc.Funs N U V} {S : StateSpace U V} (hm : Implements m S)
    {res : CondResampling N} (sch : ExactScheme res) {κ : ℝ} (hκN : ((N : ℝ) - 1) ^ 2 / N ≤ κ) (hκ : Spreads res κ)
    (hpb : PairBound res) {β : ℝ} (hβ0 : 0 ≤ β)
    (hβ : ∀ v v' t u, |S.logG v v' t u| ≤ β) (hg : ∀ v v' u, |S.logG0 v v' u| ≤ β) (k : ℕ) (key : Key)
    (us : Arr1 U) (bs : Arr1 (Fin N)) (vs : Arr1 V) (ts : Arr1 ℝ) (hl : us.2.length = vs.2.length)
    (hb : bs.2.length = vs.2.length) (ht : ts.2.length = vs.2.length) {φ : List U → ℝ≥0∞}
    (hφ : MeasList (1 + vs.2.length) φ) (h1 : ∀ l, φ l ≤ 1) :
    (Csmc.kernel m res k false key us bs vs ts).E (fun out => φ out.1)
        ≤ refMean S.init (S.logG0 vs.1 (vs.2.headD vs.1)) (S.steps vs.1 vs.2 ts.toList) φ
          + ENNReal.ofReal (idealErr β N vs.2.length)
      ∧ refMean S.init (S.logG0 vs.1 (vs.2.headD vs.1)) (S.steps vs.1 vs.2 ts.toList) φ
        ≤ (Csmc.kernel m res k false key us bs vs ts).E (fun out => φ out.1)
          + ENNReal.ofReal (idealErr β N vs.2.length) :=
  C97_csmc_ideal_at hm sch hκN hκ hpb hβ0 k key us bs vs ts (steps_abs hβ _ _ _) (hg _ _) hl hb ht hφ h1

/-! ### One call of the Gibbs kernel -/

theorem E_add_const {α : Type} {p : Rand α} (hp : p.IsProb) (f : α → ℝ≥0∞) (c : ℝ≥0∞) :
    p.E (fun a => f a + c) = p.E f + c := by
  induction p with
  | ret a => rfl
  | draw k β' S μ cont ih =>
    obtain ⟨hμ, hc⟩ := hp
    simp only [Rand.E]
    rw [lintegral_congr fun b => ih b (hc b), lintegral_add_right _ measurable_const]
    simp

/-- Two programs that are close on every outcome of a first stage are close. -/
theorem close_bind {α : Type} {p : Rand α} (hp : p.IsProb) {P : α → Prop} (hP : p.Leaves P) {f g : α → ℝ≥0∞} {δ : ℝ≥0∞}
    (h : ∀ a, P a → f a ≤ g a + δ ∧ g a ≤ f a + δ) : p.E f ≤ p.E g + δ ∧ p.E g ≤ p.E f + δ := by
  rw [← E_add_const hp, ← E_add_const hp]
  exact ⟨Rand.E_mono_leaves hP fun a ha => (h a ha).1, Rand.E_mono_leaves hP fun a ha => (h a ha).2⟩

/-- The ideal call with `explicit_final=False`: the paths as the kernel draws them, then the new state from the end of an
exact draw of the trajectory given its start and the observation path. -/
noncomputable def idealPinned {ef : Bool} (m : Gibbs.Funs (rows n ef) U V Z) (S : StateSpace U V) (margY : Bool) (key : Key)
    (x : U) (y0 : V) (ts : Arr1 ℝ) (F : U → ℝ≥0∞) : ℝ≥0∞ :=
  (gibbsPaths m margY key x y0 ts).E fun q =>
    pinMean (S.steps q.2.1 q.2.2 ts.toList) q.1.1 fun us => us.getLast?.elim 0 F

/-- The ideal call with `explicit_final=True`: the start of the trajectory is drawn as well. -/
noncomputable def idealRef {ef : Bool} (m : Gibbs.Funs (rows n ef) U V Z) (S : StateSpace U V) (ν : Measure U) (margY : Bool)
    (key : Key) (x : U) (y0 : V) (ts : Arr1 ℝ) (F : U → ℝ≥0∞) : ℝ≥0∞ :=
  (gibbsPaths m margY key x y0 ts).E fun q =>
    refMean ν (S.logG q.2.1 (q.2.2.headD q.2.1) ts.1) (S.steps q.2.1 q.2.2 ts.toList) fun us => us.getLast?.elim 0 F

omit [MeasurableSpace U] in
theorem elim_le {F : U → ℝ≥0∞} (h1 : ∀ x, F x ≤ 1) (us : List U) : us.getLast?.elim 0 F ≤ 1 := by
  cases us.getLast? with
  | none => exact bot_le
  | some x => exact h1 x

omit [MeasurableSpace U] in
theorem move_superadd [NeZero N] (eb : Bool) {F : U → ℝ≥0∞} (h1 : ∀ x, F x ≤ 1) (st : St N U) (b : Fin N) :
    moveΨ eb F st b + moveΨ eb (fun x => 1 - F x) st b = moveΨ eb (fun _ => 1) st b := by
  have e : ∀ us : List U, ∀ is : List (Fin N), lastF (fun x _ => F x) us is + lastF (fun x _ => 1 - F x) us is
      = lastF (fun _ _ => 1) us is := by
    intro us is
    unfold lastF
    cases us.getLast? with
    | none => simp
    | some x => exact add_tsub_cancel_of_le (h1 x)
  unfold moveΨ
  cases eb
  · simp only [Bool.false_eq_true, if_false, selectΨ]
    rw [← Finset.sum_add_distrib]
    exact Finset.sum_congr rfl fun a _ => by rw [← mul_add, e]
  · simp only [if_true, forceΨ, keepΨ]
    rw [add_add_add_comm, ← Finset.sum_add_distrib, ← mul_add, e]
    congr 1
    exact Finset.sum_congr rfl fun a _ => by rw [← mul_add, e]

theorem Cf_superadd (c : (Fin N → ℝ) → Fin N → Fin N → (Fin N → Fin N) → ℝ≥0∞) (Ψ Ψ' : St N U → Fin N → ℝ≥0∞) :
    ∀ (ss : List (FKStep U)) (l : List (U × Fin N)) (st : St N U) (b : Fin N),
      Cf c Ψ ss l st b + Cf c Ψ' ss l st b ≤ Cf c (fun st b => Ψ st b + Ψ' st b) ss l st b
  | [], _, _, _ => by simp [Cf]
  | _ :: _, [], _, _ => by simp [Cf]
  | s :: ss, (u', b') :: l, st, b => by
    simp only [Cf]
    rw [← Finset.sum_add_distrib]
    refine Finset.sum_le_sum fun A _ => ?_
    rw [← mul_add]
    refine mul_le_mul' le_rfl ((le_lintegral_add _ _).trans (lintegral_mono fun y => ?_))
    exact Cf_superadd c Ψ Ψ' ss l _ b'

theorem Cf_move_total [NeZero N] (eb : Bool) {F : U → ℝ≥0∞} (h1 : ∀ x, F x ≤ 1) (ss : List (FKStep U))
    (l : List (U × Fin N)) (st : St N U) (b : Fin N) (hW : Weights st.W) (hP : ∀ a, st.P a ≠ []) :
    Cf killingScheme.cond (moveΨ eb F) ss l st b + Cf killingScheme.cond (moveΨ eb fun x => 1 - F x) ss l st b ≤ 1 := by
  refine (Cf_superadd _ _ _ _ _ _ _).trans (le_of_eq ?_)
  refine Cf_const killingScheme 1 _ _ _ _ hW hP fun st b hW hP => ?_
  rw [move_superadd eb h1]
  exact move_const eb 1 st b hW hP

theorem pin_compl {β : ℝ} {ss : List (FKStep U)} (hβ : ∀ s ∈ ss, ∀ u, |s.g u| ≤ β) {F : U → ℝ≥0∞} (hF : Measurable F)
    (h1 : ∀ x, F x ≤ 1) (u : U) :
    pinMean ss u (fun us => us.getLast?.elim 0 F) + pinMean ss u (fun us => us.getLast?.elim 0 fun x => 1 - F x) = 1 := by
  refine Eq.trans ?_ (pinMean_add hβ (measList_getLast hF) (elim_le h1) u)
  congr 1

theorem ref_compl {β : ℝ} {ss : List (FKStep U)} (hβ : ∀ s ∈ ss, ∀ u, |s.g u| ≤ β) {ν : Measure U} [IsProbabilityMeasure ν]
    {g0 : U → ℝ} (hg0 : Measurable g0) (hg : ∀ u, |g0 u| ≤ β) {F : U → ℝ≥0∞} (hF : Measurable F) (h1 : ∀ x, F x ≤ 1) :
    refMean ν g0 ss (fun us => us.getLast?.elim 0 F) + refMean ν g0 ss (fun us => us.getLast?.elim 0 fun x => 1 - F x) = 1 := by
  refine Eq.trans ?_ (refMean_add (ν := ν) hβ hg0 hg (measList_getLast hF) (elim_le h1))
  congr 1

/-- The pass from a pinned start. -/
theorem pinned_ge [NeZero N] {β : ℝ} (eb : Bool)
    (hreg : eb = true → Real.exp (2 * β) < (10 ^ 12 - 1) * ((N : ℝ) - 1)) {ss : List (FKStep U)}
    (hβ : ∀ s ∈ ss, ∀ u, |s.g u| ≤ β) {l : List (U × Fin N)} (hl : l.length = ss.length) (c : ℝ) (u : U) (b : Fin N)
    {F : U → ℝ≥0∞} (hF : Measurable F) (h1 : ∀ x, F x ≤ 1) :
    passShare (((N : ℝ) - 1) ^ 2 / N) β N ss.length * ENNReal.ofReal (1 - 1 / (N : ℝ)) *
        pinMean ss u (fun us => us.getLast?.elim 0 F)
      ≤ Cf killingScheme.cond (moveΨ eb F) ss l (startSt N c u) b := by
  have hN : (0 : ℝ) < N := by exact_mod_cast Nat.pos_of_ne_zero (NeZero.ne N)
  have hQ : ∀ lw : Fin N → ℝ, (∀ i, |lw i| ≤ β) → eb = true → Regular (normalise lw) := fun lw h he =>
    regular_of_exp (hreg he) h
  have hW : (startSt N c u).W = fun _ => 1 / (N : ℝ) := funext fun b => startSt_W c u b
  have h3 := ideal_Cf (N := N) killingScheme (by positivity) spreads_killing pairBound_killing (β := β) (θ := 1)
    (Ψ := moveΨ eb F) (φ := fun us => us.getLast?.elim 0 F) (measList_getLast hF) (elim_le h1)
    (Q := fun w => eb = true → Regular w) hQ (fun st b hW hr => move_ge_regular eb F st b hW hr) ss l hl hβ
    (startSt N c u) b (normalise_weights _) (fun _ => by rw [hW]; exact regular_uniform N) (fun a => rfl)
  refine le_trans (le_of_eq ?_) h3
  have hx : ∀ a, (startSt N c u).x a = u := fun _ => rfl
  have hP : ∀ a, ((startSt N c u).P a).map Prod.fst = [u] := fun _ => rfl
  simp only [hx, hP, hW, List.singleton_append]
  rw [← Finset.sum_mul, ← Finset.sum_mul]
  have e1 : ∑ a ∈ Finset.univ.erase b, ENNReal.ofReal (1 / (N : ℝ)) = ENNReal.ofReal (1 - 1 / (N : ℝ)) := by
    rw [Finset.sum_const, Finset.card_erase_of_mem (Finset.mem_univ _), Finset.card_univ, Fintype.card_fin,
      nsmul_eq_mul, ← ENNReal.ofReal_natCast, ← ENNReal.ofReal_mul (by positivity),
      Nat.cast_sub (Nat.pos_of_ne_zero (NeZero.ne N))]
    congr 1
    field_simp
    simp
  have e2 : ∑ a : Fin N, ENNReal.ofReal (1 / (N : ℝ)) = 1 := by
    rw [Finset.sum_const, Finset.card_univ, Fintype.card_fin,
      nsmul_eq_mul, ← ENNReal.ofReal_natCast, ← ENNReal.ofReal_mul (by positivity), mul_one_div_cancel hN.ne']
    simp
  rw [e1, e2, one_mul, one_mul, pinMean]
  ring

/-- **C97, `gibbs_kernel` with `explicit_final=False`.** If the log likelihoods are bounded by `β`, one call of the kernel is
within `2 (K+1) (1 + e^{2β(K+1)}) / N` of the ideal call, in total variation, from every state and every indices of the
reference.  With `explicit_backward` the number of particles has to keep the weights off the degenerate branch. -/
theorem C97_gibbs_ideal {K : ℕ} [NeZero n] {m : Gibbs.Funs (rows n false) U V Z} {S : StateSpace U V} {y0 : V}
    (htr : ∀ xs v t k (F : (Fin (rows n false) → U) → ℝ≥0∞), Measurable F →
      (m.transSampler xs v t k).E F = ∫⁻ x, F x ∂(Measure.pi fun i => S.trans v t (xs i)))
    (hlik : ∀ v xs v' t i, m.lik v xs v' t i = S.logG v v' t (xs i))
    (hst : ∀ key x (F : U → ℝ≥0∞), Measurable F → (m.fwd key x y0).E (fun p => F (m.unpack p).1.1) = F x)
    (hsh : PathShape m K) {β : ℝ} (hβ0 : 0 ≤ β) (hβ : ∀ v v' t u, |S.logG v v' t u| ≤ β) (margY eb : Bool)
    (hreg : eb = true → Real.exp (2 * β) < (10 ^ 12 - 1) * ((n : ℝ) - 1)) {ts : Arr1 ℝ}
    (hts : ts.2.length = K) (key : Key) (x : U) (hp : (gibbsPaths m margY key x y0 ts).IsProb)
    {bs : Arr1 (Fin (rows n false))} (hb : bs.2.length = K) {F : U → ℝ≥0∞} (hF : Measurable F) (h1 : ∀ x, F x ≤ 1) :
    (gibbsKernel false m margY eb key x y0 bs ts).E (fun out => F out.1)
        ≤ idealPinned m S margY key x y0 ts F + ENNReal.ofReal (idealErr β n K)
      ∧ idealPinned m S margY key x y0 ts F
        ≤ (gibbsKernel false m margY eb key x y0 bs ts).E (fun out => F out.1) + ENNReal.ofReal (idealErr β n K) := by
  have hn : (0 : ℝ) < n := by exact_mod_cast Nat.pos_of_ne_zero (NeZero.ne n)
  rw [E_gibbs_x0 hst margY eb key x bs ts hF]
  refine close_bind hp (leaves_gibbsPaths margY key x y0 ts hsh) fun q hq => ?_
  obtain ⟨hu, hv⟩ := hq
  rw [E_forwardPass_pinned htr hlik _ ts.1 q.1 bs q.2 ts (hu.trans hv.symm) (hb.trans hv.symm) (hts.trans hv.symm)
    (measFun_move eb hF)]
  have hlen : (S.steps q.2.1 q.2.2 ts.toList).length = K := by
    rw [Csmc.steps_length _ _ _ _ (by simp [Arr1.toList, hts, hv]), hv]
  have hβs : ∀ s ∈ S.steps q.2.1 q.2.2 ts.toList, ∀ u, |s.g u| ≤ β := steps_abs hβ _ _ _
  have hzl : (q.1.2.zip bs.2).length = (S.steps q.2.1 q.2.2 ts.toList).length := by rw [hlen]; simp [hu, hb]
  have g1 := pinned_ge (N := rows n false) eb hreg hβs hzl (-Real.log n) q.1.1 bs.1 hF h1
  have g2 := pinned_ge (N := rows n false) eb hreg hβs hzl (-Real.log n) q.1.1 bs.1 (F := fun x => 1 - F x)
    (measurable_const.sub hF) fun x => tsub_le_self
  rw [hlen] at g1 g2
  refine two_sided (one_le_share (N := rows n false) le_rfl hβ0 K ?_) g1 g2
    (Cf_move_total eb h1 _ _ _ _ (normalise_weights _) fun a => by simp [startSt, initSt]) (pin_compl hβs hF h1 q.1.1)
  refine ENNReal.ofReal_le_ofReal ?_
  have : 1 / (n : ℝ) ≤ 2 * (1 + Real.exp (2 * β * (K + 1))) / n :=
    div_le_div_of_nonneg_right (by linarith [Real.exp_pos (2 * β * (K + 1))]) hn.le
  show 1 - 2 * (1 + Real.exp (2 * β * (K + 1))) / (n : ℝ) ≤ 1 - 1 / (n : ℝ)
  linarith

/-- The pass from a start drawn from the reference law. -/
theorem refStart_ge [NeZero N] {β : ℝ} (eb : Bool)
    (hreg : eb = true → Real.exp (2 * β) < (10 ^ 12 - 1) * ((N : ℝ) - 1)) {ss : List (FKStep U)}
    (hβ : ∀ s ∈ ss, ∀ u, |s.g u| ≤ β) {ν : Measure U} [IsProbabilityMeasure ν] {g0 : U → ℝ} (hg0 : Measurable g0)
    (hg : ∀ u, |g0 u| ≤ β) {l : List (U × Fin N)} (hl : l.length = ss.length) (u : U) (b : Fin N)
    {F : U → ℝ≥0∞} (hF : Measurable F) (h1 : ∀ x, F x ≤ 1) :
    passShare (((N : ℝ) - 1) ^ 2 / N) β N ss.length * stepShare ((N : ℝ) - 1) β N (ss.length + 1) *
        refMean ν g0 ss (fun us => us.getLast?.elim 0 F)
      ≤ ∫⁻ y, Cf killingScheme.cond (moveΨ eb F) ss l (initSt g0 (Function.update y b u)) b
          ∂(Measure.pi fun _ : Fin N => ν) := by
  have hQ : ∀ lw : Fin N → ℝ, (∀ i, |lw i| ≤ β) → eb = true → Regular (normalise lw) := fun lw h he =>
    regular_of_exp (hreg he) h
  have h3 := fun y : Fin N → U => ideal_Cf (N := N) killingScheme (by positivity) spreads_killing pairBound_killing (β := β)
    (θ := 1) (Ψ := moveΨ eb F) (φ := fun us => us.getLast?.elim 0 F) (measList_getLast hF) (elim_le h1)
    (Q := fun w => eb = true → Regular w) hQ (fun st b hW hr => move_ge_regular eb F st b hW hr) ss l hl hβ
    (initSt g0 (Function.update y b u)) b (normalise_weights _) (hQ _ fun i => hg _) (fun a => rfl)
  refine le_trans ?_ (lintegral_mono h3)
  refine le_trans ?_ (lintegral_const_mul_le _ _)
  rw [one_mul, mul_assoc]
  gcongr
  exact ideal_init (N := N) hg0 hg ν u b
    (Φ := fun u => pathInt ss u (fun l => (u :: l).getLast?.elim 0 F)) (D := fun u => pathInt ss u (fun _ => 1))
    (measurable_pathInt_param _ (fun u l => (u :: l).getLast?.elim 0 F) (measurable_tail (measList_getLast hF)) id
      measurable_id)
    (measurable_pathInt_one _) (fun u => pathInt_mono _ _ fun l => elim_le h1 _) (pathInt_one_le _ hβ) (le_pathInt_one _ hβ)

/-- **C97, `gibbs_kernel` with `explicit_final=True`.** -/
theorem C97_gibbs_final_ideal {K : ℕ} [NeZero n] {m : Gibbs.Funs (rows n true) U V Z} {S : StateSpace U V}
    {ν : Measure U} [IsProbabilityMeasure ν] {y0 : V}
    (htr : ∀ xs v t k (F : (Fin (rows n true) → U) → ℝ≥0∞), Measurable F →
      (m.transSampler xs v t k).E F = ∫⁻ x, F x ∂(Measure.pi fun i => S.trans v t (xs i)))
    (hlik : ∀ v xs v' t i, m.lik v xs v' t i = S.logG v v' t (xs i))
    (hn : ∀ k r (F : (Fin (rows n true) → U) → ℝ≥0∞), Measurable F →
      (m.normal k r).E F = ∫⁻ x, F x ∂(Measure.pi fun _ => ν))
    (hst : ∀ key x (F : U → ℝ≥0∞), Measurable F → (m.fwd key x y0).E (fun p => F (m.unpack p).1.1) = F x)
    (hsh : PathShape m K) {β : ℝ} (hβ0 : 0 ≤ β) (hβ : ∀ v v' t u, |S.logG v v' t u| ≤ β) (margY eb : Bool)
    (hreg : eb = true → Real.exp (2 * β) < (10 ^ 12 - 1) * (n : ℝ)) {ts : Arr1 ℝ}
    (hts : ts.2.length = K) (key : Key) (x : U) (hp : (gibbsPaths m margY key x y0 ts).IsProb)
    {bs : Arr1 (Fin (rows n true))} (hb : bs.2.length = K) {F : U → ℝ≥0∞} (hF : Measurable F) (h1 : ∀ x, F x ≤ 1) :
    (gibbsKernel true m margY eb key x y0 bs ts).E (fun out => F out.1)
        ≤ idealRef m S ν margY key x y0 ts F + ENNReal.ofReal (idealErr β (n + 1) K)
      ∧ idealRef m S ν margY key x y0 ts F
        ≤ (gibbsKernel true m margY eb key x y0 bs ts).E (fun out => F out.1) + ENNReal.ofReal (idealErr β (n + 1) K) := by
  have hr : ((rows n true : ℕ) : ℝ) = n + 1 := by simp [rows]
  have hreg' : eb = true → Real.exp (2 * β) < (10 ^ 12 - 1) * (((rows n true : ℕ) : ℝ) - 1) := by
    rw [hr, add_sub_cancel_right]; exact hreg
  have hN1 : (((rows n true : ℕ) : ℝ) - 1) ^ 2 / (rows n true : ℕ) ≤ ((rows n true : ℕ) : ℝ) - 1 := by
    rw [hr, div_le_iff₀ (by positivity)]
    have : (0 : ℝ) ≤ n := Nat.cast_nonneg n
    nlinarith
  rw [E_gibbs_x0 hst margY eb key x bs ts hF]
  refine close_bind hp (leaves_gibbsPaths margY key x y0 ts hsh) fun q hq => ?_
  obtain ⟨hu, hv⟩ := hq
  rw [E_forwardPass_ref htr hlik hn _ ts.1 q.1 bs q.2 ts (hu.trans hv.symm) (hb.trans hv.symm) (hts.trans hv.symm)
    (measFun_move eb hF)]
  have hlen : (S.steps q.2.1 q.2.2 ts.toList).length = K := by
    rw [Csmc.steps_length _ _ _ _ (by simp [Arr1.toList, hts, hv]), hv]
  have hβs : ∀ s ∈ S.steps q.2.1 q.2.2 ts.toList, ∀ u, |s.g u| ≤ β := steps_abs hβ _ _ _
  have hzl : (q.1.2.zip bs.2).length = (S.steps q.2.1 q.2.2 ts.toList).length := by rw [hlen]; simp [hu, hb]
  have hg0 := S.measG q.2.1 (q.2.2.headD q.2.1) ts.1
  have hg := hβ q.2.1 (q.2.2.headD q.2.1) ts.1
  have g1 := refStart_ge (N := rows n true) eb hreg' hβs (ν := ν) hg0 hg hzl q.1.1 bs.1 hF h1
  have g2 := refStart_ge (N := rows n true) eb hreg' hβs (ν := ν) hg0 hg hzl q.1.1 bs.1 (F := fun x => 1 - F x)
    (measurable_const.sub hF) fun x => tsub_le_self
  rw [hlen] at g1 g2
  refine two_sided (one_le_share (N := rows n true) le_rfl hβ0 K (stepShare_ge hN1 hβ0 le_rfl)) g1 g2 ?_
    (ref_compl hβs hg0 hg hF h1)
  refine (le_lintegral_add _ _).trans ?_
  refine (lintegral_mono fun y => Cf_move_total eb h1 _ _ _ _ (normalise_weights _) fun a => by simp [initSt]).trans ?_
  simp

/-! ### The limit of many particles -/

theorem idealErr_tendsto (β : ℝ) (K : ℕ) :
    Filter.Tendsto (fun N : ℕ => ENNReal.ofReal (idealErr β (N + 1) K)) Filter.atTop (nhds 0) := by
  rw [← ENNReal.ofReal_zero]
  refine ENNReal.tendsto_ofReal ?_
  have h := (tendsto_one_div_add_atTop_nhds_zero_nat (𝕜 := ℝ)).const_mul (2 * (K + 1) * (1 + Real.exp (2 * β * (K + 1))))
  rw [mul_zero] at h
  refine h.congr fun N => ?_
  rw [idealErr]
  push_cast
  ring

theorem tendsto_of_two_sided {e : ℕ → ℝ≥0∞} {s : ℝ≥0∞} (hs : s ≠ ∞) {δ : ℕ → ℝ≥0∞}
    (hδ : Filter.Tendsto δ Filter.atTop (nhds 0)) (h : ∀ N, e N ≤ s + δ N ∧ s ≤ e N + δ N) :
    Filter.Tendsto e Filter.atTop (nhds s) := by
  have h1 : Filter.Tendsto (fun N => s - δ N) Filter.atTop (nhds s) := by
    have := ENNReal.Tendsto.sub (tendsto_const_nhds (x := s)) hδ (Or.inl hs)
    simpa using this
  have h2 : Filter.Tendsto (fun N => s + δ N) Filter.atTop (nhds s) := by
    simpa using (tendsto_const_nhds (x := s)).add hδ
  exact tendsto_of_tendsto_of_tendsto_of_le_of_le h1 h2 (fun N => tsub_le_iff_right.2 (h N).2) fun N => (h N).1

/-- The limit below, with log potentials bounded for the observations at hand. -/
theorem C97_csmc_limit_at {m : ∀ N, Csmc.Funs (N + 1) U V} {S : StateSpace U V} (hm : ∀ N, Implements (m N) S) {β : ℝ}
    (hβ0 : 0 ≤ β) (key : Key) (us : Arr1 U) (bs : ∀ N, Arr1 (Fin (N + 1))) (vs : Arr1 V) (ts : Arr1 ℝ)
    (hβs : ∀ s ∈ S.steps vs.1 vs.2 ts.toList, ∀ u, |s.g u| ≤ β) (hg : ∀ u, |S.logG0 vs.1 (vs.2.headD vs.1) u| ≤ β) (hl : us.2.length = vs.2.length)
    (hb : ∀ N, (bs N).2.length = vs.2.length) (ht : ts.2.length = vs.2.length) {φ : List U → ℝ≥0∞}
    (hφ : MeasList (1 + vs.2.length) φ) (h1 : ∀ l, φ l ≤ 1) :
    Filter.Tendsto (fun N => (Csmc.kernel (m N) CsmcResampling.killing (N + 1) false key us (bs N) vs ts).E fun out => φ out.1)
      Filter.atTop
      (nhds (refMean S.init (S.logG0 vs.1 (vs.2.headD vs.1)) (S.steps vs.1 vs.2 ts.toList) φ)) := by
  have hlen : (S.steps vs.1 vs.2 ts.toList).length = vs.2.length := by
    rw [Csmc.steps_length]; simp [Arr1.toList, ht]
  have hs := refMean_add (ν := S.init) hβs (S.measG0 vs.1 (vs.2.headD vs.1)) hg
    (by rw [hlen]; exact hφ) h1
  refine tendsto_of_two_sided (ne_top_of_le_ne_top ENNReal.one_ne_top (hs ▸ le_self_add))
    (idealErr_tendsto β vs.2.length) fun N => ?_
  exact C97_csmc_ideal_at (hm N) killingScheme le_rfl spreads_killing pairBound_killing hβ0 (N + 1) key us (bs N) vs ts hβs hg hl
    (hb N) ht hφ h1

/-- **C97, many particles.** With conditional killing, as the number of particles grows the trajectory returned by one call
becomes a draw from the target, whatever the reference trajectory. -/
theorem C97_csmc_limit {m : ∀ N, Csmc.Funs (N + 1) U V} {S : StateSpace U V} (hm : ∀ N, Implements (m N) S) {β : ℝ}
    (hβ0 : 0 ≤ β) (hβ : ∀ v v' t u, |S.logG v v' t u| ≤ β) (hg : ∀ v v' u, |S.logG0 v v' u| ≤ β) (key : Key)
    (us : Arr1 U) (bs : ∀ N, Arr1 (Fin (N + 1))) (vs : Arr1 V) (ts : Arr1 ℝ) (hl : us.2.length = vs.2.length)
    (hb : ∀ N, (bs N).2.length = vs.2.length) (ht : ts.2.length = vs.2.length) {φ : List U → ℝ≥0∞}
    (hφ : MeasList (1 + vs.2.length) φ) (h1 : ∀ l, φ l ≤ 1) :
    Filter.Tendsto (fun N => (Csmc.kernel (m N) CsmcResampling.killing (N + 1) false key us (bs N) vs ts).E fun out => φ out.1)
      Filter.atTop
      (nhds (refMean S.init (S.logG0 vs.1 (vs.2.headD vs.1)) (S.steps vs.1 vs.2 ts.toList) φ)) :=
  C97_csmc_limit_at hm hβ0 key us bs vs ts (steps_abs hβ _ _ _) (hg _ _) hl hb ht hφ h1

/-! ### The hypotheses can be met -/

/-- Conditional SMC with a thousand particles in the model `freshS`. -/
example (key : Key) (us : Arr1 ℝ) (bs : Arr1 (Fin 1000)) (vs : Arr1 ℝ) (ts : Arr1 ℝ) (hl : us.2.length = vs.2.length)
    (hb : bs.2.length = vs.2.length) (ht : ts.2.length = vs.2.length) {φ : List ℝ → ℝ≥0∞}
    (hφ : MeasList (1 + vs.2.length) φ) (h1 : ∀ l, φ l ≤ 1) :
    (Csmc.kernel (modelFuns (freshS (fun v u => Real.cos (v * u)) fun _ => by fun_prop) 1000) CsmcResampling.multinomial 1000
          false key us bs vs ts).E (fun out => φ out.1)
      ≤ refMean (gaussianReal 0 1) (fun _ => 0) ((freshS (fun v u => Real.cos (v * u)) fun _ => by fun_prop).steps
            vs.1 vs.2 ts.toList) φ + ENNReal.ofReal (idealErr 1 1000 vs.2.length) :=
  (C97_csmc_ideal (implements_modelFuns _ 1000) multinomialScheme (by norm_num) spreads_multinomial pairBound_multinomial
    zero_le_one (fun v _ _ u => Real.abs_cos_le_one _) (fun _ _ _ => by simp [freshS]) 1000 key us bs vs ts hl hb ht hφ h1).1

/-- The limit in the same model, along ever more particles and any reference. -/
example (key : Key) (us : Arr1 ℝ) (vs : Arr1 ℝ) (ts : Arr1 ℝ) (hl : us.2.length = vs.2.length)
    (ht : ts.2.length = vs.2.length) {φ : List ℝ → ℝ≥0∞} (hφ : MeasList (1 + vs.2.length) φ) (h1 : ∀ l, φ l ≤ 1) :
    Filter.Tendsto (fun N => (Csmc.kernel (modelFuns (freshS (fun v u => Real.cos (v * u)) fun _ => by fun_prop) (N + 1))
          CsmcResampling.killing (N + 1) false key us (0, vs.2.map fun _ => 0) vs ts).E fun out => φ out.1) Filter.atTop
      (nhds (refMean (gaussianReal 0 1) (fun _ => 0) ((freshS (fun v u => Real.cos (v * u)) fun _ => by fun_prop).steps
            vs.1 vs.2 ts.toList) φ)) :=
  C97_csmc_limit (fun N => implements_modelFuns _ (N + 1)) zero_le_one (fun v _ _ u => Real.abs_cos_le_one _)
    (fun _ _ _ => by simp [freshS]) key us (fun _ => (0, vs.2.map fun _ => 0)) vs ts hl (fun _ => by simp) ht hφ h1

theorem exFuns_isProb {ef : Bool} (g : ℝ → ℝ → ℝ) (key : Key) (x y0 : ℝ) (ts : Arr1 ℝ) :
    (gibbsPaths (exFuns g (rows n ef)) false key x y0 ts).IsProb := by
  simp only [gibbsPaths, exFuns, Bool.false_eq_true, if_false]
  exact ⟨inferInstance, fun _ => trivial⟩

theorem freshFuns_isProb {ef : Bool} (g : ℝ → ℝ → ℝ) (key : Key) (x y0 : ℝ) (ts : Arr1 ℝ) :
    (gibbsPaths (freshFuns g (rows n ef)) false key x y0 ts).IsProb := by
  simp only [gibbsPaths, freshFuns, Bool.false_eq_true, if_false]
  exact ⟨inferInstance, fun _ => trivial⟩

/-- A hundred particles, forced move, pinned start. -/
example (key : Key) (x : ℝ) (b c : Fin (rows 100 false)) {F : ℝ → ℝ≥0∞} (hF : Measurable F) (h1 : ∀ x, F x ≤ 1) :
    (gibbsKernel false (freshFuns (fun _ u => Real.cos u) (rows 100 false)) false true key x 2 (b, [c]) (0, [1])).E
        (fun out => F out.1)
      ≤ idealPinned (freshFuns (fun _ u => Real.cos u) (rows 100 false))
          (freshS (fun _ u => Real.cos u) fun _ => Real.measurable_cos) false key x 2 ((0, [1]) : Arr1 ℝ) F
        + ENNReal.ofReal (idealErr 1 100 1) :=
  have hst : ∀ key x (F : ℝ → ℝ≥0∞), Measurable F → ((freshFuns (fun _ u => Real.cos u) (rows 100 false)).fwd key x 2).E
      (fun p => F ((freshFuns (fun _ u => Real.cos u) (rows 100 false)).unpack p).1.1) = F x := fun key x F _ => by
    simp [freshFuns, Rand.E_map, Rand.E_sample, Arr1.map]
  (C97_gibbs_ideal (fun xs v t k F hF => by simp only [freshFuns, freshS, Rand.E_sample, Kernel.const_apply])
    (fun _ _ _ _ _ => rfl) hst (freshFuns_shape _ _) zero_le_one (fun _ _ _ u => Real.abs_cos_le_one u) false true
    (fun _ => by
      have := Real.exp_one_lt_d9
      have h0 := Real.exp_pos 1
      rw [mul_one, show (2 : ℝ) = 1 + 1 by norm_num, Real.exp_add]
      norm_num
      nlinarith) rfl key x (freshFuns_isProb _ _ _ _ _) rfl hF h1).1

/-- A hundred particles beside the reference, start drawn afresh. -/
example (key : Key) (x : ℝ) (b c : Fin (rows 100 true)) {F : ℝ → ℝ≥0∞} (hF : Measurable F) (h1 : ∀ x, F x ≤ 1) :
    idealRef (exFuns (fun _ u => Real.cos u) (rows 100 true))
          (exS (fun _ u => Real.cos u) fun _ => Real.measurable_cos) (gaussianReal 0 1) false key x 2 ((0, [1]) : Arr1 ℝ) F
      ≤ (gibbsKernel true (exFuns (fun _ u => Real.cos u) (rows 100 true)) false false key x 2 (b, [c]) (0, [1])).E
        (fun out => F out.1) + ENNReal.ofReal (idealErr 1 101 1) :=
  have hg : Measurable fun p : ℝ × ℝ => Real.cos p.2 := by fun_prop
  have hm := exFuns_reference (g := fun _ u => Real.cos u) hg Real.measurable_cos (rows 100 true) 2 0 1
  (C97_gibbs_final_ideal hm.trans hm.lik hm.normal hm.starts (exFuns_shape _ _) zero_le_one
    (fun _ _ _ u => Real.abs_cos_le_one u) false false (by simp) rfl key x (exFuns_isProb _ _ _ _ _) rfl hF h1).2

end Props
end Fbs
