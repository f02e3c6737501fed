import Verif.Lemmas.Ratio
import Verif.Lemmas.GibbsLaw

/-!
# The conditional pass against the normalised path measure
-/

open MeasureTheory ProbabilityTheory
open scoped ENNReal

namespace Fbs
namespace Csmc

open Jax Spec

variable {N : ℕ} {U : Type} [MeasurableSpace U]

/-! ### Path integrals -/

theorem pathInt_mono : ∀ (ss : List (FKStep U)) (u : U) {f g : List U → ℝ≥0∞}, (∀ l, f l ≤ g l) →
    pathInt ss u f ≤ pathInt ss u g
  | [], _, _, _, h => h []
  | s :: ss, u, f, g, h => by
    simp only [pathInt]
    exact mul_le_mul' le_rfl (lintegral_mono fun u' => pathInt_mono ss u' fun l => h (u' :: l))

theorem pathInt_one_le {β : ℝ} : ∀ (ss : List (FKStep U)), (∀ s ∈ ss, ∀ u, |s.g u| ≤ β) → ∀ u,
    pathInt ss u (fun _ => 1) ≤ ENNReal.ofReal (Real.exp β) ^ ss.length
  | [], _, _ => by simp [pathInt]
  | s :: ss, h, u => by
    simp only [pathInt, List.length_cons]
    rw [pow_succ']
    refine mul_le_mul' (ENNReal.ofReal_le_ofReal (Real.exp_le_exp.2 (le_of_abs_le (h s (by simp) u)))) ?_
    refine (lintegral_mono fun u' => pathInt_one_le ss (fun s' hs' => h s' (by simp [hs'])) u').trans ?_
    simp

theorem le_pathInt_one {β : ℝ} : ∀ (ss : List (FKStep U)), (∀ s ∈ ss, ∀ u, |s.g u| ≤ β) → ∀ u,
    ENNReal.ofReal (Real.exp (-β)) ^ ss.length ≤ pathInt ss u (fun _ => 1)
  | [], _, _ => by simp [pathInt]
  | s :: ss, h, u => by
    simp only [pathInt, List.length_cons]
    rw [pow_succ']
    refine mul_le_mul' (ENNReal.ofReal_le_ofReal (Real.exp_le_exp.2 (neg_le_of_abs_le (h s (by simp) u)))) ?_
    refine le_trans ?_ (lintegral_mono fun u' => le_pathInt_one ss (fun s' hs' => h s' (by simp [hs'])) u')
    simp

/-- A test function measurable on lists of length `T`, along lists with a fixed beginning. -/
theorem measurable_prefix {T n : ℕ} {φ : List U → ℝ≥0∞} (hφ : MeasList T φ) (p : List U) (hp : p.length + (n + 1) = T) :
    Measurable fun q : U × (ℕ → U) => φ (p ++ q.1 :: (List.range n).map q.2) := by
  have hm : Measurable fun q : U × (ℕ → U) => fun j : Fin T =>
      if h : (j : ℕ) < p.length then p[(j : ℕ)] else if (j : ℕ) = p.length then q.1 else q.2 (j - p.length - 1) := by
    refine measurable_pi_iff.2 fun j => ?_
    split_ifs
    · exact measurable_const
    · exact measurable_fst
    · exact (measurable_pi_apply _).comp measurable_snd
  have h := hφ.comp hm
  convert h using 1
  funext q
  simp only [Function.comp_apply]
  congr 1
  apply List.ext_getElem
  · simp only [List.length_append, List.length_cons, List.length_map, List.length_range, List.length_ofFn]
    exact hp
  · intro i h1 h2
    simp only [List.getElem_ofFn]
    rw [List.getElem_append]
    split_ifs with ha hb
    · rfl
    · have : i - p.length = 0 := by omega
      simp [this]
    · obtain ⟨k, hk⟩ : ∃ k, i - p.length = k + 1 := ⟨i - p.length - 1, by omega⟩
      simp [hk]

theorem measurable_pathInt_prefix {T : ℕ} {φ : List U → ℝ≥0∞} (hφ : MeasList T φ) (p : List U) (ss : List (FKStep U))
    (hp : p.length + (ss.length + 1) = T) : Measurable fun u => pathInt ss u fun l => φ (p ++ u :: l) :=
  measurable_pathInt_param ss (fun u l => φ (p ++ u :: l)) (measurable_prefix hφ p hp) id measurable_id

theorem measurable_pathInt_one (ss : List (FKStep U)) : Measurable fun u => pathInt ss u fun _ => 1 :=
  measurable_pathInt_param ss (fun _ _ => 1) measurable_const id measurable_id

/-! ### Normalising -/

/-- The normalising constant of the weights cancels in a ratio. -/
theorem normalise_ratio [NeZero N] (lw : Fin N → ℝ) (T : Finset (Fin N)) (a b : Fin N → ℝ≥0∞) :
    (∑ k ∈ T, ENNReal.ofReal (normalise lw k) * a k) * (∑ k, ENNReal.ofReal (normalise lw k) * b k)⁻¹
      = (∑ k ∈ T, ENNReal.ofReal (Real.exp (lw k)) * a k) * (∑ k, ENNReal.ofReal (Real.exp (lw k)) * b k)⁻¹ := by
  have hs := sum_exp_pos lw
  set c := ENNReal.ofReal (∑ i, Real.exp (lw i)) with hc
  have hc0 : c ≠ 0 := (ENNReal.ofReal_pos.2 hs).ne'
  have hc1 : c ≠ ∞ := ENNReal.ofReal_ne_top
  have hi0 : c⁻¹ ≠ 0 := ENNReal.inv_ne_zero.2 hc1
  have hi1 : c⁻¹ ≠ ∞ := ENNReal.inv_ne_top.2 hc0
  have h : ∀ k, ENNReal.ofReal (normalise lw k) = c⁻¹ * ENNReal.ofReal (Real.exp (lw k)) := by
    intro k
    rw [normalise_eq, div_eq_mul_inv, mul_comm, ENNReal.ofReal_mul (by positivity), ENNReal.ofReal_inv_of_pos hs]
  simp only [h, mul_assoc, ← Finset.mul_sum]
  rw [ENNReal.mul_inv (Or.inl hi0) (Or.inl hi1), inv_inv]
  rw [← mul_assoc, mul_mul_mul_comm, ENNReal.inv_mul_cancel hc0 hc1, one_mul]

/-- The share of the pass with `i` steps to go: `κ / (2 e^{2βi} + N)`. -/
noncomputable def stepShare (κ β : ℝ) (N i : ℕ) : ℝ≥0∞ :=
  ENNReal.ofReal (κ / (2 * Real.exp (2 * β * i) + N))

/-- The share of a pass with `n` steps. -/
noncomputable def passShare (κ β : ℝ) (N n : ℕ) : ℝ≥0∞ :=
  ∏ i ∈ Finset.range n, stepShare κ β N (i + 1)

theorem exp_pow_nat (β : ℝ) (n : ℕ) : ENNReal.ofReal (Real.exp β) ^ n = ENNReal.ofReal (Real.exp (β * n)) := by
  rw [← ENNReal.ofReal_pow (Real.exp_pos _).le, ← Real.exp_nat_mul, mul_comm]

theorem share_le {κ : ℝ} (hκ0 : 0 ≤ κ) (β : ℝ) {n : ℕ} {Z : ℝ≥0∞} (hZge : ENNReal.ofReal (Real.exp (-β)) ^ (n + 1) ≤ Z) :
    stepShare κ β N (n + 1) * Z⁻¹ ≤ ENNReal.ofReal κ * (2 * ENNReal.ofReal (Real.exp β) ^ (n + 1) + N * Z)⁻¹ := by
  have hE : (0 : ℝ) < 2 * Real.exp (2 * β * (n + 1 : ℕ)) + N := by positivity
  have hmle : 2 * ENNReal.ofReal (Real.exp β) ^ (n + 1) + N * Z ≤ ENNReal.ofReal (2 * Real.exp (2 * β * (n + 1 : ℕ)) + N) * Z := by
    rw [ENNReal.ofReal_add (by positivity) (by positivity), add_mul, ENNReal.ofReal_natCast]
    refine add_le_add ?_ le_rfl
    calc 2 * ENNReal.ofReal (Real.exp β) ^ (n + 1) = ENNReal.ofReal (2 * Real.exp (2 * β * (n + 1 : ℕ))) * ENNReal.ofReal (Real.exp (-β)) ^ (n + 1) := by
          rw [exp_pow_nat, exp_pow_nat, ← ENNReal.ofReal_mul (by positivity), mul_assoc, ← Real.exp_add,
            ENNReal.ofReal_mul (by norm_num)]
          congr 1
          · simp
          · congr 2
            ring
      _ ≤ _ := mul_le_mul' le_rfl hZge
  unfold stepShare
  rw [div_eq_mul_inv, ENNReal.ofReal_mul hκ0, ENNReal.ofReal_inv_of_pos hE, mul_assoc]
  refine mul_le_mul' le_rfl ?_
  rw [← ENNReal.mul_inv (Or.inl (ENNReal.ofReal_pos.2 hE).ne') (Or.inl ENNReal.ofReal_ne_top)]
  exact ENNReal.inv_le_inv.2 hmle

/-- The conditional pass gives every trajectory almost its mass under the normalised target. -/
theorem ideal_Cf [NeZero N] {res : CondResampling N} (sch : ExactScheme res) {κ : ℝ} (hκ0 : 0 ≤ κ) (hκ : Spreads res κ)
    (hpb : PairBound res) {β : ℝ} {T : ℕ}
    {θ : ℝ≥0∞} {Ψ : St N U → Fin N → ℝ≥0∞} {φ : List U → ℝ≥0∞} (hφ : MeasList T φ) (hφ1 : ∀ l, φ l ≤ 1)
    {Q : (Fin N → ℝ) → Prop} (hQ : ∀ lw, (∀ i, |lw i| ≤ β) → Q (normalise lw))
    (hΨ : ∀ (st : St N U) b, Weights st.W → Q st.W →
      θ * ∑ a ∈ Finset.univ.erase b, ENNReal.ofReal (st.W a) * φ ((st.P a).map Prod.fst) ≤ Ψ st b) :
    ∀ (ss : List (FKStep U)) (l : List (U × Fin N)), l.length = ss.length → (∀ s ∈ ss, ∀ u, |s.g u| ≤ β) →
    ∀ (st : St N U) (b : Fin N), Weights st.W → Q st.W → (∀ a, (st.P a).length + ss.length = T) →
      θ * passShare κ β N ss.length *
          ((∑ a ∈ Finset.univ.erase b, ENNReal.ofReal (st.W a) *
            pathInt ss (st.x a) (fun l => φ ((st.P a).map Prod.fst ++ l))) *
          (∑ a, ENNReal.ofReal (st.W a) * pathInt ss (st.x a) (fun _ => 1))⁻¹)
        ≤ Cf sch.cond Ψ ss l st b := by
  intro ss
  induction ss with
  | nil =>
    intro l hl _ st b hW hq _
    rw [List.length_eq_zero_iff.1 hl]
    have h1 : ∑ a, ENNReal.ofReal (st.W a) * pathInt ([] : List (FKStep U)) (st.x a) (fun _ => 1) = 1 := by
      simp only [pathInt, mul_one]
      rw [← ENNReal.ofReal_sum_of_nonneg fun m _ => hW.nonneg m, hW.sum_one]; simp
    rw [h1]
    simpa [pathInt, Cf, passShare] using hΨ st b hW hq
  | cons s ss ih =>
    intro l hl hβ st b hW hq hT
    obtain ⟨⟨u', b'⟩, l, rfl⟩ := List.exists_cons_of_length_eq_add_one hl
    have hβs : ∀ u, |s.g u| ≤ β := hβ s List.mem_cons_self
    have hβss : ∀ s' ∈ ss, ∀ u, |s'.g u| ≤ β := fun s' h => hβ s' (List.mem_cons_of_mem _ h)
    simp only [List.length_cons] at hT
    simp only [Cf, List.length_cons]
    set n := ss.length with hn
    let C : Fin N → ℝ≥0∞ := fun a => pathInt (s :: ss) (st.x a) (fun l => φ ((st.P a).map Prod.fst ++ l))
    let D : Fin N → ℝ≥0∞ := fun a => pathInt (s :: ss) (st.x a) (fun _ => 1)
    let H : ℝ≥0∞ := ENNReal.ofReal (Real.exp β) ^ (n + 1)
    let Z : ℝ≥0∞ := ∑ a, ENNReal.ofReal (st.W a) * D a
    let m : ℝ≥0∞ := 2 * H + N * Z
    have hDle : ∀ a, D a ≤ H := fun a => pathInt_one_le (s :: ss) hβ (st.x a)
    have hDge : ∀ a, ENNReal.ofReal (Real.exp (-β)) ^ (n + 1) ≤ D a := fun a => le_pathInt_one (s :: ss) hβ (st.x a)
    have hCle : ∀ a, C a ≤ D a := fun a => pathInt_mono _ _ fun l => hφ1 _
    have hHtop : H ≠ ∞ := ENNReal.pow_ne_top ENNReal.ofReal_ne_top
    have hH0 : H ≠ 0 := pow_ne_zero _ (ENNReal.ofReal_pos.2 (Real.exp_pos _)).ne'
    have hWsum : ∑ a, ENNReal.ofReal (st.W a) = 1 := by
      rw [← ENNReal.ofReal_sum_of_nonneg fun m _ => hW.nonneg m, hW.sum_one]; simp
    have hZle : Z ≤ H := by
      calc Z ≤ ∑ a, ENNReal.ofReal (st.W a) * H := Finset.sum_le_sum fun a _ => mul_le_mul' le_rfl (hDle a)
        _ = H := by rw [← Finset.sum_mul, hWsum, one_mul]
    have hZge : ENNReal.ofReal (Real.exp (-β)) ^ (n + 1) ≤ Z := by
      calc _ = ∑ a, ENNReal.ofReal (st.W a) * ENNReal.ofReal (Real.exp (-β)) ^ (n + 1) := by
            rw [← Finset.sum_mul, hWsum, one_mul]
        _ ≤ Z := Finset.sum_le_sum fun a _ => mul_le_mul' le_rfl (hDge a)
    have hZ0 : Z ≠ 0 := by
      intro h
      rw [h] at hZge
      exact pow_ne_zero (n + 1) (ENNReal.ofReal_pos.2 (Real.exp_pos (-β))).ne' (le_bot_iff.1 hZge)
    have hZtop : Z ≠ ∞ := ne_top_of_le_ne_top hHtop hZle
    have hm0 : m ≠ 0 := fun h => hH0 (by simpa using (add_eq_zero.1 h).1)
    have hm1 : m ≠ ∞ := ENNReal.add_ne_top.2 ⟨ENNReal.mul_ne_top (by simp) hHtop,
      ENNReal.mul_ne_top (ENNReal.natCast_ne_top _) hZtop⟩
    -- the ratio after one step
    let R : (Fin N → Fin N) → ℝ≥0∞ := fun A => ∫⁻ y, (∑ k ∈ Finset.univ.erase b',
        ENNReal.ofReal (Real.exp (s.g (st.x (A k)))) * pathInt ss (y k) (fun l => φ ((st.P (A k)).map Prod.fst ++ y k :: l)))
      * (ENNReal.ofReal (Real.exp (s.g (st.x (A b')))) * pathInt ss u' (fun _ => 1) + ∑ k ∈ Finset.univ.erase b',
        ENNReal.ofReal (Real.exp (s.g (st.x (A k)))) * pathInt ss (y k) (fun _ => 1))⁻¹
      ∂(Measure.pi fun i => s.M (st.x (A i)))
    have hstep : ∀ A : Fin N → Fin N, θ * passShare κ β N n * R A
          ≤ ∫⁻ y, Cf sch.cond Ψ ss l (next s st A (Function.update y b' u')) b'
              ∂(Measure.pi fun i => s.M (st.x (A i))) := by
      intro A
      refine (lintegral_const_mul_le _ _).trans (lintegral_mono fun y => ?_)
      refine le_trans (le_of_eq ?_) (ih l (by simpa using hl) hβss (next s st A (Function.update y b' u')) b'
        (normalise_weights _) (hQ _ fun i => hβs _) fun a => by simp [next]; have := hT (A a); omega)
      congr 1
      have e := normalise_ratio (fun i => s.g (st.x (A i))) (Finset.univ.erase b')
        (fun k => pathInt ss (Function.update y b' u' k) fun l =>
          φ (((st.P (A k)) ++ [(Function.update y b' u' k, k)]).map Prod.fst ++ l))
        (fun k => pathInt ss (Function.update y b' u' k) fun _ => 1)
      refine Eq.trans ?_ e.symm
      rw [← Finset.add_sum_erase Finset.univ _ (Finset.mem_univ b'), Function.update_self]
      congr 1
      · refine Finset.sum_congr rfl fun k hk => ?_
        rw [Function.update_of_ne (Finset.ne_of_mem_erase hk)]
        simp
      · congr 2
        refine Finset.sum_congr rfl fun k hk => ?_
        rw [Function.update_of_ne (Finset.ne_of_mem_erase hk)]
    -- the lower bound for the ratio, for one choice of ancestors
    have hratio : ∀ A : Fin N → Fin N, 2 * m⁻¹ * ∑ k ∈ Finset.univ.erase b', C (A k)
        ≤ R A + m⁻¹ * m⁻¹ * (2 * H * ∑ k ∈ Finset.univ.erase b', C (A k)
          + ∑ k ∈ Finset.univ.erase b', ∑ l ∈ Finset.univ.erase b', if l = k then 0 else C (A k) * D (A l)) := by
      intro A
      have mφ : ∀ k, Measurable fun u => pathInt ss u fun l => φ ((st.P (A k)).map Prod.fst ++ u :: l) := fun k =>
        measurable_pathInt_prefix hφ _ ss (by rw [List.length_map]; exact hT (A k))
      have h := ratio_ge (fun i => s.M (st.x (A i))) b'
        (f := fun k u => ENNReal.ofReal (Real.exp (s.g (st.x (A k)))) *
          pathInt ss u (fun l => φ ((st.P (A k)).map Prod.fst ++ u :: l)))
        (h := fun k u => ENNReal.ofReal (Real.exp (s.g (st.x (A k)))) * pathInt ss u (fun _ => 1))
        (fun k => (mφ k).const_mul _) (fun k => (measurable_pathInt_one ss).const_mul _)
        (d := ENNReal.ofReal (Real.exp (s.g (st.x (A b')))) * pathInt ss u' (fun _ => 1)) (H := H) (m := m)
        ?_ ?_ hm0 hm1
      · have e1 : ∀ k, ∫⁻ u, ENNReal.ofReal (Real.exp (s.g (st.x (A k)))) *
            pathInt ss u (fun l => φ ((st.P (A k)).map Prod.fst ++ u :: l)) ∂(s.M (st.x (A k))) = C (A k) := fun k =>
          lintegral_const_mul _ (mφ k)
        have e2 : ∀ k, ∫⁻ u, ENNReal.ofReal (Real.exp (s.g (st.x (A k)))) *
            pathInt ss u (fun _ => 1) ∂(s.M (st.x (A k))) = D (A k) := fun k =>
          lintegral_const_mul _ (measurable_pathInt_one ss)
        simp only [e1, e2] at h
        exact h
      · show _ ≤ ENNReal.ofReal (Real.exp β) ^ (n + 1)
        rw [pow_succ']
        exact mul_le_mul' (ENNReal.ofReal_le_ofReal (Real.exp_le_exp.2 (le_of_abs_le (hβs _)))) (pathInt_one_le ss hβss _)
      · intro k u
        show _ ≤ ENNReal.ofReal (Real.exp β) ^ (n + 1)
        rw [pow_succ']
        exact mul_le_mul' (ENNReal.ofReal_le_ofReal (Real.exp_le_exp.2 (le_of_abs_le (hβs _)))) (pathInt_one_le ss hβss _)
    -- average over the ancestors
    let M1 : ℝ≥0∞ := ∑ A, sch.cond st.W b b' A * ∑ k ∈ Finset.univ.erase b', C (A k)
    have hM1 : M1 ≠ ∞ := by
      have : M1 ≤ ∑ A, sch.cond st.W b b' A * (N * H) := by
        refine Finset.sum_le_sum fun A _ => mul_le_mul' le_rfl ?_
        calc ∑ k ∈ Finset.univ.erase b', C (A k) ≤ ∑ k ∈ Finset.univ.erase b', H :=
              Finset.sum_le_sum fun k _ => (hCle _).trans (hDle _)
          _ ≤ ∑ k : Fin N, H := Finset.sum_le_sum_of_subset (Finset.erase_subset _ _)
          _ = N * H := by simp
      rw [← Finset.sum_mul, sch.sum_cond _ hW, one_mul] at this
      exact ne_top_of_le_ne_top (ENNReal.mul_ne_top (ENNReal.natCast_ne_top _) hHtop) this
    have hpair : ∑ A, sch.cond st.W b b' A * (∑ k ∈ Finset.univ.erase b', ∑ l ∈ Finset.univ.erase b',
        if l = k then 0 else C (A k) * D (A l)) ≤ (N * Z) * M1 := by
      have := hpb [] _ hW b b' C D
      rwa [sch.E_res [] _ hW, sch.E_res [] _ hW] at this
    have havg : m⁻¹ * M1 ≤ ∑ A, sch.cond st.W b b' A * R A := by
      have h1 : ∑ A, sch.cond st.W b b' A * (2 * m⁻¹ * ∑ k ∈ Finset.univ.erase b', C (A k))
          ≤ ∑ A, sch.cond st.W b b' A * (R A + m⁻¹ * m⁻¹ * (2 * H * ∑ k ∈ Finset.univ.erase b', C (A k)
            + ∑ k ∈ Finset.univ.erase b', ∑ l ∈ Finset.univ.erase b', if l = k then 0 else C (A k) * D (A l))) :=
        Finset.sum_le_sum fun A _ => mul_le_mul' le_rfl (hratio A)
      have h2 : ∑ A, sch.cond st.W b b' A * (2 * m⁻¹ * ∑ k ∈ Finset.univ.erase b', C (A k)) = m⁻¹ * M1 + m⁻¹ * M1 := by
        have : ∀ A, sch.cond st.W b b' A * (2 * m⁻¹ * ∑ k ∈ Finset.univ.erase b', C (A k))
            = 2 * m⁻¹ * (sch.cond st.W b b' A * ∑ k ∈ Finset.univ.erase b', C (A k)) := fun A => by ring
        rw [Finset.sum_congr rfl fun A _ => this A, ← Finset.mul_sum]
        show 2 * m⁻¹ * M1 = _
        ring
      have h3 : ∑ A, sch.cond st.W b b' A * (R A + m⁻¹ * m⁻¹ * (2 * H * ∑ k ∈ Finset.univ.erase b', C (A k)
            + ∑ k ∈ Finset.univ.erase b', ∑ l ∈ Finset.univ.erase b', if l = k then 0 else C (A k) * D (A l)))
          ≤ ∑ A, sch.cond st.W b b' A * R A + m⁻¹ * M1 := by
        have : ∀ A, sch.cond st.W b b' A * (R A + m⁻¹ * m⁻¹ * (2 * H * ∑ k ∈ Finset.univ.erase b', C (A k)
            + ∑ k ∈ Finset.univ.erase b', ∑ l ∈ Finset.univ.erase b', if l = k then 0 else C (A k) * D (A l)))
            = sch.cond st.W b b' A * R A + (m⁻¹ * m⁻¹ * (2 * H) * (sch.cond st.W b b' A * ∑ k ∈ Finset.univ.erase b', C (A k))
              + m⁻¹ * m⁻¹ * (sch.cond st.W b b' A * ∑ k ∈ Finset.univ.erase b', ∑ l ∈ Finset.univ.erase b',
                if l = k then 0 else C (A k) * D (A l))) := fun A => by ring
        rw [Finset.sum_congr rfl fun A _ => this A, Finset.sum_add_distrib, Finset.sum_add_distrib, ← Finset.mul_sum,
          ← Finset.mul_sum]
        refine add_le_add le_rfl ?_
        calc _ ≤ m⁻¹ * m⁻¹ * (2 * H) * M1 + m⁻¹ * m⁻¹ * ((N * Z) * M1) := add_le_add le_rfl (mul_le_mul' le_rfl hpair)
          _ = (m⁻¹ * m) * (m⁻¹ * M1) := by ring
          _ = _ := by rw [ENNReal.inv_mul_cancel hm0 hm1, one_mul]
      have h4 := h1.trans h3
      rw [h2] at h4
      exact (ENNReal.add_le_add_iff_right (ENNReal.mul_ne_top (ENNReal.inv_ne_top.2 hm0) hM1)).1 h4
    -- put together
    have hsp : ENNReal.ofReal κ * ∑ a ∈ Finset.univ.erase b, ENNReal.ofReal (st.W a) * C a ≤ M1 := by
      have := hκ [] _ hW b b' C
      rwa [sch.E_res [] _ hW] at this
    have hshare : stepShare κ β N (n + 1) * Z⁻¹ ≤ ENNReal.ofReal κ * m⁻¹ := share_le hκ0 β hZge
    calc θ * passShare κ β N (n + 1) * ((∑ a ∈ Finset.univ.erase b, ENNReal.ofReal (st.W a) * C a) * Z⁻¹)
        = θ * passShare κ β N n * ((stepShare κ β N (n + 1) * Z⁻¹) *
            ∑ a ∈ Finset.univ.erase b, ENNReal.ofReal (st.W a) * C a) := by
          rw [passShare, Finset.prod_range_succ, ← passShare]
          ring
      _ ≤ θ * passShare κ β N n * ((ENNReal.ofReal κ * m⁻¹) *
            ∑ a ∈ Finset.univ.erase b, ENNReal.ofReal (st.W a) * C a) := by gcongr
      _ = θ * passShare κ β N n * (m⁻¹ * (ENNReal.ofReal κ *
            ∑ a ∈ Finset.univ.erase b, ENNReal.ofReal (st.W a) * C a)) := by ring
      _ ≤ θ * passShare κ β N n * (m⁻¹ * M1) := by gcongr
      _ ≤ θ * passShare κ β N n * ∑ A, sch.cond st.W b b' A * R A := by gcongr
      _ = ∑ A, sch.cond st.W b b' A * (θ * passShare κ β N n * R A) := by
          rw [Finset.mul_sum]
          refine Finset.sum_congr rfl fun A _ => ?_
          ring
      _ ≤ _ := Finset.sum_le_sum fun A _ => mul_le_mul' le_rfl (hstep A)

/-- The step from the initial particles. -/
theorem ideal_init [NeZero N] {g0 : U → ℝ} (hg0 : Measurable g0) {β : ℝ} (hg : ∀ u, |g0 u| ≤ β) (ν : Measure U)
    [IsProbabilityMeasure ν] (u0 : U) (b : Fin N) {n : ℕ} {Φ D : U → ℝ≥0∞} (hΦ : Measurable Φ) (hD : Measurable D)
    (hΦD : ∀ u, Φ u ≤ D u) (hDle : ∀ u, D u ≤ ENNReal.ofReal (Real.exp β) ^ n)
    (hDge : ∀ u, ENNReal.ofReal (Real.exp (-β)) ^ n ≤ D u) :
    stepShare ((N : ℝ) - 1) β N (n + 1) * ((∫⁻ u, ENNReal.ofReal (Real.exp (g0 u)) * Φ u ∂ν) *
        (∫⁻ u, ENNReal.ofReal (Real.exp (g0 u)) * D u ∂ν)⁻¹)
      ≤ ∫⁻ y, (∑ a ∈ Finset.univ.erase b,
          ENNReal.ofReal ((initSt g0 (Function.update y b u0)).W a) * Φ (Function.update y b u0 a)) *
        (∑ a, ENNReal.ofReal ((initSt g0 (Function.update y b u0)).W a) * D (Function.update y b u0 a))⁻¹
          ∂(Measure.pi fun _ : Fin N => ν) := by
  have hN1 : (0 : ℝ) ≤ N - 1 := by
    have : (1 : ℝ) ≤ N := by exact_mod_cast Nat.pos_of_ne_zero (NeZero.ne N)
    linarith
  have mG : Measurable fun u => ENNReal.ofReal (Real.exp (g0 u)) :=
    ENNReal.measurable_ofReal.comp (Real.measurable_exp.comp hg0)
  have mF : Measurable fun u => ENNReal.ofReal (Real.exp (g0 u)) * Φ u := mG.mul hΦ
  have mH : Measurable fun u => ENNReal.ofReal (Real.exp (g0 u)) * D u := mG.mul hD
  set F : ℝ≥0∞ := ∫⁻ u, ENNReal.ofReal (Real.exp (g0 u)) * Φ u ∂ν with hF
  set Z : ℝ≥0∞ := ∫⁻ u, ENNReal.ofReal (Real.exp (g0 u)) * D u ∂ν with hZ
  let H : ℝ≥0∞ := ENNReal.ofReal (Real.exp β) ^ (n + 1)
  let m : ℝ≥0∞ := 2 * H + N * Z
  have hle : ∀ u, ENNReal.ofReal (Real.exp (g0 u)) * D u ≤ H := fun u => by
    show _ ≤ ENNReal.ofReal (Real.exp β) ^ (n + 1)
    rw [pow_succ']
    exact mul_le_mul' (ENNReal.ofReal_le_ofReal (Real.exp_le_exp.2 (le_of_abs_le (hg u)))) (hDle u)
  have hge : ∀ u, ENNReal.ofReal (Real.exp (-β)) ^ (n + 1) ≤ ENNReal.ofReal (Real.exp (g0 u)) * D u := fun u => by
    rw [pow_succ']
    exact mul_le_mul' (ENNReal.ofReal_le_ofReal (Real.exp_le_exp.2 (neg_le_of_abs_le (hg u)))) (hDge u)
  have hHtop : H ≠ ∞ := ENNReal.pow_ne_top ENNReal.ofReal_ne_top
  have hH0 : H ≠ 0 := pow_ne_zero _ (ENNReal.ofReal_pos.2 (Real.exp_pos _)).ne'
  have hZle : Z ≤ H := (lintegral_mono hle).trans (by simp)
  have hZge : ENNReal.ofReal (Real.exp (-β)) ^ (n + 1) ≤ Z := le_trans (by simp) (lintegral_mono hge)
  have hFZ : F ≤ Z := lintegral_mono fun u => mul_le_mul' le_rfl (hΦD u)
  have hZtop : Z ≠ ∞ := ne_top_of_le_ne_top hHtop hZle
  have hFtop : F ≠ ∞ := ne_top_of_le_ne_top hZtop hFZ
  have hm0 : m ≠ 0 := fun h => hH0 (by simpa using (add_eq_zero.1 h).1)
  have hm1 : m ≠ ∞ := ENNReal.add_ne_top.2 ⟨ENNReal.mul_ne_top (by simp) hHtop,
    ENNReal.mul_ne_top (ENNReal.natCast_ne_top _) hZtop⟩
  have h := ratio_ge (fun _ : Fin N => ν) b
    (f := fun _ u => ENNReal.ofReal (Real.exp (g0 u)) * Φ u) (h := fun _ u => ENNReal.ofReal (Real.exp (g0 u)) * D u)
    (fun _ => mF) (fun _ => mH) (d := ENNReal.ofReal (Real.exp (g0 u0)) * D u0) (H := H) (m := m)
    (hle u0) (fun _ u => hle u) hm0 hm1
  simp only [← hF, ← hZ] at h
  set F1 : ℝ≥0∞ := ∑ k ∈ Finset.univ.erase b, F with hF1
  have hF1' : F1 = ENNReal.ofReal ((N : ℝ) - 1) * F := by
    rw [hF1, Finset.sum_const, Finset.card_erase_of_mem (Finset.mem_univ _), Finset.card_univ, Fintype.card_fin,
      nsmul_eq_mul, ← ENNReal.ofReal_natCast, Nat.cast_sub (Nat.pos_of_ne_zero (NeZero.ne N))]
    simp
  have hF1top : F1 ≠ ∞ := by rw [hF1']; exact ENNReal.mul_ne_top ENNReal.ofReal_ne_top hFtop
  have hpair : ∑ k ∈ Finset.univ.erase b, ∑ l ∈ Finset.univ.erase b, (if l = k then 0 else F * Z) ≤ (N * Z) * F1 := by
    rw [hF1, Finset.mul_sum]
    refine Finset.sum_le_sum fun k _ => ?_
    calc ∑ l ∈ Finset.univ.erase b, (if l = k then 0 else F * Z) ≤ ∑ l ∈ Finset.univ.erase b, F * Z :=
          Finset.sum_le_sum fun l _ => by split_ifs <;> simp
      _ ≤ ∑ l : Fin N, F * Z := Finset.sum_le_sum_of_subset (Finset.erase_subset _ _)
      _ = _ := by simp; ring
  set R : ℝ≥0∞ := ∫⁻ y, (∑ k ∈ Finset.univ.erase b, ENNReal.ofReal (Real.exp (g0 (y k))) * Φ (y k)) *
      (ENNReal.ofReal (Real.exp (g0 u0)) * D u0 + ∑ l ∈ Finset.univ.erase b,
        ENNReal.ofReal (Real.exp (g0 (y l))) * D (y l))⁻¹ ∂(Measure.pi fun _ : Fin N => ν) with hR
  have hmain : m⁻¹ * F1 ≤ R := by
    have h3 : R + m⁻¹ * m⁻¹ * (2 * H * F1 + ∑ k ∈ Finset.univ.erase b, ∑ l ∈ Finset.univ.erase b,
        (if l = k then 0 else F * Z)) ≤ R + m⁻¹ * F1 := by
      refine add_le_add le_rfl ?_
      calc _ ≤ m⁻¹ * m⁻¹ * (2 * H * F1 + (N * Z) * F1) := by gcongr
        _ = (m⁻¹ * m) * (m⁻¹ * F1) := by ring
        _ = _ := by rw [ENNReal.inv_mul_cancel hm0 hm1, one_mul]
    have h4 := h.trans h3
    have h5 : 2 * m⁻¹ * F1 = m⁻¹ * F1 + m⁻¹ * F1 := by ring
    rw [h5] at h4
    exact (ENNReal.add_le_add_iff_right (ENNReal.mul_ne_top (ENNReal.inv_ne_top.2 hm0) hF1top)).1 h4
  have hR' : ∫⁻ y, (∑ a ∈ Finset.univ.erase b,
          ENNReal.ofReal ((initSt g0 (Function.update y b u0)).W a) * Φ (Function.update y b u0 a)) *
        (∑ a, ENNReal.ofReal ((initSt g0 (Function.update y b u0)).W a) * D (Function.update y b u0 a))⁻¹
          ∂(Measure.pi fun _ : Fin N => ν) = R := by
    refine lintegral_congr fun y => ?_
    have e := normalise_ratio (fun i => g0 (Function.update y b u0 i)) (Finset.univ.erase b)
      (fun k => Φ (Function.update y b u0 k)) (fun k => D (Function.update y b u0 k))
    refine Eq.trans e ?_
    rw [← Finset.add_sum_erase Finset.univ _ (Finset.mem_univ b), Function.update_self]
    congr 1
    · refine Finset.sum_congr rfl fun k hk => ?_
      rw [Function.update_of_ne (Finset.ne_of_mem_erase hk)]
    · congr 2
      refine Finset.sum_congr rfl fun k hk => ?_
      rw [Function.update_of_ne (Finset.ne_of_mem_erase hk)]
  rw [hR']
  refine le_trans ?_ hmain
  have hshare := share_le hN1 β (N := N) (n := n) hZge
  calc stepShare ((N : ℝ) - 1) β N (n + 1) * (F * Z⁻¹) = (stepShare ((N : ℝ) - 1) β N (n + 1) * Z⁻¹) * F := by ring
    _ ≤ (ENNReal.ofReal ((N : ℝ) - 1) * m⁻¹) * F := mul_le_mul' hshare le_rfl
    _ = _ := by rw [hF1']; ring

end Csmc
end Fbs
