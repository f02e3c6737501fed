import Verif.Lemmas.MetropolisOrder

/-! The discounted sums of the chain with estimated weights are not much larger than those of the one with exact weights. -/

open MeasureTheory ProbabilityTheory
open scoped ENNReal

namespace Fbs
namespace Props

open Jax Chains Smc

section Single

variable {τ : Type} [MeasurableSpace τ] {κ : Kernel τ τ} {π : Measure τ}

/-- The resolvent equation, integrated. -/
theorem mul_disc {r : ℝ≥0∞} {a b : τ → ℝ≥0∞} (ha : Measurable a) (hb : Measurable b) :
    ∫⁻ x, a x * disc κ r b x ∂π = (∫⁻ x, a x * b x ∂π) + r * lagProd κ π a (disc κ r b) 1 := by
  have m1 : Measurable fun x => a x * b x := mMul ha hb
  have m2 : Measurable fun x => a x * iterInt κ (disc κ r b) 1 x := mMul ha (measurable_iterInt (measurable_disc r hb) 1)
  rw [lagProd, ← lintegral_const_mul _ m2, ← lintegral_add_left m1]
  refine lintegral_congr fun x => ?_
  conv_lhs => rw [disc_eq r hb]
  rw [mul_add]
  congr 1
  rw [mul_left_comm]
  rfl

variable [IsMarkovKernel κ]

theorem integral_disc (hrev : Rev κ π) {r : ℝ≥0∞} {b : τ → ℝ≥0∞} (hb : Measurable b) :
    ∫⁻ x, disc κ r b x ∂π = (∫⁻ x, b x ∂π) + r * ∫⁻ x, disc κ r b x ∂π := by
  have h := mul_disc (κ := κ) (π := π) (r := r) (measurable_const (a := (1 : ℝ≥0∞))) hb
  simp only [one_mul, lagProd] at h
  rwa [lintegral_iterInt hrev (measurable_disc r hb) 1] at h

omit [IsMarkovKernel κ] in
theorem sq_shift {a : τ → ℝ≥0∞} (ha : Measurable a) (c : ℝ≥0∞) :
    ∫⁻ x, (a x + c) * (a x + c) ∂π = (∫⁻ x, a x * a x ∂π) + 2 * c * (∫⁻ x, a x ∂π) + c * c * π Set.univ := by
  have e : ∀ x, (a x + c) * (a x + c) = a x * a x + 2 * c * a x + c * c := fun x => by ring
  have m1 : Measurable fun x => a x * a x := mMul ha ha
  have m2 : Measurable fun x => a x * a x + 2 * c * a x := mAdd m1 (ha.const_mul _)
  simp only [e]
  rw [lintegral_add_left m2, lintegral_add_left m1, lintegral_const_mul _ ha, lintegral_const]

omit [IsMarkovKernel κ] in
theorem mul_shift {a b : τ → ℝ≥0∞} (ha : Measurable a) (hb : Measurable b) (c W : ℝ≥0∞) :
    ∫⁻ x, (a x + c) * (W * b x) ∂π = W * ((∫⁻ x, a x * b x ∂π) + c * ∫⁻ x, b x ∂π) := by
  have e : ∀ x, (a x + c) * (W * b x) = W * (a x * b x + c * b x) := fun x => by ring
  have m1 : Measurable fun x => a x * b x := mMul ha hb
  simp only [e]
  rw [lintegral_const_mul _ (mAdd m1 (hb.const_mul _)), lintegral_add_left m1, lintegral_const_mul _ hb]

theorem iterInt_shift {a : τ → ℝ≥0∞} (ha : Measurable a) (c : ℝ≥0∞) (x : τ) :
    iterInt κ (fun x => a x + c) 1 x = iterInt κ a 1 x + c := by
  simp only [iterInt]
  rw [lintegral_add_left ha]
  simp

omit [IsMarkovKernel κ] in
theorem iterInt_scale {a : τ → ℝ≥0∞} (ha : Measurable a) (c : ℝ≥0∞) (x : τ) :
    iterInt κ (fun x => c * a x) 1 x = c * iterInt κ a 1 x := by
  simp only [iterInt]
  rw [lintegral_const_mul _ ha]

theorem lag_shift (hrev : Rev κ π) {a : τ → ℝ≥0∞} (ha : Measurable a) (c : ℝ≥0∞) :
    lagProd κ π (fun x => a x + c) (fun x => a x + c) 1
      = lagProd κ π a a 1 + 2 * c * (∫⁻ x, a x ∂π) + c * c * π Set.univ := by
  have hi := measurable_iterInt (κ := κ) ha 1
  simp only [lagProd, iterInt_shift ha]
  have e : ∀ x, (a x + c) * (iterInt κ a 1 x + c) = a x * iterInt κ a 1 x + (c * a x + c * iterInt κ a 1 x) + c * c := fun x => by ring
  have m1 : Measurable fun x => a x * iterInt κ a 1 x := mMul ha hi
  have m2 : Measurable fun x => c * a x + c * iterInt κ a 1 x := mAdd (ha.const_mul _) (hi.const_mul _)
  simp only [e]
  rw [lintegral_add_left (mAdd m1 m2), lintegral_add_left m1, lintegral_add_left (ha.const_mul _), lintegral_const_mul _ ha,
    lintegral_const_mul _ hi, lintegral_iterInt hrev ha 1, lintegral_const]
  ring

theorem lag_mul (hrev : Rev κ π) {a b : τ → ℝ≥0∞} (ha : Measurable a) (hb : Measurable b) (c W : ℝ≥0∞) :
    lagProd κ π (fun x => a x + c) (fun x => W * b x) 1 = W * (lagProd κ π a b 1 + c * ∫⁻ x, b x ∂π) := by
  simp only [lagProd, iterInt_scale hb]
  rw [mul_shift ha (measurable_iterInt (κ := κ) hb 1), lintegral_iterInt hrev hb 1]

omit [IsMarkovKernel κ] in
theorem lag_scale {b : τ → ℝ≥0∞} (hb : Measurable b) (W : ℝ≥0∞) :
    lagProd κ π (fun x => W * b x) (fun x => W * b x) 1 = W * W * lagProd κ π b b 1 := by
  have hi := measurable_iterInt (κ := κ) hb 1
  have m : Measurable fun x => b x * iterInt κ b 1 x := mMul hb hi
  simp only [lagProd, iterInt_scale hb]
  rw [← lintegral_const_mul _ m]
  exact lintegral_congr fun x => by ring

end Single

section Compare

variable {τ σ : Type} [MeasurableSpace τ] [MeasurableSpace σ] {κ : Kernel τ τ} [IsMarkovKernel κ] {π : Measure τ} [IsFiniteMeasure π]
  {η : Kernel σ σ} [IsMarkovKernel η] {M : Measure σ} [IsFiniteMeasure M] {p : σ → τ}

/-- Real numbers in the next theorem. -/
theorem upper_aux {r W Z I hh1 ph1 gg pg hg phg hh phh sA sB Ih Ig : ℝ} (hr0 : 0 ≤ r) (hr : r < 1) (hW : 1 ≤ W) (hZ : 0 < Z)
    (q1 : gg = sA + r * pg) (q2 : hg = sB + r * phg) (q3 : hh = sB + r * phh) (q4 : Ig = I + r * Ig) (q5 : Ih = I + r * Ih)
    (hj : hh1 ≤ hh) (hc : hh1 + W * phh ≤ W * hh + ph1) (hcs : Ih * Ih ≤ Z * hh)
    (hk : ∀ c : ℝ, 0 ≤ c → (ph1 + 2 * c * Ih + c * c * Z) + W * W * pg + 2 * (W * (hg + c * Ig))
      ≤ (hh1 + 2 * c * Ih + c * c * Z) + W * W * gg + 2 * (W * (phg + c * Ig)))
    (hs : ∀ c : ℝ, 0 ≤ c → 2 * (W * (hg + c * Ig)) ≤ (hh1 + 2 * c * Ih + c * c * Z) + W * W * gg) (hI : 0 ≤ I) :
    (1 - r) * (Z * sB) + W * (I * I) ≤ W * ((1 - r) * (Z * sA)) + I * I := by
  have ht : 0 < 1 - r := by linarith
  have hIh : Ih = I / (1 - r) := by field_simp; linarith
  have hIg : Ig = I / (1 - r) := by field_simp; linarith
  set c := (W - 1) * I / (Z * (1 - r)) with hcd
  have hc0 : 0 ≤ c := by
    have : 0 ≤ W - 1 := by linarith
    positivity
  have h1 := mul_le_mul_of_nonneg_left (hk c hc0) hr0
  have h2 := mul_le_mul_of_nonneg_left (hs c hc0) ht.le
  have h3 := mul_le_mul_of_nonneg_left hc hr0
  have h4 := mul_le_mul_of_nonneg_left hj ht.le
  have hT : 0 ≤ (W * sB - (W - 1) * ((1 - r) * hh)) + 2 * c * I + (1 - r) * (c * c * Z) + W * W * sA - 2 * W * sB - 2 * W * (c * I) := by
    have e1 : (1 - r) * Ih = I := by rw [hIh]; field_simp
    have e2 : (1 - r) * Ig = I := by rw [hIg]; field_simp
    have e3 : (1 - r) * (2 * c * Ih) = 2 * c * I := by rw [← e1]; ring
    have e4 : (1 - r) * (W * (c * Ig)) = W * (c * I) := by rw [← e2]; ring
    have e5 : W * W * gg = W * W * sA + r * (W * W * pg) := by rw [q1]; ring
    have e6 : W * hg = W * sB + r * (W * phg) := by rw [q2]; ring
    have e7 : W * hh = W * sB + r * (W * phh) := by rw [q3]; ring
    linarith
  have h5 : (I / (1 - r)) * (I / (1 - r)) ≤ Z * hh := hIh ▸ hcs
  have h6 : I * I / ((1 - r) * Z) ≤ (1 - r) * hh := by
    rw [div_le_iff₀ (by positivity)]
    have := mul_le_mul_of_nonneg_left h5 (by positivity : 0 ≤ (1 - r) * (1 - r))
    have e : (1 - r) * (1 - r) * (I / (1 - r) * (I / (1 - r))) = I * I := by field_simp
    linarith
  have h7 := mul_le_mul_of_nonneg_left h6 (by linarith : 0 ≤ W - 1)
  have e8 : c * I = (W - 1) * (I * I / ((1 - r) * Z)) := by rw [hcd]; field_simp
  have e9 : (1 - r) * (c * c * Z) = (W - 1) * (W - 1) * (I * I / ((1 - r) * Z)) := by rw [hcd]; field_simp
  have e10 : (1 - r) * Z * (I * I / ((1 - r) * Z)) = I * I := by field_simp
  set μ := I * I / ((1 - r) * Z) with hμ
  have e12 : W * (c * I) = W * ((W - 1) * μ) := by rw [e8]
  have h8 : W * sB ≤ W * (W * sA - (W - 1) * μ) := by linarith
  have h9 : sB ≤ W * sA - (W - 1) * μ := le_of_mul_le_mul_left h8 (by linarith)
  have h10 := mul_le_mul_of_nonneg_left h9 (by positivity : 0 ≤ (1 - r) * Z)
  have e11 : (1 - r) * Z * (W * sA - (W - 1) * μ) = W * ((1 - r) * (Z * sA)) - (W - 1) * (I * I) := by rw [← e10]; ring
  linarith

/-- If the larger chain moves at least `1 / W` times as much as the smaller one, its discounted sums of covariances are at most `W` times as
large. -/
theorem discounted_upper (hκ : Rev κ π) (hκp : Pos κ π) (hη : Rev η M) (hηp : Pos η M) (hp : Measurable p)
    (hmap : ∀ f : τ → ℝ≥0∞, Measurable f → ∫⁻ z, f (p z) ∂M = ∫⁻ x, f x ∂π) {W : ℝ≥0∞} (hW : 1 ≤ W) (hWt : W ≠ ∞)
    (hcmp : ∀ h : σ → ℝ≥0∞, Measurable h → ∫⁻ z, h z * h z ∂M ≠ ∞ → ∃ h₁ : τ → ℝ≥0∞, Measurable h₁ ∧
      (∀ f : τ → ℝ≥0∞, Measurable f → ∫⁻ z, f (p z) * h z ∂M = ∫⁻ x, f x * h₁ x ∂π) ∧
      ∫⁻ x, h₁ x * h₁ x ∂π ≤ ∫⁻ z, h z * h z ∂M ∧
      (∫⁻ x, h₁ x * h₁ x ∂π) + W * lagProd η M h h 1 ≤ W * (∫⁻ z, h z * h z ∂M) + lagProd κ π h₁ h₁ 1)
    {f : τ → ℝ≥0∞} (hf : Measurable f) (h2 : ∫⁻ x, f x * f x ∂π ≠ ∞) {r : ℝ≥0∞} (hr : r < 1) :
    (1 - r) * (π Set.univ * ∑' k, r ^ k * lagProd η M (fun z => f (p z)) (fun z => f (p z)) k)
        + W * ((∫⁻ x, f x ∂π) * ∫⁻ x, f x ∂π)
      ≤ W * ((1 - r) * (π Set.univ * ∑' k, r ^ k * lagProd κ π f f k)) + (∫⁻ x, f x ∂π) * ∫⁻ x, f x ∂π := by
  set f' : σ → ℝ≥0∞ := fun z => f (p z) with hf'd
  have hf' : Measurable f' := hf.comp hp
  have h2' : ∫⁻ z, f' z * f' z ∂M ≠ ∞ := by
    rw [hmap (fun x => f x * f x) (mMul hf hf)]
    exact h2
  set g := disc κ r f with hgd
  set h := disc η r f' with hhd
  have hg : Measurable g := measurable_disc r hf
  have hh : Measurable h := measurable_disc r hf'
  rw [← lintegral_mul_disc r hf hf, ← lintegral_mul_disc r hf' hf']
  have hgg : ∫⁻ x, g x * g x ∂π ≠ ∞ := disc_sq_ne_top hκ hr hf h2
  have hhh : ∫⁻ z, h z * h z ∂M ≠ ∞ := disc_sq_ne_top hη hr hf' h2'
  obtain ⟨h₁, hh₁, hproj, hj, hc⟩ := hcmp h hh hhh
  have hMπ : M Set.univ = π Set.univ := by
    have := hmap (fun _ => 1) measurable_const
    simpa using this
  by_cases hZ0 : π Set.univ = 0
  · have hπ0 : π = 0 := Measure.measure_univ_eq_zero.1 hZ0
    simp [hπ0]
  have q1 := mul_disc (κ := κ) (π := π) (r := r) hg hf
  have q2 := mul_disc (κ := κ) (π := π) (r := r) hh₁ hf
  have q3 := mul_disc (κ := η) (π := M) (r := r) hh hf'
  have q4 := integral_disc hκ (r := r) hf
  have q5 := integral_disc hη (r := r) hf'
  rw [← hgd] at q1 q2 q4
  rw [← hhd] at q3 q5
  have hI' : ∫⁻ z, f' z ∂M = ∫⁻ x, f x ∂π := hmap f hf
  have hIh : ∫⁻ z, h z ∂M = ∫⁻ x, h₁ x ∂π := by
    have := hproj (fun _ => 1) measurable_const
    simpa using this
  have hfh : ∫⁻ z, f' z * h z ∂M = ∫⁻ x, f x * h₁ x ∂π := hproj f hf
  have hfg : ∫⁻ x, g x * f x ∂π = ∫⁻ x, f x * g x ∂π := lintegral_congr fun x => mul_comm _ _
  have hfh₁ : ∫⁻ x, h₁ x * f x ∂π = ∫⁻ x, f x * h₁ x ∂π := lintegral_congr fun x => mul_comm _ _
  have hfh' : ∫⁻ z, h z * f' z ∂M = ∫⁻ x, f x * h₁ x ∂π := by
    rw [← hfh]
    exact lintegral_congr fun x => mul_comm _ _
  have hcs := cov_nonneg_fin hη hηp hh hhh 0
  rw [hMπ, hIh] at hcs
  rw [hI', hIh] at q5
  rw [hfg] at q1
  rw [hfh₁] at q2
  rw [hfh'] at q3
  rw [hfh]
  change _ ≤ _ * ∫⁻ z, h z * h z ∂M at hcs
  have hk : ∀ c : ℝ≥0∞, _ := fun c => contraction (κ := κ) hκ (g := fun x => h₁ x + c) (h := fun x => W * g x)
    (mAdd hh₁ measurable_const) (hg.const_mul W)
  have hs : ∀ c : ℝ≥0∞, 2 * ∫⁻ x, (h₁ x + c) * (W * g x) ∂π ≤ (∫⁻ x, (h₁ x + c) * (h₁ x + c) ∂π) + ∫⁻ x, (W * g x) * (W * g x) ∂π := fun c => by
    have ma : Measurable fun x => h₁ x + c := mAdd hh₁ measurable_const
    have mb : Measurable fun x => W * g x := hg.const_mul W
    rw [← lintegral_const_mul _ (mMul ma mb), ← lintegral_add_left (mMul ma ma)]
    exact lintegral_mono fun z => by
      have := two_mul_le (a := h₁ z + c) (b := W * g z)
      rw [mul_comm (W * g z), ← two_mul] at this
      exact this
  have hWg : ∫⁻ x, (W * g x) * (W * g x) ∂π = W * W * ∫⁻ x, g x * g x ∂π := by
    rw [← lintegral_const_mul _ (mMul hg hg)]
    exact lintegral_congr fun x => by ring
  simp only [lag_shift hκ hh₁, lag_scale hg, lag_mul hκ hh₁ hg, sq_shift hh₁, mul_shift hh₁ hg, hWg] at hk hs
  -- everything is finite
  have fZ : π Set.univ ≠ ∞ := measure_ne_top _ _
  have fI : ∫⁻ x, f x ∂π ≠ ∞ := fin_of_sq h2
  have fIg : ∫⁻ x, g x ∂π ≠ ∞ := fin_of_sq hgg
  have fh1 : ∫⁻ x, h₁ x * h₁ x ∂π ≠ ∞ := ne_top_of_le_ne_top hhh hj
  have fIh : ∫⁻ x, h₁ x ∂π ≠ ∞ := fin_of_sq fh1
  have fph1 : lagProd κ π h₁ h₁ 1 ≠ ∞ := ne_top_of_le_ne_top fh1 (lagProd_le hκ hh₁ 1)
  have fpg : lagProd κ π g g 1 ≠ ∞ := ne_top_of_le_ne_top hgg (lagProd_le hκ hg 1)
  have fphh : lagProd η M h h 1 ≠ ∞ := ne_top_of_le_ne_top hhh (lagProd_le hη hh 1)
  have fphg : lagProd κ π h₁ g 1 ≠ ∞ :=
    ne_top_of_le_ne_top (ENNReal.add_ne_top.2 ⟨fph1, fpg⟩) (le_self_add.trans (hκp h₁ g hh₁ hg))
  have fsA : ∫⁻ x, f x * g x ∂π ≠ ∞ := ne_top_of_le_ne_top hgg (q1 ▸ le_self_add)
  have fsB : ∫⁻ x, f x * h₁ x ∂π ≠ ∞ := ne_top_of_le_ne_top hhh (q3 ▸ le_self_add)
  have hr' : r ≠ ∞ := hr.ne_top
  have fhg : ∫⁻ x, h₁ x * g x ∂π ≠ ∞ := q2 ▸ ENNReal.add_ne_top.2 ⟨fsB, ENNReal.mul_ne_top hr' fphg⟩
  generalize ∫⁻ x, g x * g x ∂π = gg at *
  generalize ∫⁻ z, h z * h z ∂M = hh' at *
  generalize ∫⁻ x, h₁ x * h₁ x ∂π = hh1 at *
  generalize ∫⁻ x, h₁ x * g x ∂π = hg' at *
  generalize ∫⁻ x, f x * g x ∂π = sA at *
  generalize ∫⁻ x, f x * h₁ x ∂π = sB at *
  generalize lagProd κ π h₁ h₁ 1 = ph1 at *
  generalize lagProd η M h h 1 = phh at *
  generalize lagProd κ π g g 1 = pg at *
  generalize lagProd κ π h₁ g 1 = phg at *
  generalize ∫⁻ x, h₁ x ∂π = Ih at *
  generalize ∫⁻ x, g x ∂π = Ig at *
  generalize ∫⁻ x, f x ∂π = I at *
  generalize π Set.univ = Z at *
  have hk' : ∀ c : NNReal, _ := fun c => hk c
  have hs' : ∀ c : NNReal, _ := fun c => hs c
  clear hk hs
  lift gg to NNReal using hgg
  lift hh' to NNReal using hhh
  lift hh1 to NNReal using fh1
  lift hg' to NNReal using fhg
  lift sA to NNReal using fsA
  lift sB to NNReal using fsB
  lift ph1 to NNReal using fph1
  lift phh to NNReal using fphh
  lift pg to NNReal using fpg
  lift phg to NNReal using fphg
  lift Ih to NNReal using fIh
  lift Ig to NNReal using fIg
  lift I to NNReal using fI
  lift Z to NNReal using fZ
  lift W to NNReal using hWt
  lift r to NNReal using hr'
  norm_cast at *
  rw [← NNReal.coe_le_coe] at hj hc hcs hW ⊢
  rw [← NNReal.coe_inj] at q1 q2 q3 q4 q5
  rw [← NNReal.coe_lt_coe] at hr
  have hZp : (0 : ℝ) < Z := by
    rw [NNReal.coe_pos]
    exact pos_iff_ne_zero.2 hZ0
  have hr1 : ((1 - r : NNReal) : ℝ) = 1 - r := by
    rw [NNReal.coe_sub (by exact_mod_cast hr.le)]
    rfl
  push_cast [hr1] at *
  refine upper_aux (hh1 := hh1) (ph1 := ph1) (gg := gg) (pg := pg) (hg := hg') (phg := phg) (hh := hh') (phh := phh) (Ih := Ih) (Ig := Ig)
    r.coe_nonneg hr hW hZp q1 q2 q3 q4 q5 hj hc hcs (fun c hc0 => ?_) (fun c hc0 => ?_) I.coe_nonneg
  · have := hk' ⟨c, hc0⟩
    rw [← NNReal.coe_le_coe] at this
    push_cast at this
    exact this
  · have := hs' ⟨c, hc0⟩
    rw [← NNReal.coe_le_coe] at this
    push_cast at this
    exact this

omit [IsMarkovKernel κ] [IsFiniteMeasure π] [IsMarkovKernel η] [IsFiniteMeasure M] in
/-- The same for the sums of the covariances (`m` is subtracted from all products). -/
theorem asymptotic_upper {A B : ℕ → ℝ≥0∞} {m W : ℝ≥0∞} (hm : m ≠ ∞) (hWt : W ≠ ∞) (hA : ∀ k, m ≤ A k) (hB : ∀ k, m ≤ B k)
    (hB' : ∀ k, B k ≠ ∞)
    (h : ∀ r : ℝ≥0∞, r < 1 → (1 - r) * (∑' k, r ^ k * B k) + W * m ≤ W * ((1 - r) * ∑' k, r ^ k * A k) + m) :
    ∑' k, (B k - m) ≤ W * ∑' k, (A k - m) := by
  have key := asymptotic_le (A := fun k => B k - m) (B := fun k => W * (A k - m)) (m := 0) (by simp) (by simp) (by simp)
    (fun k => ENNReal.sub_ne_top (hB' k)) fun r hr => by
      have hr0 : 1 - r ≠ 0 := (tsub_pos_of_lt hr).ne'
      have hrt : 1 - r ≠ ∞ := ENNReal.sub_ne_top ENNReal.one_ne_top
      have e : ∀ {C : ℕ → ℝ≥0∞}, (∀ k, m ≤ C k) →
          (1 - r) * ∑' k, r ^ k * C k = (1 - r) * (∑' k, r ^ k * (C k - m)) + m := fun {C} hC => by
        have : ∑' k, r ^ k * C k = ∑' k, r ^ k * (C k - m) + ∑' k, r ^ k * m := by
          rw [← ENNReal.tsum_add]
          exact tsum_congr fun k => by rw [← mul_add, tsub_add_cancel_of_le (hC k)]
        rw [this, mul_add, ENNReal.tsum_mul_right, ENNReal.tsum_geometric, ← mul_assoc (1 - r) (1 - r)⁻¹,
          ENNReal.mul_inv_cancel hr0 hrt, one_mul]
      have h' := h r hr
      rw [e hA, e hB, mul_add, add_right_comm, add_right_comm _ _ m, add_right_comm _ m, ENNReal.add_le_add_iff_right hm,
        ENNReal.add_le_add_iff_right (ENNReal.mul_ne_top hWt hm), mul_left_comm, ENNReal.mul_le_mul_iff_right hr0 hrt] at h'
      simp only [mul_left_comm _ W, ENNReal.tsum_mul_left]
      exact h'
  simp only [tsub_zero, ENNReal.tsum_mul_left] at key
  exact key

end Compare

end Props
end Fbs
