import Verif.Model.ImgSamplers
import Verif.Model.Toy
import Verif.Props.Restore
import Verif.Props.Toy

/-!
# C70: the samplers of the image experiments
-/

open MeasureTheory ProbabilityTheory
open scoped ENNReal NNReal

namespace Fbs
namespace Props

open Jax Restore ImgSamplers

variable {w h c N : ℕ} {mask : Mask}

/-- The positions of the pixels of the two parts in the image. -/
noncomputable def posEquiv (hp : (mask.unobs ++ mask.obs).Perm (List.range (w * h))) :
    Fin mask.unobs.length ⊕ Fin mask.obs.length ≃ Fin (w * h) :=
  have hlt : ∀ i ∈ mask.unobs ++ mask.obs, i < w * h := fun _ hi => List.mem_range.1 (hp.mem_iff.1 hi)
  Equiv.ofBijective (Sum.elim (fun i => ⟨mask.unobs[i], hlt _ (List.mem_append_left _ (List.getElem_mem _))⟩)
      (fun i => ⟨mask.obs[i], hlt _ (List.mem_append_right _ (List.getElem_mem _))⟩)) (by
    have hnd := hp.nodup_iff.2 List.nodup_range
    obtain ⟨hu, ho, hd⟩ := List.nodup_append'.1 hnd
    refine ⟨?_, ?_⟩
    · rintro (i | i) (j | j) hij <;> simp only [Sum.elim_inl, Sum.elim_inr, Fin.mk.injEq] at hij
      · exact congrArg _ (Fin.ext ((hu.getElem_inj_iff).1 hij))
      · exact absurd (hij ▸ List.getElem_mem _) (fun hm => hd (List.getElem_mem i.2) hm)
      · exact absurd (hij ▸ List.getElem_mem _) (fun hm => hd (List.getElem_mem j.2) hm)
      · exact congrArg _ (Fin.ext ((ho.getElem_inj_iff).1 hij))
    · intro k
      rcases List.mem_append.1 (hp.mem_iff.2 (List.mem_range.2 k.2)) with hk | hk
      · obtain ⟨i, hi, hik⟩ := List.getElem_of_mem hk
        exact ⟨Sum.inl ⟨i, hi⟩, Fin.ext hik⟩
      · obtain ⟨i, hi, hik⟩ := List.getElem_of_mem hk
        exact ⟨Sum.inr ⟨i, hi⟩, Fin.ext hik⟩)

/-- The same for the entries: a pixel has `c` channels. -/
noncomputable def maskEquiv (c : ℕ) (hp : (mask.unobs ++ mask.obs).Perm (List.range (w * h))) :
    (Fin mask.unobs.length × Fin c) ⊕ (Fin mask.obs.length × Fin c) ≃ Fin (w * h) × Fin c :=
  (Equiv.sumProdDistrib _ _ _).symm.trans ((posEquiv hp).prodCongr (Equiv.refl _))

theorem maskEquiv_inl (hp : (mask.unobs ++ mask.obs).Perm (List.range (w * h))) (i : Fin mask.unobs.length) (ch : Fin c) :
    ((maskEquiv c hp (Sum.inl (i, ch))).1 : ℕ) = mask.unobs[i] ∧ (maskEquiv c hp (Sum.inl (i, ch))).2 = ch :=
  ⟨rfl, rfl⟩

theorem maskEquiv_inr (hp : (mask.unobs ++ mask.obs).Perm (List.range (w * h))) (i : Fin mask.obs.length) (ch : Fin c) :
    ((maskEquiv c hp (Sum.inr (i, ch))).1 : ℕ) = mask.obs[i] ∧ (maskEquiv c hp (Sum.inr (i, ch))).2 = ch :=
  ⟨rfl, rfl⟩

theorem gather_rows {n : ℕ} (img : Fin n × Fin c → ℝ) {inds : List ℕ} (hlt : ∀ i ∈ inds, i < n) (i : Fin inds.length)
    (ch : Fin c) : ofRows inds.length (Data.gather (rows img) inds) (i, ch) = img (⟨inds[i], hlt _ (List.getElem_mem _)⟩, ch) := by
  have h1 := hlt inds[i] (List.getElem_mem _)
  have h2 : min inds[i] (n - 1) = inds[i] := by omega
  have h2' : min inds[(i : ℕ)] (n - 1) = inds[(i : ℕ)] := h2
  have h1' : inds[(i : ℕ)] < n := h1
  simp [ofRows, Data.gather, rows, List.getD, h2', h1']

/-- `unpack` of the data set is the selection of the entries given by the mask. -/
theorem unpackMask_eq (hp : (mask.unobs ++ mask.obs).Perm (List.range (w * h))) (xy : Fin (w * h) × Fin c → ℝ) :
    unpackMask mask xy = (Toy.unpackU (maskEquiv c hp) xy, Toy.unpackV (maskEquiv c hp) xy) := by
  have hlt : ∀ i ∈ mask.unobs ++ mask.obs, i < w * h := fun _ hi => List.mem_range.1 (hp.mem_iff.1 hi)
  refine Prod.ext (funext fun p => ?_) (funext fun p => ?_)
  · exact gather_rows xy (fun i hi => hlt i (List.mem_append_left _ hi)) p.1 p.2
  · exact gather_rows xy (fun i hi => hlt i (List.mem_append_right _ hi)) p.1 p.2

/-- `concat` of the data set does not raise and puts the entries where the mask says. -/
theorem concatMask_eq (hp : (mask.unobs ++ mask.obs).Perm (List.range (w * h))) (u : Fin mask.unobs.length × Fin c → ℝ)
    (v : Fin mask.obs.length × Fin c → ℝ) : concatMask w h mask u v = .ok (Toy.concat (maskEquiv c hp) u v) := by
  obtain ⟨img, h1, h2, h3, h4⟩ := concat_spec (0 : Fin c → ℝ) hp (x := rows u) (y := rows v) (by simp [rows]) (by simp [rows])
  rw [concatMask, h1]
  refine congrArg Except.ok (funext fun p => ?_)
  obtain ⟨q, rfl⟩ := (maskEquiv c hp).surjective p
  rcases q with ⟨i, ch⟩ | ⟨i, ch⟩
  · have h5 : (mask.unobs.map (fun i => img[i]?))[i]? = ((rows u).map some)[i]? := by rw [h3]
    simp only [Toy.concat, Equiv.symm_apply_apply, Sum.elim_inl, ofRows]
    have h6 : img[mask.unobs[i]]? = some fun ch => u (i, ch) := by
      simpa [rows] using h5
    rw [(maskEquiv_inl hp i ch).1, (maskEquiv_inl hp i ch).2, List.getD, h6]
    rfl
  · have h5 : (mask.obs.map (fun i => img[i]?))[i]? = ((rows v).map some)[i]? := by rw [h4]
    simp only [Toy.concat, Equiv.symm_apply_apply, Sum.elim_inr, ofRows]
    have h6 : img[mask.obs[i]]? = some fun ch => v (i, ch) := by
      simpa [rows] using h5
    rw [(maskEquiv_inr hp i ch).1, (maskEquiv_inr hp i ch).2, List.getD, h6]
    rfl

theorem vmapE_ok {α : Type} : ∀ {n : ℕ} {f : Fin n → Except String α} {g : Fin n → α}, (∀ i, f i = .ok (g i)) →
    vmapE f = .ok g
  | 0, _, g, _ => congrArg Except.ok (funext fun i => i.elim0)
  | n + 1, f, g, hf => by
    have h1 : (vmapE fun i => f i.succ) = .ok fun i => g i.succ := vmapE_ok fun i => hf i.succ
    show (f 0).bind (fun a => (vmapE fun i => f i.succ).bind fun as => .ok (Fin.cons a as : Fin (n + 1) → α)) = _
    rw [hf 0, h1]
    exact congrArg Except.ok (Fin.cons_self_tail g)

section Functions

variable (hp : (mask.unobs ++ mask.obs).Perm (List.range (w * h)))
  (drift : (Fin (w * h) × Fin c → ℝ) → ℝ → (Fin (w * h) × Fin c → ℝ)) (disp : ℝ → ℝ) (dt : ℝ)

/-- **C70, functions.**  For every mask which splits the pixels, the functions of the image experiments do not raise and are
those of the toy experiments, with the layout given by the mask. -/
theorem C70_functions (u : Fin mask.unobs.length × Fin c → ℝ) (v vPrev : Fin mask.obs.length × Fin c → ℝ)
    (us : Fin N → Fin mask.unobs.length × Fin c → ℝ) (t : ℝ) (key : Key) :
    reverseDriftU mask drift u v t = .ok (Toy.driftU (maskEquiv c hp) drift u v t) ∧
    reverseDriftV mask drift v u t = .ok (Toy.driftV (maskEquiv c hp) drift v u t) ∧
    ImgSamplers.transitionSampler mask drift disp dt us v t key
      = Except.ok <$> Toy.transitionSampler (maskEquiv c hp) drift disp dt us v t key ∧
    ImgSamplers.transitionLogpdf mask drift disp dt u us v t
      = .ok (Toy.transitionLogpdf (maskEquiv c hp) drift disp dt u us v t) ∧
    ImgSamplers.likelihoodLogpdf mask drift disp dt v us vPrev t
      = .ok (Toy.likelihoodLogpdf (maskEquiv c hp) drift disp dt v us vPrev t) := by
  have hU : ∀ u v, reverseDriftU mask drift u v t = .ok (Toy.driftU (maskEquiv c hp) drift u v t) := fun u v => by
    rw [reverseDriftU, concatMask_eq hp]
    exact congrArg Except.ok (congrArg Prod.fst (unpackMask_eq hp _))
  have hV : ∀ u v, reverseDriftV mask drift v u t = .ok (Toy.driftV (maskEquiv c hp) drift v u t) := fun u v => by
    rw [reverseDriftV, concatMask_eq hp]
    exact congrArg Except.ok (congrArg Prod.snd (unpackMask_eq hp _))
  refine ⟨hU u v, hV u v, ?_, ?_, ?_⟩
  · rw [ImgSamplers.transitionSampler, vmapE_ok fun j => hU (us j) v]
    rfl
  · rw [ImgSamplers.transitionLogpdf, vmapE_ok fun j => hU (us j) v]
    rfl
  · rw [ImgSamplers.likelihoodLogpdf, vmapE_ok fun j => hV (us j) vPrev]
    rfl

end Functions

/-! ### The masks of the data sets -/

/-- The rectangle fits into the image, or the rate divides both sides. -/
def Fits (w h : ℕ) : Task → Prop
  | .inpaint s => s ≤ w ∧ s ≤ h
  | .supr s => 0 < s ∧ s ∣ w ∧ s ∣ h

/-- **C70, masks.**  Every mask drawn for a task that fits the image splits its pixels, and the unobserved part has the
shape `x_shape` of the scripts. -/
theorem C70_mask {w h : ℕ} {task : Task} (ht : Fits w h task) {key : Key} {srRandom : Bool} {r : Except String Mask}
    (hr : (genMask w h key srRandom task).Returns r) :
    ∃ mask, r = .ok mask ∧ (mask.unobs ++ mask.obs).Perm (List.range (w * h)) ∧
      mask.unobs.length = unobsSize w h task := by
  obtain ⟨mask, h1, h2, h3⟩ := C44_unobs_shape_partial (by cases task <;> exact ht) hr
  exact ⟨mask, h1, h3, h2⟩

theorem getElem?_product (p q : ℕ) {a b : ℕ} (ha : a < p) (hb : b < q) :
    ((List.range p).product (List.range q))[a * q + b]? = some (a, b) := by
  induction p generalizing a with
  | zero => omega
  | succ p ih =>
    rw [List.range_succ, List.product, List.flatMap_append]
    have hl : (List.flatMap (fun a => List.map (Prod.mk a) (List.range q)) (List.range p)).length = p * q := by
      simp [List.length_flatMap]
    rcases Nat.lt_succ_iff_lt_or_eq.1 ha with h | rfl
    · rw [List.getElem?_append_left]
      · exact ih h
      · rw [hl]
        calc a * q + b < a * q + q := by omega
          _ = (a + 1) * q := by ring
          _ ≤ p * q := Nat.mul_le_mul_right _ h
    · rw [List.getElem?_append_right (by rw [hl]; omega), hl]
      simp [hb]

/-- **C70, the low-resolution image.**  The observed pixels of a super-resolution task, reshaped to the shape of the image
divided by the rate (as the scripts do for display and interpolation), are a low-resolution image: the pixel in row `a` and
column `b` comes from the block in row `a` and column `b`. -/
theorem C70_low_res {p q rate : ℕ} (hr : 0 < rate) {key : Key} {random : Bool} {r : Except String Mask}
    (hm : (suprMask (rate * p) (rate * q) key rate random).Returns r) {a b : ℕ} (ha : a < p) (hb : b < q) :
    ∃ mask k, r = .ok mask ∧ mask.obs[a * q + b]? = some k ∧ k / (rate * q) / rate = a ∧ k % (rate * q) / rate = b := by
  obtain ⟨mask, h1, -, -, -, -, h2⟩ := C44_supr hr hm
  have h3 := congrArg (fun l => l[a * q + b]?) h2
  simp only [List.getElem?_map, getElem?_product p q ha hb, Option.map_eq_some_iff] at h3
  obtain ⟨k, h4, h5⟩ := h3
  exact ⟨mask, k, h1, h4, congrArg Prod.fst h5, congrArg Prod.snd h5⟩

/-! ### The laws -/

section Law

open Spec

/-- The value of a function that can raise, zero if it does. -/
def onOk {α : Type} (F : α → ℝ≥0∞) : Except String α → ℝ≥0∞
  | .ok a => F a
  | .error _ => 0

/-- `transition_sampler` and `likelihood_logpdf` are those of the script. -/
structure ImgFuns (mask : Mask) (drift : (Fin (w * h) × Fin c → ℝ) → ℝ → (Fin (w * h) × Fin c → ℝ)) (disp : ℝ → ℝ) (dt : ℝ)
    (trans : (Fin N → Fin mask.unobs.length × Fin c → ℝ) → (Fin mask.obs.length × Fin c → ℝ) → ℝ → Key →
      Rand (Fin N → Fin mask.unobs.length × Fin c → ℝ))
    (lik : (Fin mask.obs.length × Fin c → ℝ) → (Fin N → Fin mask.unobs.length × Fin c → ℝ) →
      (Fin mask.obs.length × Fin c → ℝ) → ℝ → Fin N → ℝ) : Prop where
  trans : ∀ us v t k F, (trans us v t k).E F = (ImgSamplers.transitionSampler mask drift disp dt us v t k).E (onOk F)
  lik : ∀ v us v' t, ImgSamplers.likelihoodLogpdf mask drift disp dt v us v' t = .ok (lik v us v' t)

theorem E_refSampler {a : ℕ} {V : Type} (k : Key) (v : V) (n : ℕ) (F : (Fin N → Fin a × Fin c → ℝ) → ℝ≥0∞)
    (hF : Measurable F) : (refSampler k v n).E F = ∫⁻ x, F x ∂(Measure.pi fun _ => stdNormal (Fin a × Fin c)) := by
  simp only [refSampler, Rand.E_map, normal, Rand.E_sample]
  have := Toy.lintegral_normal_rows (v := 1) (fun (_ : Fin N) (_ : Fin a × Fin c) => 0) 1 (by norm_num) hF
  simpa [stdNormal_eq, show (fun _ : Fin a × Fin c => (0 : ℝ)) = 0 from rfl] using this

variable {drift : (Fin (w * h) × Fin c → ℝ) → ℝ → (Fin (w * h) × Fin c → ℝ)} (hd : ∀ t, Measurable fun z => drift z t)
  {disp : ℝ → ℝ} {dt : ℝ}

theorem ImgFuns.trans_law {trans : (Fin N → Fin mask.unobs.length × Fin c → ℝ) → (Fin mask.obs.length × Fin c → ℝ) → ℝ →
      Key → Rand (Fin N → Fin mask.unobs.length × Fin c → ℝ)}
    {lik : (Fin mask.obs.length × Fin c → ℝ) → (Fin N → Fin mask.unobs.length × Fin c → ℝ) →
      (Fin mask.obs.length × Fin c → ℝ) → ℝ → Fin N → ℝ}
    (hm : ImgFuns mask drift disp dt trans lik) (hp : (mask.unobs ++ mask.obs).Perm (List.range (w * h))) (hdt : 0 ≤ dt)
    (us : Fin N → Fin mask.unobs.length × Fin c → ℝ) (v : Fin mask.obs.length × Fin c → ℝ) (t : ℝ) (k : Key)
    {F : (Fin N → Fin mask.unobs.length × Fin c → ℝ) → ℝ≥0∞} (hF : Measurable F) :
    (trans us v t k).E F = ∫⁻ x, F x ∂(Measure.pi fun j => gaussProd
      (fun i => us j i + Toy.driftU (maskEquiv c hp) drift (us j) v t i * dt) (dt * disp t ^ 2).toNNReal) := by
  rw [hm.trans, (C70_functions hp drift disp dt (us := us) (u := 0) v v t k).2.2.1, Rand.E_map]
  exact E_transitionSampler (maskEquiv c hp) disp dt hdt us v t k hF

include hd in
/-- **C70, the filter.**  For every mask which splits the pixels, the bootstrap filter with the functions of the image
experiments, weighted by its likelihood estimate and integrated over the paths of the observed pixels, estimates without
bias the law of the Euler–Maruyama path of the whole image with the given drift, started at the last observation and
standard normal unobserved pixels. -/
theorem C70_filter [NeZero N] (hp : (mask.unobs ++ mask.obs).Perm (List.range (w * h))) (hdt : 0 < dt) (ts : Arr1 ℝ)
    (hts : UniformGrid dt disp ts.1 ts.2) (v0 : Fin mask.obs.length × Fin c → ℝ)
    {m : Smc.Funs N (Fin mask.unobs.length × Fin c → ℝ) (Fin mask.obs.length × Fin c → ℝ)}
    (hm : ImgFuns mask drift disp dt m.transSampler m.lik) (hi : m.initSampler = refSampler)
    {res : Smc.Resampling N} (hres : UnbiasedSums res) (key key' : Key) (log rl : Bool)
    {φ : (Fin mask.unobs.length × Fin c → ℝ) → List (Fin mask.obs.length × Fin c → ℝ) → ℝ≥0∞}
    (hφ : Measurable fun q : (Fin mask.unobs.length × Fin c → ℝ) × (Fin ts.2.length → Fin mask.obs.length × Fin c → ℝ) =>
      φ q.1 (List.ofFn q.2)) :
    ∫⁻ ys, (Smc.bootstrapFilter m res (v0, List.ofFn ys) ts key log rl).E
        (fun out => ENNReal.ofReal (Real.exp (-out.nell)) * ((N : ℝ≥0∞)⁻¹ * ∑ i, φ (out.final i) (List.ofFn ys)))
        ∂(Measure.pi fun _ : Fin ts.2.length => (volume : Measure (Fin mask.obs.length × Fin c → ℝ))) =
      ∫⁻ u0, onOk (fun img => (Simulators.eulerPath key' img ts drift disp 1).E
        (fun p => φ (unpackMask mask p.last).1 (p.2.map fun q => (unpackMask mask q).2))) (concatMask w h mask u0 v0)
        ∂(stdNormal (Fin mask.unobs.length × Fin c)) := by
  have hm' : SmcImplements m (toyModel (maskEquiv c hp) hd disp dt 0 (stdNormal _)) v0 :=
    ⟨fun k n F hF => by rw [hi]; exact E_refSampler k v0 n F hF,
      fun xs v t k F hF => hm.trans_law hp hdt.le xs v t k hF, fun v xs v' t i => by
        have h1 := hm.lik v xs v' t
        rw [(C70_functions hp drift disp dt (us := xs) (u := 0) v v' t []).2.2.2.2] at h1
        exact (congrFun (Except.ok.inj h1) i).symm⟩
  rw [filter_of_implements (maskEquiv c hp) hd (stdNormal _) hdt ts hts v0 hm' hres key key' log rl hφ]
  refine lintegral_congr fun u0 => ?_
  rw [concatMask_eq hp]
  simp only [onOk, unpackMask_eq hp]

include hd in
/-- **C70, conditional SMC.**  The conditional SMC sweep with the functions of the image experiments keeps the law of the
Euler–Maruyama path of the whole image. -/
theorem C70_csmc [NeZero N] (hp : (mask.unobs ++ mask.obs).Perm (List.range (w * h))) (hdt : 0 < dt) (ts : Arr1 ℝ)
    (hts : UniformGrid dt disp ts.1 ts.2) (v0 : Fin mask.obs.length × Fin c → ℝ)
    {m : Csmc.Funs N (Fin mask.unobs.length × Fin c → ℝ) (Fin mask.obs.length × Fin c → ℝ)}
    (hm : ImgFuns mask drift disp dt m.transSampler m.lik) {ref : Measure (Fin mask.unobs.length × Fin c → ℝ)}
    [IsProbabilityMeasure ref]
    (hinit : ∀ k n (F : (Fin N → Fin mask.unobs.length × Fin c → ℝ) → ℝ≥0∞), Measurable F →
      (m.initSampler k n).E F = ∫⁻ x, F x ∂(Measure.pi fun _ => ref))
    {logw : ℝ} (hl : ∀ v xs v' i, m.initLik v xs v' i = logw)
    {res : Csmc.CondResampling N} (sch : ExactScheme res) (n : ℕ) (key key' : Key)
    {φ : List (Fin mask.unobs.length × Fin c → ℝ) → List (Fin mask.obs.length × Fin c → ℝ) → ℝ≥0∞}
    (hφ : Measurable fun q : (Fin (ts.2.length + 1) → Fin mask.unobs.length × Fin c → ℝ) ×
      (Fin ts.2.length → Fin mask.obs.length × Fin c → ℝ) => φ (List.ofFn q.1) (List.ofFn q.2)) :
    ∫⁻ ys, (toyModel (maskEquiv c hp) hd disp dt logw ref).target N (v0, List.ofFn ys) ts (fun p =>
        (Csmc.kernel m res n false key (p.map Prod.fst) (p.map Prod.snd) (v0, List.ofFn ys) ts).E
          (fun out => φ out.1 (List.ofFn ys)))
        ∂(Measure.pi fun _ : Fin ts.2.length => (volume : Measure (Fin mask.obs.length × Fin c → ℝ))) =
      ENNReal.ofReal (Real.exp logw) * ∫⁻ u0, onOk (fun img => (Simulators.eulerPath key' img ts drift disp 1).E
        (fun p => φ (p.toList.map fun q => (unpackMask mask q).1) (p.2.map fun q => (unpackMask mask q).2)))
        (concatMask w h mask u0 v0) ∂ref := by
  have hm' : Implements m (toyModel (maskEquiv c hp) hd disp dt logw ref) :=
    ⟨hinit, fun xs v t k F hF => hm.trans_law hp hdt.le xs v t k hF, fun v xs v' t i => by
        have h1 := hm.lik v xs v' t
        rw [(C70_functions hp drift disp dt (us := xs) (u := 0) v v' t []).2.2.2.2] at h1
        exact (congrFun (Except.ok.inj h1) i).symm, fun v xs v' i => hl v xs v' i⟩
  rw [csmc_of_implements (maskEquiv c hp) hd logw ref hdt ts hts v0 hm' sch n key key' hφ]
  congr 1
  refine lintegral_congr fun u0 => ?_
  rw [concatMask_eq hp]
  simp only [onOk, unpackMask_eq hp]

end Law

/-! ### The drift of the scripts -/

theorem measurable_imgDrift {Z : Type} (sde : Linear.SDE) (T : ℝ) {score : (Z → ℝ) → ℝ → (Z → ℝ)}
    (hs : ∀ t, Measurable fun z => score z t) (t : ℝ) : Measurable fun z => reverseDrift sde T score z t := by
  refine measurable_pi_iff.2 fun i => ?_
  have h1 : Measurable fun z : Z → ℝ => Linear.drift sde (z i) (T - t) := by
    have h2 := measurable_pi_apply (X := fun _ : Z => ℝ) i
    cases sde <;> exact h2.const_mul _
  exact h1.neg.add (((measurable_pi_apply i).comp (hs _)).const_mul _)

/-! ### The hypotheses can be met -/

/-- A mask of an image with three by two pixels. -/
def smallMask : Mask := ⟨[0, 1, 3], [5, 2, 4]⟩

theorem smallMask_splits : (smallMask.unobs ++ smallMask.obs).Perm (List.range (3 * 2)) := by decide

/-- The forward process of the scripts with `--sde const`. -/
noncomputable def smallDrift : (Fin (3 * 2) × Fin 3 → ℝ) → ℝ → (Fin (3 * 2) × Fin 3 → ℝ) :=
  reverseDrift (.const (-0.5) 1) 2 fun z _ i => -z i

/-- Functions without exceptions which are those of the script. -/
noncomputable def smallFuns : Smc.Funs 4 (Fin smallMask.unobs.length × Fin 3 → ℝ) (Fin smallMask.obs.length × Fin 3 → ℝ) :=
  ⟨refSampler, Toy.transitionSampler (maskEquiv 3 smallMask_splits) smallDrift (fun _ => 1) 1,
    Toy.likelihoodLogpdf (maskEquiv 3 smallMask_splits) smallDrift (fun _ => 1) 1⟩

theorem smallFuns_ok : ImgFuns smallMask smallDrift (fun _ => 1) 1 smallFuns.transSampler smallFuns.lik where
  trans us v t k F := by
    rw [(C70_functions smallMask_splits smallDrift (fun _ => 1) 1 (us := us) (u := 0) v v t k).2.2.1, Rand.E_map]
    rfl
  lik v us v' t := (C70_functions smallMask_splits smallDrift (fun _ => 1) 1 (us := us) (u := 0) v v' t []).2.2.2.2

/-- Two steps of length one on `[0, 2]`; the second moment of an unobserved pixel. -/
example (key : Key) (v0 : Fin smallMask.obs.length × Fin 3 → ℝ) :
    ∫⁻ ys, (Smc.bootstrapFilter smallFuns Resampling.stratified (v0, List.ofFn ys) (0, [1, 2]) key true true).E
        (fun out => ENNReal.ofReal (Real.exp (-out.nell)) *
          (((4 : ℕ) : ℝ≥0∞)⁻¹ * ∑ i, ENNReal.ofReal (out.final i ((0 : Fin 3), (1 : Fin 3)) ^ 2)))
        ∂(Measure.pi fun _ : Fin 2 => (volume : Measure (Fin smallMask.obs.length × Fin 3 → ℝ))) =
      ∫⁻ u0, onOk (fun img => (Simulators.eulerPath key img (0, [1, 2]) smallDrift (fun _ => 1) 1).E
        (fun p => ENNReal.ofReal ((unpackMask (w := 3) (h := 2) smallMask p.last).1 ((0 : Fin 3), (1 : Fin 3)) ^ 2)))
          (concatMask 3 2 smallMask u0 v0) ∂(stdNormal (Fin smallMask.unobs.length × Fin 3)) :=
  C70_filter (fun t => measurable_imgDrift _ _ (fun _ => by fun_prop) t) smallMask_splits one_pos (0, [1, 2])
    ⟨by norm_num, one_ne_zero, by norm_num, one_ne_zero, trivial⟩ v0 smallFuns_ok rfl sums_stratified key key true true
    (φ := fun u _ => ENNReal.ofReal (u ((0 : Fin 3), (1 : Fin 3)) ^ 2)) (by
      have : Measurable fun q : (Fin smallMask.unobs.length × Fin 3 → ℝ) ×
        (Fin 2 → Fin smallMask.obs.length × Fin 3 → ℝ) => q.1 ((0 : Fin 3), (1 : Fin 3)) ^ 2 := by fun_prop
      exact this.ennreal_ofReal)

/-- Conditional SMC from standard normal particles with weight one. -/
noncomputable def smallCsmc : Csmc.Funs 4 (Fin smallMask.unobs.length × Fin 3 → ℝ) (Fin smallMask.obs.length × Fin 3 → ℝ) :=
  ⟨fun k n => refSampler k () n, fun _ _ _ _ => 0, smallFuns.transSampler,
    Toy.transitionLogpdf (maskEquiv 3 smallMask_splits) smallDrift (fun _ => 1) 1, smallFuns.lik⟩

example (key : Key) (v0 : Fin smallMask.obs.length × Fin 3 → ℝ) :=
  C70_csmc (m := smallCsmc) (fun t => measurable_imgDrift _ _ (fun _ => by fun_prop) t) smallMask_splits one_pos (0, [1, 2])
    ⟨by norm_num, one_ne_zero, by norm_num, one_ne_zero, trivial⟩ v0 smallFuns_ok
    (ref := stdNormal (Fin smallMask.unobs.length × Fin 3)) (fun k n F hF => E_refSampler k () n F hF) (fun _ _ _ _ => rfl)
    killingScheme 4 key key (φ := fun _ _ => 1) measurable_const

/-- MNIST with a rectangle of fifteen by fifteen pixels, and super-resolution by a factor of four. -/
example : Fits 28 28 (.inpaint 15) ∧ Fits 28 28 (.supr 4) ∧ Fits 128 128 (.supr 4) := by
  refine ⟨⟨by norm_num, by norm_num⟩, ⟨by norm_num, by norm_num, by norm_num⟩, ⟨by norm_num, by norm_num, by norm_num⟩⟩

example {key : Key} {r : Except String Mask} (hm : (suprMask (4 * 7) (4 * 7) key 4 true).Returns r) :
    ∃ mask k, r = .ok mask ∧ mask.obs[3 * 7 + 5]? = some k ∧ k / 28 / 4 = 3 ∧ k % 28 / 4 = 5 :=
  C70_low_res (by norm_num) hm (by norm_num) (by norm_num)

end Props
end Fbs
