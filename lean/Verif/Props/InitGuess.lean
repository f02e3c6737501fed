import Verif.Model.SbImgs
import Verif.Lemmas.Pmcmc
import Verif.Props.Ergodic
import Verif.Props.PmcmcLaw
import Verif.Props.PosteriorStability
import Verif.Props.ImgSamplers

/-!
# C89: the effect of the initial guess

`gibbs_init` takes a guess `x0` of the unobserved part.  It is used only to draw the noised observations.
-/

open MeasureTheory ProbabilityTheory InformationTheory
open scoped ENNReal

namespace Fbs
namespace Rand

variable {α β : Type}

theorem map_injective {f : α → β} (hf : Function.Injective f) : ∀ {p q : Rand α}, f <$> p = f <$> q → p = q
  | ret a, ret b, h => by
    have h' : (ret (f a) : Rand β) = ret (f b) := h
    rw [hf (Rand.ret.inj h')]
  | ret a, draw k γ S μ c, h => by
    have h' : (ret (f a) : Rand β) = draw k γ S μ fun b => f <$> c b := h
    exact nomatch h'
  | draw k γ S μ c, ret a, h => by
    have h' : (draw k γ S μ fun b => f <$> c b) = (ret (f a) : Rand β) := h
    exact nomatch h'
  | @draw _ k γ i S μ c, @draw _ k' γ' i' S' μ' c', h => by
    have h' : (draw k γ S μ fun b => f <$> c b) = (draw k' γ' S' μ' fun b => f <$> c' b : Rand β) := h
    injection h' with h1 h2 h3 h4 h5 h6
    subst h1 h2
    obtain rfl := eq_of_heq h3
    obtain rfl := eq_of_heq h4
    obtain rfl := eq_of_heq h5
    have h7 := eq_of_heq h6
    congr 1
    exact funext fun b => map_injective hf (congrFun h7 b)

end Rand

namespace Props

open Jax Spec Gibbs Simulators Smc SbImgs Girsanov

/-! ### The guess enters through the noised observations only -/

section Separable

variable {N : ℕ} {U V Z : Type}

/-- **C89, only the observations.**  Two guesses from which the forward sampler draws the noised observations alike give the
same run of `gibbs_init`: the same draws, keys and results, for every method and with or without `marg_y`. -/
theorem C89_only_observations [NeZero N] (m : Gibbs.Funs N U V Z) (method : String) (margY : Bool) (key : Key) (y0 : V)
    {x x' : U} (ts : Arr1 ℝ)
    (hy : (fun p => (m.unpack p).2) <$> m.fwd (split key 6 0) x y0 =
      (fun p => (m.unpack p).2) <$> m.fwd (split key 6 0) x' y0) :
    gibbsInit m method margY key y0 x ts = gibbsInit m method margY key y0 x' ts := by
  have h : ∀ x, gibbsInit m method margY key y0 x ts =
      (((fun p => (m.unpack p).2) <$> m.fwd (split key 6 0) x y0) >>= fun pathY => do
        let vs ← if margY then Arr1.reverse <$> m.bridge (split key 6 1) pathY.1 pathY.last ts
          else pure pathY.reverse
        gibbsInitRest m method key y0 ts vs) := by
    intro x
    rw [bind_map_left]
    rfl
  rw [h x, h x', hy]

variable {ι : Type} [Fintype ι]

/-- Entries in `s` move on their own. -/
def Separable (s : Set ι) (drift : (ι → ℝ) → ℝ → (ι → ℝ)) : Prop :=
  ∀ t x x', (∀ i ∈ s, x i = x' i) → ∀ i ∈ s, drift x t i = drift x' t i

omit [Fintype ι] in
theorem emStep_separable {s : Set ι} {drift : (ι → ℝ) → ℝ → (ι → ℝ)} (hd : Separable s drift) (disp : ℝ → ℝ) (ddt : ℝ) :
    ∀ (l : List ((ι → ℝ) × ℝ)) (x x' : ι → ℝ), (∀ i ∈ s, x i = x' i) → ∀ i ∈ s,
      (Jax.scan (emInner drift disp ddt) x l).1 i = (Jax.scan (emInner drift disp ddt) x' l).1 i
  | [], _, _, h => h
  | e :: l, x, x', h => by
    refine emStep_separable hd disp ddt l _ _ fun i hi => ?_
    simp only [emInner]
    rw [h i hi, hd e.2 x x' h i hi]

theorem scan_separable {s : Set ι} {drift : (ι → ℝ) → ℝ → (ι → ℝ)} (hd : Separable s drift) (disp : ℝ → ℝ) (n : ℕ)
    {κ : Type} {r : (ι → ℝ) → κ} (hr : ∀ x x', (∀ i ∈ s, x i = x' i) → r x = r x') :
    ∀ (l : List (Key × ℝ × ℝ)) (x x' : ι → ℝ), (∀ i ∈ s, x i = x' i) →
      (fun q => q.2.map r) <$> Rand.scan (emBody drift disp n id) x l =
        (fun q => q.2.map r) <$> Rand.scan (emBody drift disp n id) x' l
  | [], _, _, _ => rfl
  | (k, t, t') :: l, x, x', h => by
    simp only [Rand.scan, emBody, id, map_bind, bind_assoc, pure_bind, map_pure, List.map_cons]
    refine congrArg _ (funext fun rnds => ?_)
    have hx : ∀ i ∈ s, emStep drift disp n x t t' rnds i = emStep drift disp n x' t t' rnds i :=
      emStep_separable hd disp (|t' - t| / n) (rnds.zip (substepTimes n t t')) x x' h
    have ih := scan_separable hd disp n hr l _ _ hx
    have h1 : ∀ z : ι → ℝ, (Rand.scan (emBody drift disp n id) z l >>= fun rs =>
        (pure (r z :: rs.2.map r) : Rand (List κ))) =
        (fun q => r z :: q) <$> ((fun q => q.2.map r) <$> Rand.scan (emBody drift disp n id) z l) := by
      intro z
      rw [← comp_map, map_eq_bind_pure_comp]
      rfl
    refine (h1 _).trans (Eq.trans ?_ (h1 _).symm)
    rw [hr _ _ hx]
    exact congrArg _ ih

/-- **C89, separable simulation.**  If some entries move on their own, `euler_maruyama` draws their path alike from two starts
which agree on them. -/
theorem C89_euler {s : Set ι} {drift : (ι → ℝ) → ℝ → (ι → ℝ)} (hd : Separable s drift) (disp : ℝ → ℝ) (n : ℕ)
    {κ : Type} {r : (ι → ℝ) → κ} (hr : ∀ x x', (∀ i ∈ s, x i = x' i) → r x = r x') (key : Key) (ts : Arr1 ℝ)
    {x x' : ι → ℝ} (h : ∀ i ∈ s, x i = x' i) :
    Arr1.map r <$> eulerPath key x ts drift disp n = Arr1.map r <$> eulerPath key x' ts drift disp n := by
  have h1 : ∀ z : ι → ℝ, Arr1.map r <$> eulerPath key z ts drift disp n =
      (fun q => (r z, q)) <$> ((fun q => q.2.map r) <$> Rand.scan (emBody drift disp n id) z (emInputs key ts)) := by
    intro z
    rw [← comp_map]
    simp only [eulerPath, map_bind, map_pure]
    rw [map_eq_bind_pure_comp]
    rfl
  rw [h1 x, h1 x', hr x x' h, scan_separable hd disp n hr _ x x' h]

/-- **C89, the noising of `euler_maruyama`.**  If the forward sampler is `euler_maruyama` from `concat(x0, y0)` with a drift
under which the observed entries move on their own, the guess has no effect on `gibbs_init`. -/
theorem C89_separable_euler [NeZero N] {ι κ ζ : Type} [Fintype ζ] (e : ι ⊕ κ ≃ ζ) {drift : (ζ → ℝ) → ℝ → (ζ → ℝ)}
    (hd : Separable (Set.range fun i => e (Sum.inr i)) drift) (disp : ℝ → ℝ) (n : ℕ)
    {m : Gibbs.Funs N (ι → ℝ) (κ → ℝ) (ζ → ℝ)} {y0 : κ → ℝ} {ts : Arr1 ℝ}
    (hf : ∀ k x, m.fwd k x y0 = eulerPath k (Toy.concat e x y0) ts drift disp n)
    (hu : ∀ p, (m.unpack p).2 = p.map (Toy.unpackV e)) (method : String) (margY : Bool) (key : Key) (x x' : ι → ℝ) :
    gibbsInit m method margY key y0 x ts = gibbsInit m method margY key y0 x' ts := by
  refine C89_only_observations m method margY key y0 ts ?_
  have hr : ∀ z z' : ζ → ℝ, (∀ i ∈ Set.range fun i => e (Sum.inr i), z i = z' i) → Toy.unpackV e z = Toy.unpackV e z' :=
    fun z z' h => funext fun i => h _ ⟨i, rfl⟩
  simp only [hf, hu]
  refine C89_euler hd disp n hr _ ts ?_
  rintro _ ⟨i, rfl⟩
  simp [Toy.concat]

theorem scan_fwd_separable (sde : Linear.SDE) {ζ κ : Type} {s : Set ζ} {r : (ζ → ℝ) → κ}
    (hr : ∀ x x', (∀ i ∈ s, x i = x' i) → r x = r x') : ∀ (l : List (ℝ × ℝ × (ζ → ℝ))) (x x' : ζ → ℝ),
    (∀ i ∈ s, x i = x' i) → (Jax.scan (Linear.fwdBody sde) x l).2.map r = (Jax.scan (Linear.fwdBody sde) x' l).2.map r
  | [], _, _, _ => rfl
  | e :: l, x, x', h => by
    have h1 : ∀ i ∈ s, (Linear.fwdBody sde x e).1 i = (Linear.fwdBody sde x' e).1 i := fun i hi => by
      simp only [Linear.fwdBody]
      rw [h i hi]
    have ih := scan_fwd_separable sde hr l _ _ h1
    have h2 : r (Linear.fwdBody sde x e).2 = r (Linear.fwdBody sde x' e).2 := hr _ _ h1
    simp only [Jax.scan, List.map_cons]
    rw [h2, ih]

/-- **C89, the noising of the linear SDEs.**  If the forward sampler is `simulate_cond_forward` from `concat(x0, y0)`, as in the
experiments with a score, the guess has no effect on `gibbs_init`. -/
theorem C89_separable_linear [NeZero N] {ι κ ζ : Type} [Fintype ζ] (e : ι ⊕ κ ≃ ζ) (sde : Linear.SDE)
    {m : Gibbs.Funs N (ι → ℝ) (κ → ℝ) (ζ → ℝ)} {y0 : κ → ℝ} {ts : Arr1 ℝ}
    (hf : ∀ k x, Arr1.toList <$> m.fwd k x y0 = Linear.simulatePath sde k (Toy.concat e x y0) ts)
    (hu : ∀ p, (m.unpack p).2 = p.map (Toy.unpackV e)) (method : String) (margY : Bool) (key : Key) (x x' : ι → ℝ) :
    gibbsInit m method margY key y0 x ts = gibbsInit m method margY key y0 x' ts := by
  refine C89_only_observations m method margY key y0 ts ?_
  have hr : ∀ z z' : ζ → ℝ, (∀ i ∈ Set.range fun i => e (Sum.inr i), z i = z' i) → Toy.unpackV e z = Toy.unpackV e z' :=
    fun z z' h => funext fun i => h _ ⟨i, rfl⟩
  have hc : ∀ i ∈ Set.range fun i => e (Sum.inr i), Toy.concat e x y0 i = Toy.concat e x' y0 i := by
    rintro _ ⟨i, rfl⟩
    simp [Toy.concat]
  have hinj : Function.Injective (Arr1.toList : Arr1 (κ → ℝ) → List (κ → ℝ)) := fun a b hab => by
    simp only [Arr1.toList, List.cons.injEq] at hab
    exact Prod.ext hab.1 hab.2
  refine Rand.map_injective hinj ?_
  simp only [hu]
  have h1 : ∀ z : ι → ℝ, Arr1.toList <$> ((fun p => Arr1.map (Toy.unpackV e) p) <$> m.fwd (split key 6 0) z y0) =
      (fun l => l.map (Toy.unpackV e)) <$> Linear.simulatePath sde (split key 6 0) (Toy.concat e z y0) ts := by
    intro z
    rw [← hf, ← comp_map, ← comp_map]
    rfl
  rw [h1, h1]
  simp only [Linear.simulatePath, map_bind, map_pure, List.map_cons]
  refine congrArg _ (funext fun rnds => ?_)
  rw [hr _ _ hc, scan_fwd_separable sde hr _ _ _ hc]

/-- **C89, the forward sampler of the image experiment.**  If the observed pixels move on their own under the network,
`fwd_sampler` draws the observed part of the path alike from all guesses. -/
theorem C89_images {w h c : ℕ} {mask : Restore.Mask} (hp : (mask.unobs ++ mask.obs).Perm (List.range (w * h)))
    {drift : (Fin (w * h) × Fin c → ℝ) → ℝ → (Fin (w * h) × Fin c → ℝ)}
    (hd : ∀ t z z', (ImgSamplers.unpackMask mask z).2 = (ImgSamplers.unpackMask mask z').2 →
      (ImgSamplers.unpackMask mask (drift z t)).2 = (ImgSamplers.unpackMask mask (drift z' t)).2)
    (disp : ℝ → ℝ) (ts : Arr1 ℝ) (key : Key) (x x' : Fin mask.unobs.length × Fin c → ℝ)
    (y0 : Fin mask.obs.length × Fin c → ℝ) :
    (Except.map (Arr1.map fun z => (ImgSamplers.unpackMask mask z).2)) <$> SbImgs.fwdSampler mask drift disp ts key x y0 =
      (Except.map (Arr1.map fun z => (ImgSamplers.unpackMask mask z).2)) <$>
        SbImgs.fwdSampler mask drift disp ts key x' y0 := by
  have hr : ∀ z z' : Fin (w * h) × Fin c → ℝ, (∀ i ∈ Set.range fun i => maskEquiv c hp (Sum.inr i), z i = z' i) →
      (ImgSamplers.unpackMask mask z).2 = (ImgSamplers.unpackMask mask z').2 := by
    intro z z' hz
    rw [unpackMask_eq hp, unpackMask_eq hp]
    exact funext fun i => hz _ ⟨i, rfl⟩
  have hs : Separable (Set.range fun i => maskEquiv c hp (Sum.inr i)) drift := by
    intro t z z' hz
    have h1 := hd t z z' (hr z z' hz)
    rw [unpackMask_eq hp, unpackMask_eq hp] at h1
    rintro _ ⟨i, rfl⟩
    exact congrFun h1 i
  have hc : ∀ i ∈ Set.range fun i => maskEquiv c hp (Sum.inr i),
      Toy.concat (maskEquiv c hp) x y0 i = Toy.concat (maskEquiv c hp) x' y0 i := by
    rintro _ ⟨i, rfl⟩
    simp [Toy.concat]
  have h1 : ∀ z, (Except.map (Arr1.map fun z => (ImgSamplers.unpackMask mask z).2)) <$>
      SbImgs.fwdSampler mask drift disp ts key z y0 = Except.ok <$> ((Arr1.map fun z => (ImgSamplers.unpackMask mask z).2) <$>
        eulerPath key (Toy.concat (maskEquiv c hp) z y0) ts drift disp 1) := by
    intro z
    rw [SbImgs.fwdSampler, concatMask_eq hp, ← comp_map, ← comp_map]
    rfl
  rw [h1, h1, C89_euler hs disp 1 hr key ts hc]

end Separable

/-! ### How far the guess moves the start of the chain -/

section Shift

variable {ζ : Type}

theorem emStep_shift (b : (ζ → ℝ) → ℝ → (ζ → ℝ)) (disp : ℝ → ℝ) (ddt : ℝ) (s : ζ → ℝ) :
    ∀ (l : List ((ζ → ℝ) × ℝ)) (x : ζ → ℝ), (Jax.scan (emInner b disp ddt) (x + s) l).1 =
      (Jax.scan (emInner (fun z t => b (z + s) t) disp ddt) x l).1 + s
  | [], _ => rfl
  | e :: l, x => by
    have h : (emInner b disp ddt (x + s) e).1 = (emInner (fun z t => b (z + s) t) disp ddt x e).1 + s := by
      funext i
      simp only [emInner, Pi.add_apply]
      ring
    simp only [Jax.scan]
    rw [h]
    exact emStep_shift b disp ddt s l _

variable [Fintype ζ]

theorem scan_shift (b : (ζ → ℝ) → ℝ → (ζ → ℝ)) (disp : ℝ → ℝ) (n : ℕ) (s : ζ → ℝ) :
    ∀ (l : List (Key × ℝ × ℝ)) (x : ζ → ℝ), Prod.snd <$> Rand.scan (emBody b disp n id) (x + s) l =
      (fun q => q.2.map (· + s)) <$> Rand.scan (emBody (fun z t => b (z + s) t) disp n id) x l
  | [], _ => rfl
  | (k, t, t') :: l, x => by
    simp only [Rand.scan, emBody, id, map_bind, bind_assoc, pure_bind, map_pure, List.map_cons]
    refine congrArg _ (funext fun rnds => ?_)
    have hx : emStep b disp n (x + s) t t' rnds = emStep (fun z t => b (z + s) t) disp n x t t' rnds + s :=
      emStep_shift b disp _ s _ x
    rw [hx]
    set y := emStep (fun z t => b (z + s) t) disp n x t t' rnds with hy
    have ih := congrArg (fun p => (fun q => (y + s) :: q) <$> p) (scan_shift b disp n s l y)
    simp only [← comp_map] at ih
    simp only [map_eq_bind_pure_comp] at ih
    exact ih

/-- A start moved by `s` is a drift moved by `s`. -/
theorem eulerPath_shift (b : (ζ → ℝ) → ℝ → (ζ → ℝ)) (disp : ℝ → ℝ) (n : ℕ) (s : ζ → ℝ) (key : Key) (x : ζ → ℝ)
    (ts : Arr1 ℝ) : eulerPath key (x + s) ts b disp n =
      Arr1.map (· + s) <$> eulerPath key x ts (fun z t => b (z + s) t) disp n := by
  have h := congrArg (fun p => (fun q => ((x + s, q) : Arr1 (ζ → ℝ))) <$> p) (scan_shift b disp n s (emInputs key ts) x)
  simp only [← comp_map] at h
  simp only [map_eq_bind_pure_comp] at h
  simp only [eulerPath, map_bind, map_pure]
  exact h

/-- `∑ₖ |tₖ₊₁ - tₖ| / g(tₖ)²`. -/
noncomputable def invMass (disp : ℝ → ℝ) : ℝ → List ℝ → ℝ
  | t, t' :: ts => |t' - t| / disp t ^ 2 + invMass disp t' ts
  | _, [] => 0

theorem invMass_nonneg (disp : ℝ → ℝ) : ∀ (ts : List ℝ) (t : ℝ), 0 ≤ invMass disp t ts
  | [], _ => le_rfl
  | t' :: ts, t => add_nonneg (by positivity) (invMass_nonneg disp ts t')

theorem driftCost_le {b b' : (ζ → ℝ) → ℝ → (ζ → ℝ)} {disp : ℝ → ℝ} {ε : ℝ} : ∀ (ts : List ℝ) (t : ℝ) (p : List (ζ → ℝ)),
    (∀ t' ∈ Arr1.init (t, ts), ∀ z, ∑ i, (b z t' i - b' z t' i) ^ 2 ≤ ε ^ 2) →
    driftCost b b' disp t ts p ≤ ε ^ 2 / 2 * invMass disp t ts
  | [], t, p, _ => by simp [driftCost, invMass]
  | t' :: ts, t, [], _ => by
    simp only [driftCost]
    exact mul_nonneg (by positivity) (invMass_nonneg disp _ t)
  | t' :: ts, t, x :: p, h => by
    have hi : Arr1.init (t, t' :: ts) = t :: Arr1.init (t', ts) := by
      simp [Arr1.init]
    rw [hi] at h
    have ih := driftCost_le (disp := disp) ts t' p fun t'' h'' => h t'' (by simp [h''])
    have h0 := h t (by simp) x
    rw [driftCost, invMass, mul_add]
    refine add_le_add ?_ ih
    have h1 : 0 ≤ |t' - t| / (2 * disp t ^ 2) := by positivity
    refine (mul_le_mul_of_nonneg_left h0 h1).trans (le_of_eq ?_)
    rw [div_mul_eq_mul_div, div_mul_div_comm]
    ring

variable {ι κ : Type} (e : ι ⊕ κ ≃ ζ)

/-- **C89, how far the guess moves the noised observations.**  Let the forward sampler be `euler_maruyama` (one step per
interval), with a dispersion which does not vanish, and let moving `u` from `x` to `x'` move the drift by at most `ε`.  Then
the probabilities of every event of the path of the observed entries (more generally the means of functions of it with values
in `[0, 1]`) from the guesses `x` and `x'` differ by at most `ε / 2 · √(∑ₖ (tₖ₊₁ - tₖ) / g(tₖ)²)`. -/
theorem C89_path_bound {b : (ζ → ℝ) → ℝ → (ζ → ℝ)} (hb : ∀ t, Measurable fun z => b z t) {disp : ℝ → ℝ} {ts : Arr1 ℝ}
    (hg : ∀ t ∈ ts.init, disp t ≠ 0) (hne : ∀ i ∈ ts.init.zip ts.2, i.1 ≠ i.2) {x x' : ι → ℝ} {ε : ℝ} (hε : 0 ≤ ε)
    (hL : ∀ t ∈ ts.init, ∀ u v,
      ∑ i, (b (Toy.concat e u v) t i - b (Toy.concat e (u + (x' - x)) v) t i) ^ 2 ≤ ε ^ 2)
    (y0 : κ → ℝ) (key key' : Key) {F : List (κ → ℝ) → ℝ≥0∞} (hF : MeasList (ts.2.length + 1) F) (h1 : ∀ l, F l ≤ 1) :
    |((eulerPath key (Toy.concat e x y0) ts b disp 1).E fun p => F (p.toList.map (Toy.unpackV e))).toReal -
      ((eulerPath key' (Toy.concat e x' y0) ts b disp 1).E fun p => F (p.toList.map (Toy.unpackV e))).toReal| ≤
      ε / 2 * Real.sqrt (invMass disp ts.1 ts.2) := by
  set s : ζ → ℝ := Toy.concat e (x' - x) 0 with hs
  have hadd : ∀ u v, Toy.concat e u v + s = Toy.concat e (u + (x' - x)) v := by
    intro u v
    funext z
    obtain ⟨q, rfl⟩ := e.surjective z
    rcases q with i | i <;> simp [hs, Toy.concat]
  have hcat : ∀ z : ζ → ℝ, Toy.concat e (Toy.unpackU e z) (Toy.unpackV e z) = z := by
    intro z
    funext i
    obtain ⟨q, rfl⟩ := e.surjective i
    rcases q with i | i <;> simp [Toy.concat, Toy.unpackU, Toy.unpackV]
  have hv : ∀ z : ζ → ℝ, Toy.unpackV e (z + s) = Toy.unpackV e z := by
    intro z
    funext i
    simp [Toy.unpackV, hs, Toy.concat]
  set b' : (ζ → ℝ) → ℝ → (ζ → ℝ) := fun z t => b (z + s) t with hb'
  have hbm : ∀ t, Measurable fun z => b' z t := fun t => (hb t).comp (measurable_id.add_const s)
  have hcost : ∀ p, driftCost b b' disp ts.1 ts.2 p ≤ ε ^ 2 / 2 * invMass disp ts.1 ts.2 := fun p =>
    driftCost_le ts.2 ts.1 p fun t ht z => by
      have := hL t ht (Toy.unpackU e z) (Toy.unpackV e z)
      rw [← hadd, hcat] at this
      exact this
  have hx' : Toy.concat e x' y0 = Toy.concat e x y0 + s := by rw [hadd, add_sub_cancel]
  have hE' : (eulerPath key' (Toy.concat e x' y0) ts b disp 1).E (fun p => F (p.toList.map (Toy.unpackV e))) =
      (eulerPath key' (Toy.concat e x y0) ts b' disp 1).E (fun p => F (p.toList.map (Toy.unpackV e))) := by
    rw [hx', eulerPath_shift, Rand.E_map]
    refine Rand.E_congr _ fun p => ?_
    simp [Arr1.map, Arr1.toList, hv, Function.comp_def]
  set B := klDiv (Measure.dirac (Toy.concat e x y0)) (Measure.dirac (Toy.concat e x y0)) +
    ∫⁻ z, (eulerPath key z ts b disp 1).E (fun p => ENNReal.ofReal (driftCost b b' disp ts.1 ts.2 p.toList))
      ∂(Measure.dirac (Toy.concat e x y0)) with hB
  have hBle : B ≤ ENNReal.ofReal (ε ^ 2 / 2 * invMass disp ts.1 ts.2) := by
    rw [hB, klDiv_self, zero_add, lintegral_dirac]
    refine (Rand.E_mono _ fun p : Arr1 (ζ → ℝ) => ENNReal.ofReal_le_ofReal (hcost p.toList)).trans ?_
    have h2 := lintegral_eulerPath disp hb (Measure.dirac (Toy.concat e x y0)) key ts
      (φ := fun _ => ENNReal.ofReal (ε ^ 2 / 2 * invMass disp ts.1 ts.2)) (by unfold MeasList; exact measurable_const)
    have := isProb_pathLaw (Measure.dirac (Toy.concat e x y0)) (emMeanAt b (gridAt ts)) (measurable_emMeanAt _ hb)
      (emVarAt disp (gridAt ts)) ts.2.length
    rw [lintegral_dirac] at h2
    rw [h2]
    simp
  have hBt : B ≠ ∞ := ne_top_of_le_ne_top ENNReal.ofReal_ne_top hBle
  have hφ : MeasList (ts.2.length + 1) fun l : List (ζ → ℝ) => F (l.map (Toy.unpackV e)) := by
    show Measurable fun q : Fin (ts.2.length + 1) → ζ → ℝ => F ((List.ofFn q).map (Toy.unpackV e))
    simp only [List.map_ofFn]
    have hq : Measurable fun (q : Fin (ts.2.length + 1) → ζ → ℝ) (j : Fin (ts.2.length + 1)) => Toy.unpackV e (q j) :=
      measurable_pi_iff.2 fun j => measurable_pi_iff.2 fun i =>
        (measurable_pi_apply (X := fun _ : ζ => ℝ) (e (Sum.inr i))).comp (measurable_pi_apply j)
    exact hF.comp hq
  have h := C87_path disp hb hbm hg hne (Measure.dirac (Toy.concat e x y0)) (Measure.dirac (Toy.concat e x y0)) key key'
    hB hBt hφ fun p => h1 _
  rw [lintegral_dirac, lintegral_dirac, ← hE'] at h
  refine h.trans ?_
  have h3 : B.toReal / 2 ≤ (ε / 2) ^ 2 * invMass disp ts.1 ts.2 := by
    have := ENNReal.toReal_le_of_le_ofReal (mul_nonneg (by positivity) (invMass_nonneg disp _ _)) hBle
    nlinarith
  refine (Real.sqrt_le_sqrt h3).trans (le_of_eq ?_)
  rw [Real.sqrt_mul (sq_nonneg _), Real.sqrt_sq (by positivity)]

end Shift

end Props
end Fbs
