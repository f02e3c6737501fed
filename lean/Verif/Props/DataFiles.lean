import Verif.Model.DataFiles
import Verif.Props.Datasets
import Verif.Props.InterpGuess

/-!
# C100: the data files
-/

namespace Fbs
namespace Props

open Data Datasets DataFiles SbImgs

variable {α : Type}

/-! ### CIFAR-10 -/

theorem interleave_length : ∀ {a b c : List α}, a.length = b.length → a.length = c.length → (interleave a b c).length = 3 * a.length
  | [], [], [], _, _ => rfl
  | x :: a, y :: b, z :: c, h1, h2 => by
    rw [List.length_cons, List.length_cons, Nat.add_right_cancel_iff] at h1 h2
    rw [interleave, List.length_cons, List.length_cons, List.length_cons, interleave_length h1 h2, List.length_cons]
    ring

theorem interleave_get : ∀ {a b c : List α} (_ : a.length = b.length) (_ : a.length = c.length) (q : ℕ),
    (interleave a b c)[3 * q]? = a[q]? ∧ (interleave a b c)[3 * q + 1]? = b[q]? ∧ (interleave a b c)[3 * q + 2]? = c[q]?
  | [], [], [], _, _, _ => ⟨rfl, rfl, rfl⟩
  | x :: a, y :: b, z :: c, _, _, 0 => ⟨rfl, rfl, rfl⟩
  | x :: a, y :: b, z :: c, h1, h2, q + 1 => by
    rw [List.length_cons, List.length_cons, Nat.add_right_cancel_iff] at h1 h2
    exact interleave_get h1 h2 q

/-- The three planes of an image, pixel by pixel. -/
def planes (r : List α) : List α := interleave (r.take 1024) ((r.take 2048).drop 1024) (r.drop 2048)

theorem planes_lengths {r : List α} (h : r.length = 3072) : (r.take 1024).length = ((r.take 2048).drop 1024).length ∧
    (r.take 1024).length = (r.drop 2048).length ∧ (r.take 1024).length = 1024 := by
  simp [h]

theorem planes_length {r : List α} (h : r.length = 3072) : (planes r).length = 3072 := by
  obtain ⟨h1, h2, h3⟩ := planes_lengths h
  rw [planes, interleave_length h1 h2, h3]

theorem planes_get {r : List α} (h : r.length = 3072) {q ch : ℕ} (hq : q < 1024) (hc : ch < 3) :
    (planes r)[3 * q + ch]? = r[1024 * ch + q]? := by
  obtain ⟨h1, h2, -⟩ := planes_lengths h
  obtain ⟨e0, e1, e2⟩ := interleave_get h1 h2 q
  obtain rfl | rfl | rfl : ch = 0 ∨ ch = 1 ∨ ch = 2 := by omega
  · rw [planes, Nat.add_zero, e0, List.getElem?_take_of_lt hq, Nat.mul_zero, Nat.zero_add]
  · rw [planes, e1, List.getElem?_drop, List.getElem?_take_of_lt (by omega)]
  · rw [planes, e2, List.getElem?_drop]

theorem reshapeAuto_rows {a : Arr α} (hw : a.Wf) {rest : List ℕ} (h0 : 0 < rest.prod) (hr : a.rest.prod = rest.prod) :
    reshapeAuto a rest = .ok ⟨rest, a.rows⟩ := by
  have hl : a.rows.flatten.length = a.rows.length * rest.prod := flatten_length _ _ fun r h => hr ▸ hw r h
  rw [reshapeAuto, hl, if_pos (Nat.mul_mod_left _ _), Nat.mul_div_cancel _ h0]
  exact reshape_rows hw rfl hr

theorem loadBatch_eq {a : Arr ℕ} (hw : a.Wf) (hr : a.rest = [3072]) : loadBatch a = .ok ⟨[32, 32, 3], a.rows.map planes⟩ := by
  have hl : ∀ r ∈ a.rows, r.length = 3072 := fun r h => by have := hw r h; rwa [hr] at this
  have w1 : (columns 0 1024 a).Wf := fun r h => by
    obtain ⟨r', h', rfl⟩ := List.mem_map.1 h
    simp [columns, hr, hl r' h']
  have w2 : (columns 1024 2048 a).Wf := fun r h => by
    obtain ⟨r', h', rfl⟩ := List.mem_map.1 h
    simp [columns, hr, hl r' h']
  have w3 : (columns 2048 a.rest.prod a).Wf := fun r h => by
    obtain ⟨r', h', rfl⟩ := List.mem_map.1 h
    simp [columns, hr, hl r' h']
  rw [loadBatch, reshapeAuto_rows w1 (by decide) (by simp [columns, hr]), reshapeAuto_rows w2 (by decide) (by simp [columns, hr]),
    reshapeAuto_rows w3 (by decide) (by simp [columns, hr])]
  have e : List.zipWith (fun x (yz : List ℕ × List ℕ) => interleave x yz.1 yz.2) (columns 0 1024 a).rows
      (List.zip (columns 1024 2048 a).rows (columns 2048 a.rest.prod a).rows) = a.rows.map planes := by
    simp only [columns, List.zip_map', List.zipWith_map, List.zipWith_self]
    refine List.map_congr_left fun r h => ?_
    have : a.rest.prod = r.length := (hw r h).symm
    simp [planes, this]
  show (if _ then _ else _ : Except String (Arr ℕ)) = _
  rw [if_pos (by simp [columns]), e]
  rfl

/-- The loop writes the batches one after the other. -/
theorem fill_eq {size : ℕ} {batch : ℕ → Arr ℕ} : ∀ (n : ℕ) (_ : ∀ i < n, (batch (i + 1)).Wf ∧ (batch (i + 1)).rest = [3072] ∧
    (batch (i + 1)).rows.length = size) (a : Arr ℕ) (_ : n * size ≤ a.rows.length),
    ∃ l : List (List ℕ), l.length = n * size ∧ fill size batch n a = .ok ⟨a.rest, l ++ a.rows.drop (n * size)⟩ ∧
      ∀ i < n, ∀ j < size, l[size * i + j]? = ((batch (i + 1)).rows[j]?).map planes
  | 0, _, a, _ => ⟨[], by simp, by simp [fill], fun i hi => absurd hi (Nat.not_lt_zero i)⟩
  | n + 1, h, a, ha => by
    obtain ⟨l, hl, hf, hi⟩ := fill_eq n (fun i hi => h i (by omega)) a (by rw [Nat.succ_mul] at ha; omega)
    obtain ⟨b1, b2, b3⟩ := h n (by omega)
    refine ⟨l ++ (batch (n + 1)).rows.map planes, by rw [List.length_append, List.length_map, hl, b3, Nat.succ_mul], ?_, ?_⟩
    · rw [fill, hf]
      show (loadBatch (batch (n + 1)) >>= fun b => setRows _ (n * size) size b) = _
      rw [loadBatch_eq b1 b2]
      show setRows _ (n * size) size _ = _
      rw [setRows, if_pos (by rw [List.length_map, b3])]
      simp only [Except.ok.injEq, Arr.mk.injEq, true_and]
      rw [List.take_append_of_le_length (by omega), List.take_of_length_le (by omega), List.drop_append, hl,
        List.drop_of_length_le (by omega : l.length ≤ n * size + size), List.nil_append, List.drop_drop,
        show n * size + (n * size + size - n * size) = (n + 1) * size by rw [Nat.succ_mul]; omega]
    · intro i hi' j hj
      rcases Nat.lt_succ_iff_lt_or_eq.1 hi' with h' | rfl
      · have hlt : size * i + j < l.length := by
          rw [hl]
          have : size * (i + 1) ≤ size * n := Nat.mul_le_mul_left _ h'
          rw [Nat.mul_succ] at this
          rw [Nat.mul_comm n]
          omega
        rw [List.getElem?_append_left hlt, hi i h' j hj]
      · rw [List.getElem?_append_right (by rw [hl, Nat.mul_comm]; omega), hl, Nat.mul_comm i, Nat.add_sub_cancel_left,
          List.getElem?_map]

/-- A batch as distributed: 10000 images of 3072 bytes. -/
def Batch (a : Arr ℕ) : Prop := a.Wf ∧ a.rest = [3072] ∧ a.rows.length = 10000

theorem makeCifar_eq {batch : ℕ → Arr ℕ} {test : Arr ℕ} (hb : ∀ i < 5, Batch (batch (i + 1))) (ht : Batch test) :
    ∃ l : List (List ℕ), l.length = 50000 ∧
      makeCifar batch test = .ok (scale ⟨[32, 32, 3], l⟩, scale ⟨[32, 32, 3], test.rows.map planes⟩) ∧
      ∀ i < 5, ∀ j < 10000, l[10000 * i + j]? = ((batch (i + 1)).rows[j]?).map planes := by
  obtain ⟨l, hl, hf, hi⟩ := fill_eq 5 hb (zeros 50000) (by simp only [zeros, List.length_replicate]; norm_num)
  refine ⟨l, by rw [hl], ?_, hi⟩
  have hd : (zeros 50000).rows.drop (5 * 10000) = [] := List.drop_of_length_le (by simp only [zeros, List.length_replicate]; norm_num)
  have hd' : (zeros 10000).rows.drop (0 + 10000) = [] := List.drop_of_length_le (by simp only [zeros, List.length_replicate]; norm_num)
  rw [hd, List.append_nil] at hf
  rw [makeCifar, hf]
  show (loadBatch test >>= fun b => setRows (zeros 10000) 0 10000 b >>= fun t => pure (scale _, scale t)) = _
  rw [loadBatch_eq ht.1 ht.2.1]
  show (setRows (zeros 10000) 0 10000 _ >>= fun t => pure (scale _, scale t)) = _
  rw [setRows, if_pos (by rw [List.length_map, ht.2.2]), hd', List.append_nil, List.take_zero, List.nil_append]
  rfl

theorem planes_of_get {r : List ℕ} {o : Option (List ℕ)} (h : o = some r) : o.map planes = some (planes r) := by rw [h]; rfl

/-- **C100, CIFAR-10.**  From batches as distributed the script makes arrays of 50000 and 10000 images of shape `(32, 32, 3)`; the value
at row `r`, column `c` and channel `ch` of image `10000 i + j` is the byte `1024 ch + 32 r + c` of image `j` of batch `i + 1`
divided by 255, and the same for the test batch. -/
theorem C100_cifar {batch : ℕ → Arr ℕ} {test : Arr ℕ} (hb : ∀ i < 5, Batch (batch (i + 1))) (ht : Batch test) :
    ∃ tr te, makeCifar batch test = .ok (tr, te) ∧ tr.Wf ∧ te.Wf ∧ tr.rest = [32, 32, 3] ∧ te.rest = [32, 32, 3] ∧
      tr.rows.length = 50000 ∧ te.rows.length = 10000 ∧
      (∀ i < 5, ∀ j < 10000, ∀ r < 32, ∀ c < 32, ∀ ch < 3, ∃ (img : List ℝ) (raw : List ℕ) (x : ℕ), tr.rows[10000 * i + j]? = some img ∧
        (batch (i + 1)).rows[j]? = some raw ∧ raw[1024 * ch + 32 * r + c]? = some x ∧
        img[(32 * r + c) * 3 + ch]? = some ((x : ℝ) / 255)) ∧
      ∀ j < 10000, ∀ r < 32, ∀ c < 32, ∀ ch < 3, ∃ (img : List ℝ) (raw : List ℕ) (x : ℕ), te.rows[j]? = some img ∧ test.rows[j]? = some raw ∧
        raw[1024 * ch + 32 * r + c]? = some x ∧ img[(32 * r + c) * 3 + ch]? = some ((x : ℝ) / 255) := by
  obtain ⟨l, hl, he, hi⟩ := makeCifar_eq hb ht
  have len : ∀ {a : Arr ℕ}, Batch a → ∀ r ∈ a.rows, r.length = 3072 := fun h r hr => by have := h.1 r hr; rwa [h.2.1] at this
  have pix : ∀ {a : Arr ℕ} (_ : Batch a), ∀ j < 10000, ∀ r < 32, ∀ c < 32, ∀ ch < 3, ∃ (raw : List ℕ) (x : ℕ), a.rows[j]? = some raw ∧
      raw[1024 * ch + 32 * r + c]? = some x ∧ ((planes raw).map fun x : ℕ => (x : ℝ) / 255)[(32 * r + c) * 3 + ch]? = some ((x : ℝ) / 255) := by
    intro a ha j hj r hr c hc ch hch
    have hj' : j < a.rows.length := by rw [ha.2.2]; exact hj
    have h3 := len ha _ (List.getElem_mem hj')
    have hlt : 1024 * ch + 32 * r + c < a.rows[j].length := by rw [h3]; omega
    refine ⟨a.rows[j], a.rows[j][1024 * ch + 32 * r + c], List.getElem?_eq_getElem hj', List.getElem?_eq_getElem hlt, ?_⟩
    rw [List.getElem?_map, Nat.mul_comm, planes_get h3 (by omega) hch, ← Nat.add_assoc, List.getElem?_eq_getElem hlt]
    rfl
  refine ⟨_, _, he, ?_, ?_, rfl, rfl, by simp [scale, hl], by simp only [scale, List.length_map]; exact ht.2.2, ?_, ?_⟩
  · intro r hr
    obtain ⟨r', hr', rfl⟩ := List.mem_map.1 hr
    obtain ⟨k, hk⟩ := List.mem_iff_getElem?.1 hr'
    have hk' : k < 50000 := by rw [← hl]; exact (List.getElem?_eq_some_iff.1 hk).1
    have := hi (k / 10000) (by omega) (k % 10000) (Nat.mod_lt _ (by norm_num))
    rw [Nat.div_add_mod, hk] at this
    obtain ⟨raw, hraw, rfl⟩ := Option.map_eq_some_iff.1 this.symm
    rw [List.length_map, planes_length (len (hb _ (by omega)) raw (List.mem_of_getElem? hraw))]
    rfl
  · intro r hr
    obtain ⟨r', hr', rfl⟩ := List.mem_map.1 hr
    obtain ⟨raw, hraw, rfl⟩ := List.mem_map.1 hr'
    rw [List.length_map, planes_length (len ht raw hraw)]
    rfl
  · intro i hi5 j hj r hr c hc ch hch
    obtain ⟨raw, x, h1, h2, h3⟩ := pix (hb i hi5) j hj r hr c hc ch hch
    refine ⟨_, raw, x, ?_, h1, h2, h3⟩
    rw [scale, List.getElem?_map, hi i hi5 j hj, h1]
    rfl
  · intro j hj r hr c hc ch hch
    obtain ⟨raw, x, h1, h2, h3⟩ := pix ht j hj r hr c hc ch hch
    refine ⟨_, raw, x, ?_, h1, h2, h3⟩
    rw [scale, List.getElem?_map, List.getElem?_map, h1]
    rfl

/-- **C100, range.**  The values are between 0 and 1 when the bytes are bytes. -/
theorem C100_cifar_range {batch : ℕ → Arr ℕ} {test : Arr ℕ} (hb : ∀ i < 5, Batch (batch (i + 1))) (ht : Batch test)
    (hx : ∀ i < 5, ∀ raw ∈ (batch (i + 1)).rows, ∀ x ∈ raw, x ≤ 255) (hx' : ∀ raw ∈ test.rows, ∀ x ∈ raw, x ≤ 255)
    {tr te : Arr ℝ} (h : makeCifar batch test = .ok (tr, te)) : ∀ img ∈ tr.rows ++ te.rows, ∀ v ∈ img, 0 ≤ v ∧ v ≤ 1 := by
  obtain ⟨tr', te', h1, hw, hw', hs, hs', hl, hl', he, he'⟩ := C100_cifar hb ht
  obtain ⟨rfl, rfl⟩ : tr = tr' ∧ te = te' := by simpa using h.symm.trans h1
  have val : ∀ x : ℕ, x ≤ 255 → 0 ≤ (x : ℝ) / 255 ∧ (x : ℝ) / 255 ≤ 1 := fun x hx => by
    have : (x : ℝ) ≤ 255 := by exact_mod_cast hx
    exact ⟨by positivity, (div_le_one (by norm_num)).2 this⟩
  intro img himg v hv
  obtain ⟨p, hp⟩ := List.mem_iff_getElem?.1 hv
  have pos : ∀ {q : ℕ}, q < 3072 → (32 * (q / 3 / 32) + q / 3 % 32) * 3 + q % 3 = q := fun {q} _ => by omega
  rcases List.mem_append.1 himg with hi | hi
  · have hlen := hw img hi
    rw [hs] at hlen
    have hp' : p < 3072 := by have := (List.getElem?_eq_some_iff.1 hp).1; rwa [hlen] at this
    obtain ⟨k, hk⟩ := List.mem_iff_getElem?.1 hi
    have hk' : k < 50000 := by rw [← hl]; exact (List.getElem?_eq_some_iff.1 hk).1
    obtain ⟨img', raw, x, e1, e2, e3, e4⟩ := he (k / 10000) (by omega) (k % 10000) (by omega) (p / 3 / 32) (by omega) (p / 3 % 32)
      (by omega) (p % 3) (by omega)
    rw [Nat.div_add_mod, hk, Option.some.injEq] at e1
    subst e1
    rw [pos hp', hp, Option.some.injEq] at e4
    rw [e4]
    exact val x (hx _ (by omega) raw (List.mem_of_getElem? e2) x (List.mem_of_getElem? e3))
  · have hlen := hw' img hi
    rw [hs'] at hlen
    have hp' : p < 3072 := by have := (List.getElem?_eq_some_iff.1 hp).1; rwa [hlen] at this
    obtain ⟨k, hk⟩ := List.mem_iff_getElem?.1 hi
    have hk' : k < 10000 := by rw [← hl']; exact (List.getElem?_eq_some_iff.1 hk).1
    obtain ⟨img', raw, x, e1, e2, e3, e4⟩ := he' k hk' (p / 3 / 32) (by omega) (p / 3 % 32) (by omega) (p % 3) (by omega)
    rw [hk, Option.some.injEq] at e1
    subst e1
    rw [pos hp', hp, Option.some.injEq] at e4
    rw [e4]
    exact val x (hx' raw (List.mem_of_getElem? e2) x (List.mem_of_getElem? e3))

/-- **C100, nothing is lost.**  Equal files come from equal batches. -/
theorem C100_cifar_lossless {batch batch' : ℕ → Arr ℕ} {test test' : Arr ℕ} (hb : ∀ i < 5, Batch (batch (i + 1))) (ht : Batch test)
    (hb' : ∀ i < 5, Batch (batch' (i + 1))) (ht' : Batch test') (h : makeCifar batch test = makeCifar batch' test') :
    (∀ i < 5, batch (i + 1) = batch' (i + 1)) ∧ test = test' := by
  obtain ⟨tr, te, h1, -, -, -, -, -, -, he, he2⟩ := C100_cifar hb ht
  obtain ⟨tr', te', h1', -, -, -, -, -, -, he', he2'⟩ := C100_cifar hb' ht'
  obtain ⟨rfl, rfl⟩ : tr = tr' ∧ te = te' := by simpa using h1.symm.trans (h.trans h1')
  have eq : ∀ {a b : Arr ℕ}, Batch a → Batch b → (∀ j < 10000, ∀ r < 32, ∀ c < 32, ∀ ch < 3, ∃ (ra rb : List ℕ) (x : ℕ),
      a.rows[j]? = some ra ∧ b.rows[j]? = some rb ∧ ra[1024 * ch + 32 * r + c]? = some x ∧ rb[1024 * ch + 32 * r + c]? = some x) →
      a = b := by
    intro a b ha hb hab
    refine Arr.ext (ha.2.1.trans hb.2.1.symm) (List.ext_getElem (ha.2.2.trans hb.2.2.symm) fun j hj hj' => ?_)
    have la := ha.1 _ (List.getElem_mem hj)
    have lb := hb.1 _ (List.getElem_mem hj')
    rw [ha.2.1] at la
    rw [hb.2.1] at lb
    refine List.ext_getElem (la.trans lb.symm) fun p hp hp' => ?_
    have hp3 : p < 3072 := by rwa [la] at hp
    obtain ⟨ra, rb, x, e1, e2, e3, e4⟩ := hab j (by rw [← ha.2.2]; exact hj) (p % 1024 / 32) (by omega) (p % 1024 % 32) (by omega)
      (p / 1024) (by omega)
    rw [show 1024 * (p / 1024) + 32 * (p % 1024 / 32) + p % 1024 % 32 = p by omega] at e3 e4
    rw [List.getElem?_eq_getElem hj, Option.some.injEq] at e1
    rw [List.getElem?_eq_getElem hj', Option.some.injEq] at e2
    subst e1 e2
    rw [List.getElem?_eq_getElem hp, Option.some.injEq] at e3
    rw [List.getElem?_eq_getElem hp', Option.some.injEq] at e4
    exact e3.trans e4.symm
  have cast_inj : ∀ {x y : ℕ}, (x : ℝ) / 255 = (y : ℝ) / 255 → x = y := fun {x y} hxy => by
    have : (x : ℝ) = y := by
      field_simp at hxy
      exact hxy
    exact_mod_cast this
  refine ⟨fun i hi => eq (hb i hi) (hb' i hi) fun j hj r hr c hc ch hch => ?_, eq ht ht' fun j hj r hr c hc ch hch => ?_⟩
  · obtain ⟨img, ra, x, e1, e2, e3, e4⟩ := he i hi j hj r hr c hc ch hch
    obtain ⟨img', rb, y, f1, f2, f3, f4⟩ := he' i hi j hj r hr c hc ch hch
    obtain rfl : img = img' := Option.some.inj (e1.symm.trans f1)
    obtain rfl : x = y := cast_inj (Option.some.inj (e4.symm.trans f4))
    exact ⟨ra, rb, x, e2, f2, e3, f3⟩
  · obtain ⟨img, ra, x, e1, e2, e3, e4⟩ := he2 j hj r hr c hc ch hch
    obtain ⟨img', rb, y, f1, f2, f3, f4⟩ := he2' j hj r hr c hc ch hch
    obtain rfl : img = img' := Option.some.inj (e1.symm.trans f1)
    obtain rfl : x = y := cast_inj (Option.some.inj (e4.symm.trans f4))
    exact ⟨ra, rb, x, e2, f2, e3, f3⟩

/-- **C100, the file and its reader.**  `CIFAR10` reads the file without error: it holds every image of the batches once, as an array of
shape `(32, 32, 3)`. -/
theorem C100_cifar_read {batch : ℕ → Arr ℕ} {test : Arr ℕ} (hb : ∀ i < 5, Batch (batch (i + 1))) (ht : Batch test)
    {tr te : Arr ℝ} (h : makeCifar batch test = .ok (tr, te)) {key : Key} {isTest : Bool} {r : Except String (ImageSet ℝ)}
    (hr : (cifar10 key tr te isTest).Returns r) :
    ∃ d, r = .ok d ∧ d.imageShape = (32, 32, 3) ∧ d.xs.rest = [32, 32, 3] ∧ d.n = (if isTest then 10000 else 50000) ∧
      d.xs.rows.Perm (if isTest then te else tr).rows := by
  obtain ⟨tr', te', h1, hw, hw', hs, hs', hl, hl', -, -⟩ := C100_cifar hb ht
  obtain ⟨rfl, rfl⟩ : tr = tr' ∧ te = te' := by simpa using h.symm.trans h1
  have hW : (if isTest then te else tr).Wf := by split_ifs <;> assumption
  have hS : (if isTest then te else tr).rest = [32, 32, 3] := by split_ifs <;> assumption
  have hL : (if isTest then te else tr).rows.length = if isTest then 10000 else 50000 := by split_ifs <;> assumption
  obtain ⟨d, e1, e2, e3, e4, e5⟩ := C85_cifar hr hW (by rw [hS]; rfl) hL
  exact ⟨d, e1, e3, e4.trans hS, by rw [e2, e5.length_eq, hL], e5⟩

/-- **C100, truncated batches.**  A first batch with another number of images than 10000, and more than one, stops the script. -/
theorem C100_cifar_short {batch : ℕ → Arr ℕ} {test : Arr ℕ} (hw : (batch 1).Wf) (hs : (batch 1).rest = [3072])
    (h1 : (batch 1).rows.length ≠ 10000) (h2 : (batch 1).rows.length ≠ 1) : makeCifar batch test = .error "ValueError" := by
  have f1 : fill 10000 batch 1 (zeros 50000) = .error "ValueError" := by
    rw [fill, fill]
    show (loadBatch (batch 1) >>= fun b => setRows _ _ _ b) = _
    rw [loadBatch_eq hw hs]
    show setRows _ _ _ _ = _
    rw [setRows, if_neg (by rw [List.length_map]; exact h1), if_neg (by rw [List.length_map]; exact h2)]
  have f : ∀ n, fill 10000 batch (n + 1) (zeros 50000) = .error "ValueError" := by
    intro n
    induction n with
    | zero => exact f1
    | succ n ih => rw [fill, ih]; rfl
  rw [makeCifar, f 4]
  rfl

/-- **C100, a batch of one image.**  A batch with a single image is not noticed: its image fills the place of `size`. -/
theorem C100_cifar_single (size : ℕ) {batch : Arr ℕ} (hw : batch.Wf) (hs : batch.rest = [3072]) {raw : List ℕ} (h : batch.rows = [raw]) :
    fill size (fun _ => batch) 1 (zeros size) = .ok ⟨[32, 32, 3], List.replicate size (planes raw)⟩ := by
  have hd : (zeros size).rows.drop (0 * size + size) = [] := List.drop_of_length_le
    (by simp only [zeros, List.length_replicate]; omega)
  have ok : ∀ (x : Arr ℕ) (f : Arr ℕ → Except String (Arr ℕ)), (Except.ok x >>= f) = f x := fun _ _ => rfl
  rw [fill, fill, ok, loadBatch_eq hw hs, h, ok, setRows, hd]
  have hz : ∀ n, (zeros n).rest = [32, 32, 3] := fun _ => rfl
  by_cases h1 : size = 1
  · simp [h1, hz]
  · rw [if_neg (by simpa using Ne.symm h1), if_pos (by simp)]
    simp [hz]

/-! ### CelebA-HQ -/

section Half

variable {m c : ℕ}

theorem half_raw (hm : 0 < m) (i o : ℕ) : rawWeight (2 * m) m i o = max 0 (1 - |2 * (o : ℝ) + 1 / 2 - i| / 2) := by
  have h0 : (m : ℝ) ≠ 0 := by positivity
  have h2 : ((2 * m : ℕ) : ℝ) / m = 2 := by push_cast; field_simp
  rw [rawWeight, samplePos, h2, triangle, max_eq_left (by norm_num : (1 : ℝ) ≤ 2), abs_div, abs_abs, abs_two,
    show ((o : ℝ) + 1 / 2) * 2 - 1 / 2 - i = 2 * o + 1 / 2 - i by ring]

theorem half_tot (hm : 0 < m) (o : Fin m) : 3 / 4 ≤ ∑ k : Fin (2 * m), rawWeight (2 * m) m k o := by
  have hb : 2 * (o : ℕ) < 2 * m := by have := o.2; omega
  refine le_trans ?_ (Finset.single_le_sum (f := fun k : Fin (2 * m) => rawWeight (2 * m) m k o)
    (fun k _ => by rw [half_raw hm]; exact le_max_left _ _) (Finset.mem_univ ⟨2 * o, hb⟩))
  rw [half_raw hm]
  refine le_max_of_le_right ?_
  push_cast
  rw [show 2 * ((o : ℕ) : ℝ) + 1 / 2 - 2 * (o : ℕ) = 1 / 2 by ring, abs_of_nonneg (by norm_num)]
  norm_num

theorem half_weight (hm : 0 < m) (i : Fin (2 * m)) (o : Fin m) :
    weight (2 * m) m i o = rawWeight (2 * m) m i o / ∑ k : Fin (2 * m), rawWeight (2 * m) m k o := by
  have ht := half_tot hm o
  have h0 : (m : ℝ) ≠ 0 := by positivity
  have h1 : 1000 * (2 : ℝ)⁻¹ ^ 23 < |∑ k : Fin (2 * m), rawWeight (2 * m) m k o| := by
    refine lt_of_lt_of_le ?_ (ht.trans (le_abs_self _))
    norm_num
  have h2 : ∑ k : Fin (2 * m), rawWeight (2 * m) m k o ≠ 0 := fun h => by rw [h] at ht; norm_num at ht
  have h3 : -1 / 2 ≤ samplePos (2 * m) m o ∧ samplePos (2 * m) m o ≤ ((2 * m : ℕ) : ℝ) - 1 / 2 := by
    have h4 : ((o : ℕ) : ℝ) + 1 ≤ m := by exact_mod_cast o.2
    have h5 : (0 : ℝ) ≤ (o : ℕ) := Nat.cast_nonneg _
    rw [samplePos, show ((2 * m : ℕ) : ℝ) / m = 2 by push_cast; field_simp]
    push_cast
    constructor <;> linarith
  simp only [weight]
  rw [if_pos h3, if_pos h1, if_pos h2]

/-- **C100, the weights of the reduction.**  Every entry of the smaller image is a weighted mean of entries of the larger one: the weights
are non-negative and sum to one.  Away from the border they are 1/8, 3/8, 3/8, 1/8, on the two entries of the block and
one on each side of it. -/
theorem C100_half_weights (hm : 0 < m) (o : Fin m) :
    (∀ i, 0 ≤ weight (2 * m) m i o) ∧ ∑ i, weight (2 * m) m i o = 1 ∧
      (0 < (o : ℕ) → (o : ℕ) + 1 < m → ∀ f : ℕ → ℝ, ∑ i : Fin (2 * m), weight (2 * m) m i o * f i =
        1 / 8 * f (2 * o - 1) + 3 / 8 * f (2 * o) + 3 / 8 * f (2 * o + 1) + 1 / 8 * f (2 * o + 2)) := by
  have ht := half_tot hm o
  refine ⟨fun i => ?_, ?_, fun h0 h1 f => ?_⟩
  · rw [half_weight hm, half_raw hm]
    exact div_nonneg (le_max_left _ _) (by linarith)
  · simp only [half_weight hm]
    rw [← Finset.sum_div, div_self]
    intro h
    rw [h] at ht
    norm_num at ht
  · obtain ⟨a, ha⟩ : ∃ a, (o : ℕ) = a + 1 := ⟨o - 1, by omega⟩
    have key : ∀ f : ℕ → ℝ, ∑ i : Fin (2 * m), rawWeight (2 * m) m i o * f i =
        1 / 4 * f (2 * a + 1) + 3 / 4 * f (2 * a + 2) + 3 / 4 * f (2 * a + 3) + 1 / 4 * f (2 * a + 4) := by
      intro f
      rw [Fin.sum_univ_eq_sum_range (fun i => rawWeight (2 * m) m i o * f i) (2 * m)]
      rw [← Finset.sum_subset (s₁ := {2 * a + 1, 2 * a + 2, 2 * a + 3, 2 * a + 4})]
      · rw [Finset.sum_insert (by simp), Finset.sum_insert (by simp), Finset.sum_insert (by simp), Finset.sum_singleton]
        have e1 : rawWeight (2 * m) m (2 * a + 1) o = 1 / 4 := by
          rw [half_raw hm, ha]
          push_cast
          rw [abs_of_nonneg (by linarith), max_eq_right (by linarith)]
          ring
        have e2 : rawWeight (2 * m) m (2 * a + 2) o = 3 / 4 := by
          rw [half_raw hm, ha]
          push_cast
          rw [abs_of_nonneg (by linarith), max_eq_right (by linarith)]
          ring
        have e3 : rawWeight (2 * m) m (2 * a + 3) o = 3 / 4 := by
          rw [half_raw hm, ha]
          push_cast
          rw [abs_of_nonpos (by linarith), max_eq_right (by linarith)]
          ring
        have e4 : rawWeight (2 * m) m (2 * a + 4) o = 1 / 4 := by
          rw [half_raw hm, ha]
          push_cast
          rw [abs_of_nonpos (by linarith), max_eq_right (by linarith)]
          ring
        rw [e1, e2, e3, e4]
        ring
      · intro i hi
        simp only [Finset.mem_insert, Finset.mem_singleton] at hi
        rw [Finset.mem_range]
        omega
      · intro i _ hi
        simp only [Finset.mem_insert, Finset.mem_singleton, not_or] at hi
        rw [half_raw hm, ha, max_eq_left, zero_mul]
        push_cast
        rcases Nat.lt_or_ge i (2 * a + 1) with h | h
        · have : (i : ℝ) ≤ 2 * a := by exact_mod_cast (by omega : i ≤ 2 * a)
          have := le_abs_self (2 * ((a : ℝ) + 1) + 1 / 2 - i)
          linarith
        · have : 2 * (a : ℝ) + 5 ≤ i := by exact_mod_cast (by omega : 2 * a + 5 ≤ i)
          have := neg_abs_le (2 * ((a : ℝ) + 1) + 1 / 2 - i)
          linarith
    have htot : ∑ k : Fin (2 * m), rawWeight (2 * m) m k o = 2 := by
      have := key fun _ => 1
      simp only [mul_one] at this
      rw [this]
      norm_num
    simp only [half_weight hm, htot, div_mul_eq_mul_div]
    rw [← Finset.sum_div, key f, ha, show 2 * (a + 1) - 1 = 2 * a + 1 by omega, show 2 * (a + 1) = 2 * a + 2 by ring]
    ring

/-- **C100, range of CelebA-HQ.**  All values of both files are between 0 and 1, whatever the numbers in the images. -/
theorem C100_celeba_range (hm : 0 < m) (imgs : ℕ → Fin (2 * m) → Fin (2 * m) → Fin c → ℕ) (k : ℕ) (ch : Fin c) :
    (∀ i j, 0 ≤ celeba128 (imgs k) i j ch ∧ celeba128 (imgs k) i j ch ≤ 1) ∧
    ∀ x y, 0 ≤ celeba64 (fun k => celeba128 (imgs k)) k x y ch ∧ celeba64 (fun k => celeba128 (imgs k)) k x y ch ≤ 1 := by
  have h : ∀ i j, 0 ≤ celeba128 (imgs k) i j ch ∧ celeba128 (imgs k) i j ch ≤ 1 := fun i j => by
    unfold celeba128
    split_ifs with h
    · exact ⟨zero_le_one, le_rfl⟩
    · exact ⟨by positivity, not_lt.1 h⟩
  refine ⟨h, fun x y => ?_⟩
  obtain ⟨hx0, hx1, -⟩ := C100_half_weights hm x
  obtain ⟨hy0, hy1, -⟩ := C100_half_weights hm y
  rw [celeba64, resize]
  constructor
  · exact Finset.sum_nonneg fun i _ => Finset.sum_nonneg fun j _ => mul_nonneg (mul_nonneg (hx0 i) (hy0 j)) (h i j).1
  · have hc : ∑ i, ∑ j, weight (2 * m) m i x * weight (2 * m) m j y = 1 := by
      simp_rw [← Finset.mul_sum]
      rw [hy1]
      simp only [mul_one]
      exact hx1
    rw [← hc]
    exact Finset.sum_le_sum fun i _ => Finset.sum_le_sum fun j _ => mul_le_of_le_one_right (mul_nonneg (hx0 i) (hy0 j)) (h i j).2

/-- **C100, bytes.**  For bytes the larger image is the byte divided by 255; the clipping does nothing. -/
theorem C100_celeba_bytes {n : ℕ} (img : Fin n → Fin n → Fin c → ℕ) (i j : Fin n) (ch : Fin c) (h : img i j ch ≤ 255) :
    celeba128 img i j ch = (img i j ch : ℝ) / 255 := by
  have : (img i j ch : ℝ) ≤ 255 := by exact_mod_cast h
  rw [celeba128, if_neg (not_lt.2 ((div_le_one (by norm_num)).2 this))]

/-- **C100, where the pixels of the smaller image are.**  An affine image is reduced to its values at the centres of the 2 by 2 blocks,
away from the border: there is no offset. -/
theorem C100_half_ramp (hm : 0 < m) {img : ℕ → Fin (2 * m) → Fin (2 * m) → Fin c → ℝ} {k : ℕ} {α β γ : ℝ} {ch : Fin c}
    (h : ∀ i j, img k i j ch = α * i + β * j + γ) {x y : Fin m} (hx : 0 < (x : ℕ)) (hx' : (x : ℕ) + 1 < m) (hy : 0 < (y : ℕ))
    (hy' : (y : ℕ) + 1 < m) :
    celeba64 img k x y ch = α * (2 * (x : ℕ) + 1 / 2) + β * (2 * (y : ℕ) + 1 / 2) + γ := by
  have aff : ∀ (o : Fin m), 0 < (o : ℕ) → (o : ℕ) + 1 < m → ∀ a b : ℝ, ∑ i : Fin (2 * m), weight (2 * m) m i o * (a * i + b) =
      a * (2 * (o : ℕ) + 1 / 2) + b := by
    intro o h0 h1 a b
    rw [(C100_half_weights hm o).2.2 h0 h1 fun i => a * i + b]
    have e : ((2 * (o : ℕ) - 1 : ℕ) : ℝ) = 2 * (o : ℕ) - 1 := by rw [Nat.cast_sub (by omega)]; push_cast; ring
    rw [e]
    push_cast
    ring
  have h1 : ∀ i : Fin (2 * m), ∑ j : Fin (2 * m), weight (2 * m) m i x * weight (2 * m) m j y * img k i j ch =
      weight (2 * m) m i x * (α * i + (β * (2 * (y : ℕ) + 1 / 2) + γ)) := by
    intro i
    rw [show α * (i : ℝ) + (β * (2 * (y : ℕ) + 1 / 2) + γ) = β * (2 * (y : ℕ) + 1 / 2) + (α * i + γ) by ring,
      ← aff y hy hy' β (α * i + γ), Finset.mul_sum]
    refine Finset.sum_congr rfl fun j _ => ?_
    rw [h]
    ring
  rw [celeba64, resize]
  simp only [h1]
  rw [aff x hx hx']
  ring

/-- **C100, mirror images.**  Reducing the mirror image gives the mirror image of the reduced one, border included. -/
theorem C100_half_flip (hm : 0 < m) (img : Fin (2 * m) → Fin (2 * m) → Fin c → ℝ) (k : ℕ) (x y : Fin m) (ch : Fin c) :
    celeba64 (fun _ i j => img i j.rev) k x y ch = celeba64 (fun _ => img) k x y.rev ch := by
  have raw : ∀ (i : Fin (2 * m)) (o : Fin m), rawWeight (2 * m) m i.rev o.rev = rawWeight (2 * m) m i o := by
    intro i o
    rw [half_raw hm, half_raw hm]
    have hi : ((i.rev : ℕ) : ℝ) = 2 * m - 1 - (i : ℕ) := by
      rw [Fin.val_rev, Nat.cast_sub (by have := i.2; omega)]
      push_cast
      ring
    have ho : ((o.rev : ℕ) : ℝ) = m - 1 - (o : ℕ) := by
      rw [Fin.val_rev, Nat.cast_sub (by have := o.2; omega)]
      push_cast
      ring
    rw [hi, ho, show 2 * ((m : ℝ) - 1 - (o : ℕ)) + 1 / 2 - (2 * m - 1 - (i : ℕ)) = -(2 * (o : ℕ) + 1 / 2 - (i : ℕ)) by ring, abs_neg]
  have tot : ∀ o : Fin m, ∑ i : Fin (2 * m), rawWeight (2 * m) m i o.rev = ∑ i : Fin (2 * m), rawWeight (2 * m) m i o := by
    intro o
    rw [← Equiv.sum_comp Fin.revPerm]
    exact Finset.sum_congr rfl fun i _ => raw i o
  have hw : ∀ (i : Fin (2 * m)) (o : Fin m), weight (2 * m) m i.rev o.rev = weight (2 * m) m i o := by
    intro i o
    rw [half_weight hm, half_weight hm, raw, tot]
  rw [celeba64, celeba64, resize, resize]
  refine Finset.sum_congr rfl fun i _ => ?_
  rw [← Equiv.sum_comp Fin.revPerm]
  refine Finset.sum_congr rfl fun j _ => ?_
  rw [Fin.revPerm_apply, Fin.rev_rev, ← hw j.rev y, Fin.rev_rev]

end Half

/-! ### The hypotheses can be met -/

/-- A batch in which every image counts up. -/
def countBatch : Arr ℕ := ⟨[3072], List.replicate 10000 ((List.range 3072).map (· % 256))⟩

theorem countBatch_batch : Batch countBatch := by
  refine ⟨fun r hr => ?_, rfl, List.length_replicate⟩
  rw [List.eq_of_mem_replicate hr, List.length_map, List.length_range]
  rfl

example : ∃ tr te, makeCifar (fun _ => countBatch) countBatch = .ok (tr, te) ∧ ∀ img ∈ tr.rows ++ te.rows, ∀ v ∈ img, 0 ≤ v ∧ v ≤ 1 := by
  have hb : ∀ i < 5, Batch ((fun _ => countBatch) (i + 1)) := fun _ _ => countBatch_batch
  obtain ⟨tr, te, h, -⟩ := C100_cifar (batch := fun _ => countBatch) hb countBatch_batch
  have hx : ∀ raw ∈ countBatch.rows, ∀ x ∈ raw, x ≤ 255 := by
    intro raw hraw x hx
    rw [List.eq_of_mem_replicate hraw] at hx
    obtain ⟨y, -, rfl⟩ := List.mem_map.1 hx
    omega
  exact ⟨tr, te, h, C100_cifar_range (batch := fun _ => countBatch) hb countBatch_batch (fun _ _ => hx) hx h⟩

example : makeCifar (fun _ => ⟨[3072], List.replicate 9999 (List.replicate 3072 7)⟩) countBatch = .error "ValueError" :=
  C100_cifar_short (fun r hr => by rw [List.eq_of_mem_replicate hr, List.length_replicate]; rfl) rfl
    (by simp only [List.length_replicate]; norm_num) (by simp only [List.length_replicate]; norm_num)

example : fill 10000 (fun _ => ⟨[3072], [List.replicate 3072 7]⟩) 1 (zeros 10000)
    = .ok ⟨[32, 32, 3], List.replicate 10000 (planes (List.replicate 3072 7))⟩ :=
  C100_cifar_single 10000 (fun r hr => by rw [List.mem_singleton.1 hr, List.length_replicate]; rfl) rfl rfl

example (key : Key) {tr te : Arr ℝ} (h : makeCifar (fun _ => countBatch) countBatch = .ok (tr, te)) {r : Except String (ImageSet ℝ)}
    (hr : (cifar10 key tr te true).Returns r) : ∃ d, r = .ok d ∧ d.n = 10000 := by
  obtain ⟨d, h1, -, -, h2, -⟩ := C100_cifar_read (batch := fun _ => countBatch) (fun _ _ => countBatch_batch) countBatch_batch h hr
  exact ⟨d, h1, h2⟩

/-- A ramp of 128 by 128 pixels. -/
example (k : ℕ) : celeba64 (m := 64) (c := 3) (fun _ i j _ => 1 * (i : ℕ) + (-2) * (j : ℕ) + 5) k 10 20 1 = 20.5 - 2 * 40.5 + 5 := by
  rw [C100_half_ramp (by norm_num) (fun i j => rfl) (by decide) (by decide) (by decide) (by decide)]
  norm_num [Fin.val_ofNat]

end Props
end Fbs
