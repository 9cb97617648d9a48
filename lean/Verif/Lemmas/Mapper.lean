import Verif.Model.Mapper
import Verif.Lemmas.RSBitVector
import Mathlib.Tactic.Ring

/-! Freezing and mapping. -/
namespace Succinct.Mapper
open RSBitVector (bind_pure_some)

theorem leEnc_length (k x : Nat) : (leEnc k x).length = k := by
  induction k generalizing x with
  | zero => rfl
  | succ k ih => simp [leEnc, ih]

theorem leDec_leEnc (k x : Nat) : leDec (leEnc k x) = x % 256^k := by
  induction k generalizing x with
  | zero => simp [leEnc, leDec, Nat.mod_one]
  | succ k ih =>
    simp only [leEnc, leDec, ih, BitVec.toNat_ofNat]
    have e : 256^(k+1) = 256 * 256^k := by rw [Nat.pow_succ, Nat.mul_comm]
    rw [e, Nat.mod_mul]

theorem leDecS_leEncS (k : Nat) (x : Int) (hk : 0 < k) (h1 : -(256^k : Nat) ≤ 2 * x) (h2 : 2 * x < (256^k : Nat)) : leDecS (leEncS k x) = x := by
  have hp : 0 < 256^k := Nat.pow_pos (by omega)
  unfold leDecS leEncS
  rw [leDec_leEnc, leEnc_length]
  have h0 : 0 ≤ x % ((256^k : Nat) : Int) := Int.emod_nonneg _ (by omega)
  have hlt : x % ((256^k : Nat) : Int) < ((256^k : Nat) : Int) := Int.emod_lt_of_pos _ (by omega)
  rw [Nat.mod_eq_of_lt (by omega), Int.toNat_of_nonneg h0, Int.emod_bmod]
  have he : 256^k % 2 = 0 := by
    obtain ⟨j, rfl⟩ : ∃ j, k = j + 1 := ⟨k - 1, by omega⟩
    rw [Nat.pow_succ]; omega
  exact Int.bmod_eq_of_le (by omega) (by omega)

theorem rdBytes_eq {mem pre x post : List Byte} (h : mem = pre ++ x ++ post) : rdBytes mem pre.length x.length = some x := by
  unfold rdBytes
  rw [if_pos (by rw [h]; simp), h, List.append_assoc, List.drop_left, List.take_left]

theorem rdBytes_mono {mem : List Byte} {p n : Nat} {r : List Byte} (t : List Byte) (h : rdBytes mem p n = some r) : rdBytes (mem ++ t) p n = some r := by
  unfold rdBytes at *
  split at h
  · rename_i hl
    rw [if_pos (by rw [List.length_append]; omega), ← h, List.drop_append_of_le_length (by omega), List.take_append_of_le_length (by rw [List.length_drop]; omega)]
  · simp at h

theorem rdBytes_le {mem : List Byte} {p n : Nat} {r : List Byte} (h : rdBytes mem p n = some r) : p + n ≤ mem.length := by
  unfold rdBytes at h
  split at h
  · assumption
  · simp at h

/-- well-formed contents -/
def Val.WF : Val → Prop
  | .done => True
  | .pod _ _ rest => rest.WF
  | .vec _ es xs rest => (∀ x ∈ xs, x.length = es) ∧ xs.length < 2^64 ∧ xs.length * es < 2^64 ∧ rest.WF
  | .obj _ inner rest => inner.WF ∧ rest.WF

def Val.lay : Val → Lay
  | .done => .done
  | .pod n bs rest => .pod n bs.length rest.lay
  | .vec n es _ rest => .vec n es rest.lay
  | .obj n inner rest => .obj n inner.lay rest.lay

/-- the bytes of the fields, one after the other -/
def Val.flat : Val → List Byte
  | .done => []
  | .pod _ bs rest => bs ++ rest.flat
  | .vec _ _ xs rest => leEnc 8 xs.length ++ xs.flatten ++ rest.flat
  | .obj _ inner rest => inner.flat ++ rest.flat

/-- the mapped object if the image of the fields starts at `pos` -/
def Val.place : Val → Nat → MVal
  | .done, _ => .done
  | .pod n bs rest, pos => .pod n bs (rest.place (pos + bs.length))
  | .vec n es xs rest, pos => .vec n es (pos + 8) xs.length (rest.place (pos + 8 + xs.length * es))
  | .obj n inner rest, pos => .obj n (inner.place pos) (rest.place (pos + inner.flat.length))

theorem flatten_length {xs : List (List Byte)} {es : Nat} (h : ∀ x ∈ xs, x.length = es) : xs.flatten.length = xs.length * es := by
  induction xs with
  | nil => simp
  | cons x xs ih =>
    rw [List.flatten_cons, List.length_append, ih (fun y hy => h y (by simp [hy])), h x (by simp), List.length_cons]; ring

theorem freezeV_eq (v : Val) (h : v.WF) (o : Out) : freezeV v o = some ⟨o.bytes ++ v.flat, o.written + v.flat.length⟩ := by
  induction v generalizing o with
  | done => simp [freezeV, Val.flat]
  | pod n bs rest ih =>
    rw [freezeV, ih h]; simp [Out.put, Val.flat, Nat.add_assoc]
  | vec n es xs rest ih =>
    obtain ⟨h1, h2, h2', h3⟩ := h
    have hl := flatten_length h1
    have hr : rdBytes xs.flatten 0 (xs.length * es) = some xs.flatten := by
      have := rdBytes_eq (mem := xs.flatten) (pre := []) (x := xs.flatten) (post := []) (by simp)
      rwa [hl] at this
    rw [freezeV]
    simp only [Nat.mod_eq_of_lt h2']
    rw [hr, bind_pure_some, ih h3]
    simp [Out.put, Val.flat, leEnc_length, hl, Nat.add_assoc]
  | obj n inner rest ih1 ih2 =>
    rw [freezeV, ih1 h.1, bind_pure_some, ih2 h.2]; simp [Val.flat, Nat.add_assoc]

theorem sizeV_eq (v : Val) (h : v.WF) (s : Nat) : sizeV v s = s + v.flat.length := by
  induction v generalizing s with
  | done => simp [sizeV, Val.flat]
  | pod n bs rest ih => rw [sizeV, ih h]; simp [Val.flat, Nat.add_assoc]
  | vec n es xs rest ih =>
    rw [sizeV, Nat.mod_eq_of_lt h.2.2.1, ih h.2.2.2]; simp [Val.flat, leEnc_length, ← flatten_length h.1, Nat.add_assoc]
  | obj n inner rest ih1 ih2 => rw [sizeV, ih1 h.1, ih2 h.2]; simp [Val.flat, Nat.add_assoc]

theorem warmup_eq (pre post : List Byte) (es : Nat) (xs : List (List Byte)) (h : ∀ x ∈ xs, x.length = es) :
    warmup (pre ++ xs.flatten ++ post) es xs.length pre.length = some () := by
  induction xs generalizing pre with
  | nil => rfl
  | cons x xs ih =>
    rw [List.length_cons, warmup]
    have hx := h x (by simp)
    have e : pre ++ (x :: xs).flatten ++ post = pre ++ x ++ (xs.flatten ++ post) := by simp
    have hr := rdBytes_eq e
    rw [hx] at hr
    rw [hr, bind_pure_some]
    have := ih (pre ++ x) (fun y hy => h y (by simp [hy]))
    rw [List.length_append, hx] at this
    rw [← this]; simp

theorem loadElems_eq (pre post : List Byte) (es : Nat) (xs : List (List Byte)) (h : ∀ x ∈ xs, x.length = es) :
    loadElems (pre ++ xs.flatten ++ post) es xs.length pre.length = some xs := by
  induction xs generalizing pre with
  | nil => rfl
  | cons x xs ih =>
    rw [List.length_cons, loadElems]
    have hx := h x (by simp)
    have e : pre ++ (x :: xs).flatten ++ post = pre ++ x ++ (xs.flatten ++ post) := by simp
    have hr := rdBytes_eq e
    rw [hx] at hr
    rw [hr, bind_pure_some]
    have := ih (pre ++ x) (fun y hy => h y (by simp [hy]))
    rw [List.length_append, hx] at this
    have e2 : pre ++ (x :: xs).flatten ++ post = pre ++ x ++ xs.flatten ++ post := by simp
    rw [e2, this, bind_pure_some]; rfl

theorem mapV_eq (fl : Word) (v : Val) (h : v.WF) (pre post : List Byte) :
    mapV fl (pre ++ v.flat ++ post) v.lay pre.length = some (v.place pre.length, pre.length + v.flat.length) := by
  induction v generalizing pre post with
  | done => simp [mapV, Val.lay, Val.place, Val.flat]
  | pod n bs rest ih =>
    simp only [Val.lay, Val.place, Val.flat]
    rw [mapV]
    have e : pre ++ (bs ++ rest.flat) ++ post = pre ++ bs ++ (rest.flat ++ post) := by simp
    rw [rdBytes_eq e, bind_pure_some]
    have := ih h (pre ++ bs) post
    rw [List.length_append] at this
    have e2 : pre ++ (bs ++ rest.flat) ++ post = pre ++ bs ++ rest.flat ++ post := by simp
    rw [e2, this, bind_pure_some]
    simp [Nat.add_assoc]
  | vec n es xs rest ih =>
    obtain ⟨h1, h2, h2', h3⟩ := h
    have hl := flatten_length h1
    simp only [Val.lay, Val.place, Val.flat]
    rw [mapV]
    have e : pre ++ (leEnc 8 xs.length ++ xs.flatten ++ rest.flat) ++ post = pre ++ leEnc 8 xs.length ++ (xs.flatten ++ rest.flat ++ post) := by simp
    have hr := rdBytes_eq e
    rw [leEnc_length] at hr
    rw [hr, bind_pure_some]
    simp only []
    rw [leDec_leEnc, Nat.mod_eq_of_lt (a := xs.length) (by simpa using h2), Nat.mod_eq_of_lt h2']
    have hw : warmupIf fl (pre ++ (leEnc 8 xs.length ++ xs.flatten ++ rest.flat) ++ post) es xs.length (pre.length + 8) = some () := by
      unfold warmupIf
      split
      · have := warmup_eq (pre ++ leEnc 8 xs.length) (rest.flat ++ post) es xs h1
        rw [List.length_append, leEnc_length] at this
        rw [← this]; simp
      · rfl
    rw [hw, bind_pure_some]
    have := ih h3 (pre ++ leEnc 8 xs.length ++ xs.flatten) post
    rw [List.length_append, List.length_append, leEnc_length, hl] at this
    have e2 : pre ++ (leEnc 8 xs.length ++ xs.flatten ++ rest.flat) ++ post = pre ++ leEnc 8 xs.length ++ xs.flatten ++ rest.flat ++ post := by simp
    rw [e2, this, bind_pure_some]
    simp [leEnc_length, hl, Nat.add_assoc]
  | obj n inner rest ih1 ih2 =>
    simp only [Val.lay, Val.place, Val.flat]
    rw [mapV]
    have e : pre ++ (inner.flat ++ rest.flat) ++ post = pre ++ inner.flat ++ (rest.flat ++ post) := by simp
    rw [e, ih1 h.1 pre (rest.flat ++ post), bind_pure_some]
    have := ih2 h.2 (pre ++ inner.flat) post
    rw [List.length_append] at this
    have e2 : pre ++ inner.flat ++ (rest.flat ++ post) = pre ++ inner.flat ++ rest.flat ++ post := by simp
    simp only []
    rw [e2, this, bind_pure_some]
    simp [Nat.add_assoc]

theorem load_place (v : Val) (h : v.WF) (pre post : List Byte) : load (pre ++ v.flat ++ post) (v.place pre.length) = some v := by
  induction v generalizing pre post with
  | done => rfl
  | pod n bs rest ih =>
    simp only [Val.place, Val.flat]
    rw [load]
    have := ih h (pre ++ bs) post
    rw [List.length_append] at this
    have e2 : pre ++ (bs ++ rest.flat) ++ post = pre ++ bs ++ rest.flat ++ post := by simp
    rw [e2, this, bind_pure_some]; rfl
  | vec n es xs rest ih =>
    obtain ⟨h1, h2, h2', h3⟩ := h
    have hl := flatten_length h1
    simp only [Val.place, Val.flat]
    rw [load]
    have hw : loadElems (pre ++ (leEnc 8 xs.length ++ xs.flatten ++ rest.flat) ++ post) es xs.length (pre.length + 8) = some xs := by
      have := loadElems_eq (pre ++ leEnc 8 xs.length) (rest.flat ++ post) es xs h1
      rw [List.length_append, leEnc_length] at this
      rw [← this]; simp
    rw [hw, bind_pure_some]
    have := ih h3 (pre ++ leEnc 8 xs.length ++ xs.flatten) post
    rw [List.length_append, List.length_append, leEnc_length, hl] at this
    have e2 : pre ++ (leEnc 8 xs.length ++ xs.flatten ++ rest.flat) ++ post = pre ++ leEnc 8 xs.length ++ xs.flatten ++ rest.flat ++ post := by simp
    rw [e2, this, bind_pure_some]; rfl
  | obj n inner rest ih1 ih2 =>
    simp only [Val.place, Val.flat]
    rw [load]
    have e : pre ++ (inner.flat ++ rest.flat) ++ post = pre ++ inner.flat ++ (rest.flat ++ post) := by simp
    rw [e, ih1 h.1 pre (rest.flat ++ post), bind_pure_some]
    have := ih2 h.2 (pre ++ inner.flat) post
    rw [List.length_append] at this
    have e2 : pre ++ inner.flat ++ (rest.flat ++ post) = pre ++ inner.flat ++ rest.flat ++ post := by simp
    rw [e2, this, bind_pure_some]; rfl

/-! truncation -/

theorem bind_some {α β : Type} {x : Option α} {f : α → Option β} {b : β} (h : (x >>= f) = some b) : ∃ a, x = some a ∧ f a = some b :=
  Option.bind_eq_some_iff.1 h

theorem warmup_mono {img : List Byte} (t : List Byte) {es n p : Nat} (h : warmup img es n p = some ()) : warmup (img ++ t) es n p = some () := by
  induction n generalizing p with
  | zero => rfl
  | succ n ih =>
    rw [warmup] at h ⊢
    obtain ⟨a, h1, h2⟩ := bind_some h
    rw [rdBytes_mono t h1, bind_pure_some, ih h2]

theorem warmupIf_mono {fl : Word} {img : List Byte} (t : List Byte) {es n p : Nat} (h : warmupIf fl img es n p = some ()) : warmupIf fl (img ++ t) es n p = some () := by
  unfold warmupIf at *
  split
  · rename_i hc; rw [if_pos hc] at h; exact warmup_mono t h
  · rfl

/-- what is mapped successfully does not change when the image is extended -/
theorem mapV_mono {fl : Word} {img : List Byte} (t : List Byte) (l : Lay) (pos : Nat) (r : MVal × Nat) (h : mapV fl img l pos = some r) :
    mapV fl (img ++ t) l pos = some r := by
  induction l generalizing pos r with
  | done => exact h
  | pod n k rest ih =>
    rw [mapV] at h ⊢
    obtain ⟨bs, h1, h2⟩ := bind_some h
    obtain ⟨⟨a, p⟩, h3, h4⟩ := bind_some h2
    rw [rdBytes_mono t h1, bind_pure_some, ih _ _ h3, bind_pure_some]; exact h4
  | vec n es rest ih =>
    rw [mapV] at h ⊢
    obtain ⟨bs, h1, h2⟩ := bind_some h
    simp only [] at h2
    obtain ⟨u, h5, h6⟩ := bind_some h2
    obtain ⟨⟨a, p⟩, h3, h4⟩ := bind_some h6
    rw [rdBytes_mono t h1, bind_pure_some]
    simp only []
    rw [warmupIf_mono t h5, bind_pure_some, ih _ _ h3, bind_pure_some]; exact h4
  | obj n inner rest ih1 ih2 =>
    rw [mapV] at h ⊢
    obtain ⟨⟨a, p⟩, h1, h2⟩ := bind_some h
    simp only [] at h2
    obtain ⟨⟨b, q⟩, h3, h4⟩ := bind_some h2
    rw [ih1 _ _ h1, bind_pure_some]
    simp only []
    rw [ih2 _ _ h3, bind_pure_some]; exact h4

theorem loadElems_le {img : List Byte} {es n p : Nat} {xs : List (List Byte)} (hp : p ≤ img.length) (h : loadElems img es n p = some xs) : p + n * es ≤ img.length := by
  induction n generalizing p xs with
  | zero => omega
  | succ n ih =>
    rw [loadElems] at h
    obtain ⟨b, h1, h2⟩ := bind_some h
    obtain ⟨r, h3, _⟩ := bind_some h2
    have := rdBytes_le h1
    have := ih (by omega) h3
    rw [Nat.succ_mul]; omega

/-- if every vector of a mapped object lies inside the image, so do all consumed bytes -/
theorem mapV_load_le {fl : Word} {img : List Byte} (l : Lay) (pos p : Nat) (m : MVal) (w : Val) (hp : pos ≤ img.length)
    (h : mapV fl img l pos = some (m, p)) (hl : load img m = some w) : p ≤ img.length := by
  induction l generalizing pos p m w with
  | done => rw [mapV] at h; cases h; exact hp
  | pod n k rest ih =>
    rw [mapV] at h
    obtain ⟨bs, h1, h2⟩ := bind_some h
    obtain ⟨⟨a, q⟩, h3, h4⟩ := bind_some h2
    cases h4
    rw [load] at hl
    obtain ⟨w', h5, _⟩ := bind_some hl
    exact ih _ _ _ _ (rdBytes_le h1) h3 h5
  | vec n es rest ih =>
    rw [mapV] at h
    obtain ⟨bs, h1, h2⟩ := bind_some h
    simp only [] at h2
    obtain ⟨u, _, h6⟩ := bind_some h2
    obtain ⟨⟨a, q⟩, h3, h4⟩ := bind_some h6
    cases h4
    rw [load] at hl
    obtain ⟨xs, h7, h8⟩ := bind_some hl
    obtain ⟨w', h5, _⟩ := bind_some h8
    exact ih _ _ _ _ (by
      have := loadElems_le (rdBytes_le h1) h7
      have := Nat.mod_le (leDec bs * es) (2^64)
      omega) h3 h5
  | obj n inner rest ih1 ih2 =>
    rw [mapV] at h
    obtain ⟨⟨a, q⟩, h1, h2⟩ := bind_some h
    simp only [] at h2
    obtain ⟨⟨b, q'⟩, h3, h4⟩ := bind_some h2
    cases h4
    rw [load] at hl
    obtain ⟨x, h5, h6⟩ := bind_some hl
    obtain ⟨y, h7, _⟩ := bind_some h6
    exact ih2 _ _ _ _ (ih1 _ _ _ _ hp h1 h5) h3 h7

/-! the codecs -/

structure Codec.Lawful {α : Type} (c : Codec α) : Prop where
  getPut : ∀ x r, c.fits x → c.get (c.put x r) = some (x, r)
  wf : ∀ x r, c.fits x → r.WF → (c.put x r).WF
  layEq : ∀ x r, c.fits x → (c.put x r).lay = c.lay r.lay

namespace Codec

theorem pod_lawful {α : Type} (name : String) (k : Nat) (enc : α → List Byte) (dec : List Byte → α) (fits : α → Prop)
    (hl : ∀ x, fits x → (enc x).length = k) (hd : ∀ x, fits x → dec (enc x) = x) : (pod name k enc dec fits).Lawful where
  getPut x r h := by simp only [pod]; rw [if_pos trivial, hd x h]
  wf x r _ hr := hr
  layEq x r h := by simp only [pod, Val.lay]; rw [hl x h]

theorem vec_lawful {α : Type} (name : String) (k : Nat) (hk : k ≤ 8) (enc : α → List Byte) (dec : List Byte → α) (fits : α → Prop)
    (hl : ∀ x, fits x → (enc x).length = k) (hd : ∀ x, fits x → dec (enc x) = x) : (vec name k enc dec fits).Lawful where
  getPut xs r h := by
    simp only [vec]; rw [if_pos trivial, List.map_map]
    congr 2
    have : ∀ x ∈ xs, (dec ∘ enc) x = id x := fun x hx => hd x (h.2 x hx)
    rw [List.map_congr_left this, List.map_id]
  wf xs r h hr := by
    refine ⟨fun x hx => ?_, by rw [List.length_map]; have := h.1; omega,
      by rw [List.length_map]; have := h.1; have := Nat.mul_le_mul_left xs.length hk; omega, hr⟩
    obtain ⟨y, hy, rfl⟩ := List.mem_map.1 hx
    exact hl y (h.2 y hy)
  layEq x r h := rfl

theorem seq_lawful {α β : Type} {c : Codec α} {d : Codec β} (hc : c.Lawful) (hd : d.Lawful) : (c ⊳ d).Lawful where
  getPut x r h := by
    simp only [seq]
    rw [hc.getPut x.1 _ h.1, bind_pure_some]
    simp only []
    rw [hd.getPut x.2 _ h.2, bind_pure_some]; rfl
  wf x r h hr := hc.wf _ _ h.1 (hd.wf _ _ h.2 hr)
  layEq x r h := by simp only [seq]; rw [hc.layEq _ _ h.1, hd.layEq _ _ h.2]

theorem obj_lawful {α : Type} (name : String) {c : Codec α} (hc : c.Lawful) : (obj name c).Lawful where
  getPut x r h := by simp only [obj]; rw [if_pos trivial, hc.getPut x _ h, Option.bind_some]; simp
  wf x r h hr := ⟨hc.wf x _ h trivial, hr⟩
  layEq x r h := by simp only [obj, Val.lay]; rw [hc.layEq x _ h]; rfl

theorem iso_lawful {α β : Type} {c : Codec α} {mk : α → β} {un : β → α} (hc : c.Lawful) (h : ∀ x, mk (un x) = x) : (iso c mk un).Lawful where
  getPut x r hx := by simp only [iso]; rw [hc.getPut _ _ hx]; simp [h]
  wf x r hx hr := hc.wf _ _ hx hr
  layEq x r hx := hc.layEq _ _ hx

theorem u64_lawful (n : String) : (u64 n).Lawful :=
  pod_lawful _ _ _ _ _ (fun x _ => leEnc_length 8 x) (fun x h => by rw [leDec_leEnc]; exact Nat.mod_eq_of_lt (by simpa using h))
theorem w64_lawful (n : String) : (w64 n).Lawful :=
  pod_lawful _ _ _ _ _ (fun x _ => leEnc_length 8 _) (fun x _ => by
    have := x.isLt
    rw [leDec_leEnc, Nat.mod_eq_of_lt (by simpa using this)]; simp)
theorem u8_lawful (n : String) : (u8 n).Lawful :=
  pod_lawful _ _ _ _ _ (fun x _ => leEnc_length 1 x) (fun x h => by rw [leDec_leEnc]; exact Nat.mod_eq_of_lt (by simpa using h))
theorem vu64_lawful (n : String) : (vu64 n).Lawful :=
  vec_lawful _ _ (by omega) _ _ _ (fun x _ => leEnc_length 8 x) (fun x h => by rw [leDec_leEnc]; exact Nat.mod_eq_of_lt (by simpa using h))
theorem vw64_lawful (n : String) : (vw64 n).Lawful :=
  vec_lawful _ _ (by omega) _ _ _ (fun x _ => leEnc_length 8 _) (fun x _ => by
    have := x.isLt
    rw [leDec_leEnc, Nat.mod_eq_of_lt (by simpa using this)]; simp)
theorem vu16_lawful (n : String) : (vu16 n).Lawful :=
  vec_lawful _ _ (by omega) _ _ _ (fun x _ => leEnc_length 2 x) (fun x h => by rw [leDec_leEnc]; exact Nat.mod_eq_of_lt (by simpa using h))
theorem vi16_lawful (n : String) : (vi16 n).Lawful :=
  vec_lawful _ _ (by omega) _ _ _ (fun x _ => leEnc_length 2 _) (fun x h => leDecS_leEncS 2 x (by omega) (by omega) (by omega))
theorem vi32_lawful (n : String) : (vi32 n).Lawful :=
  vec_lawful _ _ (by omega) _ _ _ (fun x _ => leEnc_length 4 _) (fun x h => leDecS_leEncS 4 x (by omega) (by omega) (by omega))
theorem vi64_lawful (n : String) : (vi64 n).Lawful :=
  vec_lawful _ _ (by omega) _ _ _ (fun x _ => leEnc_length 8 _) (fun x h => leDecS_leEncS 8 x (by omega) (by omega) (by omega))

theorem bitVector_lawful : bitVector.Lawful := iso_lawful (seq_lawful (u64_lawful _) (vw64_lawful _)) (fun _ => rfl)
theorem rsBitVector_lawful : rsBitVector.Lawful :=
  iso_lawful (seq_lawful bitVector_lawful (seq_lawful (vu64_lawful _) (seq_lawful (vu64_lawful _) (vu64_lawful _)))) (fun _ => rfl)
theorem bpVector_lawful : bpVector.Lawful :=
  iso_lawful (seq_lawful rsBitVector_lawful (seq_lawful (u64_lawful _) (seq_lawful (vi16_lawful _) (vi32_lawful _)))) (fun _ => rfl)
theorem darray_lawful : darray.Lawful :=
  iso_lawful (seq_lawful (u64_lawful _) (seq_lawful (vi64_lawful _) (seq_lawful (vu16_lawful _) (vu64_lawful _)))) (fun _ => rfl)
theorem darray64_lawful : darray64.Lawful :=
  iso_lawful (seq_lawful (u64_lawful _) (seq_lawful (obj_lawful _ bitVector_lawful) (seq_lawful (vu64_lawful _) (vu16_lawful _)))) (fun _ => rfl)
theorem eliasFano_lawful : eliasFano.Lawful :=
  iso_lawful (seq_lawful (w64_lawful _) (seq_lawful (obj_lawful _ bitVector_lawful) (seq_lawful (obj_lawful _ darray_lawful)
    (seq_lawful (obj_lawful _ darray_lawful) (seq_lawful (obj_lawful _ bitVector_lawful) (u8_lawful _)))))) (fun _ => rfl)
theorem efList_lawful : efList.Lawful := iso_lawful (obj_lawful _ eliasFano_lawful) (fun _ => rfl)
theorem efCompressedList_lawful : efCompressedList.Lawful :=
  iso_lawful (seq_lawful (obj_lawful _ eliasFano_lawful) (obj_lawful _ bitVector_lawful)) (fun _ => rfl)
theorem gammaVector_lawful : gammaVector.Lawful :=
  iso_lawful (seq_lawful (obj_lawful _ darray64_lawful) (obj_lawful _ bitVector_lawful)) (fun _ => rfl)
theorem gammaBitVector_lawful : gammaBitVector.Lawful :=
  iso_lawful (seq_lawful (obj_lawful _ darray64_lawful) (obj_lawful _ bitVector_lawful)) (fun _ => rfl)
theorem cartesianTree_lawful : cartesianTree.Lawful := iso_lawful (obj_lawful _ bpVector_lawful) (fun _ => rfl)
theorem nibbleVector_lawful : nibbleVector.Lawful :=
  iso_lawful (seq_lawful (u64_lawful _) (vec_lawful _ _ (by omega) _ _ _ (fun _ _ => rfl) (fun _ _ => rfl))) (fun _ => rfl)
theorem topK_lawful {α : Type} {c : Codec (List α)} (hc : c.Lawful) : (topK c).Lawful :=
  iso_lawful (seq_lawful hc (obj_lawful _ cartesianTree_lawful)) (fun _ => rfl)

end Codec
end Succinct.Mapper
