import Verif.Model.ByteOrder
import Verif.Lemmas.MapperProps
import Verif.Lemmas.BitVector
import Verif.Spec.ByteOrder

namespace Succinct.ByteOrder
open RSBitVector (bind_pure_some)
open Mapper Spec

/-! ## the little-endian machine is the one of the other modules -/

theorem byteAt_little (bits : List Word) (i : Nat) : byteAt false bits i = BitVector.byteAt bits i := rfl
theorem getWord56_little (v : BitVector) (pos : Nat) : getWord56 false v pos = v.getWord56 pos := rfl

theorem freezeV_little (v : Val) (o : Out) : freezeV false v o = Mapper.freezeV v o := by
  induction v generalizing o with
  | done => rfl
  | pod n bs rest ih => rw [freezeV, Mapper.freezeV, ih]
  | vec n es xs rest ih => rw [freezeV, Mapper.freezeV]; simp only [ih]; rfl
  | obj n inner rest ih1 ih2 => rw [freezeV, Mapper.freezeV, ih1]; simp only [ih2]

theorem mapV_little (fl : Word) (img : List Byte) (l : Lay) (pos : Nat) : mapV false fl img l pos = Mapper.mapV fl img l pos := by
  induction l generalizing pos with
  | done => rfl
  | pod n k rest ih => rw [mapV, Mapper.mapV]; simp only [ih]
  | vec n es rest ih => rw [mapV, Mapper.mapV]; simp only [ih]; rfl
  | obj n inner rest ih1 ih2 => rw [mapV, Mapper.mapV, ih1]; simp only [ih2]

/-! ## `get_word56` on a big-endian machine -/

theorem byteAt_big {v : BitVector} {l : List Bool} (h : Rep v l) (i : Nat) (hi : i < 8 * v.bits.length) :
    ∃ b, byteAt true v.bits i = some b ∧ ∀ t, t < 8 → b.getLsbD t = bitFn l (64*(i/8) + 8*(7 - i%8) + t) := by
  unfold byteAt
  rw [rd_eq _ _ (by omega)]
  refine ⟨_, rfl, ?_⟩
  intro t ht
  rw [BitVec.getLsbD_extractLsb', getElem_getLsbD _ _ _ (by omega) (by simp; omega), h.repr.bit]
  simp only [ht, decide_true, Bool.true_and]
  congr 1; simp; omega

theorem load64_big {v : BitVector} {l : List Bool} (h : Rep v l) (i : Nat) (hi : i + 8 ≤ 8 * v.bits.length) :
    ∃ x, load64 true v.bits i = some x ∧ ∀ t, t < 64 →
      x.getLsbD t = bitFn l (64*((i + (7 - t/8))/8) + 8*(7 - (i + (7 - t/8))%8) + t%8) := by
  obtain ⟨b0, e0, h0⟩ := byteAt_big h i (by omega)
  obtain ⟨b1, e1, h1⟩ := byteAt_big h (i+1) (by omega)
  obtain ⟨b2, e2, h2⟩ := byteAt_big h (i+2) (by omega)
  obtain ⟨b3, e3, h3⟩ := byteAt_big h (i+3) (by omega)
  obtain ⟨b4, e4, h4⟩ := byteAt_big h (i+4) (by omega)
  obtain ⟨b5, e5, h5⟩ := byteAt_big h (i+5) (by omega)
  obtain ⟨b6, e6, h6⟩ := byteAt_big h (i+6) (by omega)
  obtain ⟨b7, e7, h7⟩ := byteAt_big h (i+7) (by omega)
  unfold load64
  rw [e0, e1, e2, e3, e4, e5, e6, e7]
  refine ⟨_, rfl, ?_⟩
  intro t ht
  simp only [BitVec.getLsbD_append, if_true]
  split
  · rw [h7 _ (by omega)]; congr 1; omega
  split
  · rw [h6 _ (by omega)]; congr 1; omega
  split
  · rw [h5 _ (by omega)]; congr 1; omega
  split
  · rw [h4 _ (by omega)]; congr 1; omega
  split
  · rw [h3 _ (by omega)]; congr 1; omega
  split
  · rw [h2 _ (by omega)]; congr 1; omega
  split
  · rw [h1 _ (by omega)]; congr 1; omega
  · rw [h0 _ (by omega)]; congr 1; omega

/-- which bit of the sequence bit `t` of the eight bytes at byte `i` is -/
theorem getWord56_big {v : BitVector} {l : List Bool} (h : Rep v l) (pos : Nat) (hp : pos/8 + 8 ≤ 8 * v.bits.length) :
    ∃ x, getWord56 true v pos = some x ∧ ∀ i, i < 56 → x.getLsbD i =
      bitFn l (if pos % 8 + i < 8 * (pos / 8 % 8) then 64 * (pos / 64 + 2) - 8 * (pos / 8 % 8) + (pos % 8 + i)
        else 64 * (pos / 64) + (pos % 8 + i) - 8 * (pos / 8 % 8)) := by
  obtain ⟨x, e, hx⟩ := load64_big h (pos/8) hp
  unfold getWord56
  rw [e, Option.bind_eq_bind, Option.bind_some, shr_eq _ _ (by omega)]
  refine ⟨_, rfl, ?_⟩
  intro i hi
  rw [BitVec.getLsbD_ushiftRight, hx _ (by omega)]
  congr 1
  split <;> omega

/-! ## images -/

theorem enc_length (big : Bool) (k x : Nat) : (enc big k x).length = k := by
  unfold enc; split <;> simp [leEnc_length]

theorem dec_enc (big : Bool) (k x : Nat) : dec big (enc big k x) = x % 256^k := by
  unfold dec enc; cases big <;> simp [leDec_leEnc]

theorem inMemory_twice (big : Bool) (v : Val) : inMemory big (inMemory big v) = v := by
  cases big
  · induction v with
    | done => rfl
    | pod n bs rest ih => simp only [inMemory, ih]; simp
    | vec n es xs rest ih => simp only [inMemory, ih]; simp
    | obj n inner rest ih1 ih2 => simp only [inMemory, ih1, ih2]
  · induction v with
    | done => rfl
    | pod n bs rest ih => simp only [inMemory, ih]; simp
    | vec n es xs rest ih =>
      simp only [inMemory, ih]
      simp only [if_true, List.map_map]
      rw [show ((fun x : List Byte => x.reverse) ∘ fun x => x.reverse) = id from by funext x; simp]
      simp
    | obj n inner rest ih1 ih2 => simp only [inMemory, ih1, ih2]

theorem flip_length {α : Type} (big : Bool) (l : List α) : (if big then l.reverse else l).length = l.length := by split <;> simp

theorem inMemory_wf (big : Bool) (v : Val) (h : v.WF) : (inMemory big v).WF := by
  induction v with
  | done => trivial
  | pod n bs rest ih => exact ih h
  | vec n es xs rest ih =>
    obtain ⟨h1, h2, h3, h4⟩ := h
    refine ⟨?_, by simpa using h2, by simpa using h3, ih h4⟩
    intro x hx
    obtain ⟨y, hy, rfl⟩ := List.mem_map.1 hx
    rw [flip_length]; exact h1 y hy
  | obj n inner rest ih1 ih2 => exact ⟨ih1 h.1, ih2 h.2⟩

theorem inMemory_lay (big : Bool) (v : Val) : (inMemory big v).lay = v.lay := by
  induction v with
  | done => rfl
  | pod n bs rest ih => simp only [inMemory, Val.lay, ih, flip_length]
  | vec n es xs rest ih => simp only [inMemory, Val.lay, ih]
  | obj n inner rest ih1 ih2 => simp only [inMemory, Val.lay, ih1, ih2]

/-- the bytes of the fields, one after the other -/
def flat (big : Bool) : Val → List Byte
  | .done => []
  | .pod _ bs rest => bs ++ flat big rest
  | .vec _ _ xs rest => enc big 8 xs.length ++ xs.flatten ++ flat big rest
  | .obj _ inner rest => flat big inner ++ flat big rest

theorem flat_length (big : Bool) (v : Val) : (flat big v).length = v.flat.length := by
  induction v with
  | done => rfl
  | pod n bs rest ih => simp [flat, Val.flat, ih]
  | vec n es xs rest ih => simp only [flat, Val.flat, List.length_append, ih, enc_length, leEnc_length]
  | obj n inner rest ih1 ih2 => simp [flat, Val.flat, ih1, ih2]

theorem freezeV_eq (big : Bool) (v : Val) (h : v.WF) (o : Out) :
    freezeV big v o = some ⟨o.bytes ++ flat big v, o.written + (flat big v).length⟩ := by
  induction v generalizing o with
  | done => simp [freezeV, flat]
  | pod n bs rest ih =>
    rw [freezeV, ih h]; simp [Out.put, flat, Nat.add_assoc]
  | vec n es xs rest ih =>
    obtain ⟨h1, h2, h2', h3⟩ := h
    have hl := flatten_length h1
    have hr : rdBytes xs.flatten 0 (xs.length * es) = some xs.flatten := by
      have := rdBytes_eq (mem := xs.flatten) (pre := []) (x := xs.flatten) (post := []) (by simp)
      rwa [hl] at this
    rw [freezeV]
    simp only [Nat.mod_eq_of_lt h2']
    rw [hr, bind_pure_some, ih h3]
    simp [Out.put, flat, enc_length, hl, Nat.add_assoc]
  | obj n inner rest ih1 ih2 =>
    rw [freezeV, ih1 h.1, bind_pure_some, ih2 h.2]; simp [flat, Nat.add_assoc]

theorem mapV_eq (big : Bool) (fl : Word) (v : Val) (h : v.WF) (pre post : List Byte) :
    mapV big fl (pre ++ flat big v ++ post) v.lay pre.length = some (v.place pre.length, pre.length + (flat big v).length) := by
  induction v generalizing pre post with
  | done => simp [mapV, Val.lay, Val.place, flat]
  | pod n bs rest ih =>
    simp only [Val.lay, Val.place, flat]
    rw [mapV]
    have e : pre ++ (bs ++ flat big rest) ++ post = pre ++ bs ++ (flat big rest ++ post) := by simp
    rw [rdBytes_eq e, bind_pure_some]
    have := ih h (pre ++ bs) post
    rw [List.length_append] at this
    have e2 : pre ++ (bs ++ flat big rest) ++ post = pre ++ bs ++ flat big rest ++ post := by simp
    rw [e2, this, bind_pure_some]
    simp [Nat.add_assoc]
  | vec n es xs rest ih =>
    obtain ⟨h1, h2, h2', h3⟩ := h
    have hl := flatten_length h1
    simp only [Val.lay, Val.place, flat]
    rw [mapV]
    have e : pre ++ (enc big 8 xs.length ++ xs.flatten ++ flat big rest) ++ post = pre ++ enc big 8 xs.length ++ (xs.flatten ++ flat big rest ++ post) := by simp
    have hr := rdBytes_eq e
    rw [enc_length] at hr
    rw [hr, bind_pure_some]
    simp only []
    rw [dec_enc, Nat.mod_eq_of_lt (a := xs.length) (by simpa using h2), Nat.mod_eq_of_lt h2']
    have hw : warmupIf fl (pre ++ (enc big 8 xs.length ++ xs.flatten ++ flat big rest) ++ post) es xs.length (pre.length + 8) = some () := by
      unfold warmupIf
      split
      · have := warmup_eq (pre ++ enc big 8 xs.length) (flat big rest ++ post) es xs h1
        rw [List.length_append, enc_length] at this
        rw [← this]; simp
      · rfl
    rw [hw, bind_pure_some]
    have := ih h3 (pre ++ enc big 8 xs.length ++ xs.flatten) post
    rw [List.length_append, List.length_append, enc_length, hl] at this
    have e2 : pre ++ (enc big 8 xs.length ++ xs.flatten ++ flat big rest) ++ post = pre ++ enc big 8 xs.length ++ xs.flatten ++ flat big rest ++ post := by simp
    rw [e2, this, bind_pure_some]
    simp [enc_length, hl, Nat.add_assoc]
  | obj n inner rest ih1 ih2 =>
    simp only [Val.lay, Val.place, flat]
    rw [mapV]
    have e : pre ++ (flat big inner ++ flat big rest) ++ post = pre ++ flat big inner ++ (flat big rest ++ post) := by simp
    rw [e, ih1 h.1 pre (flat big rest ++ post), bind_pure_some]
    have := ih2 h.2 (pre ++ flat big inner) post
    rw [List.length_append] at this
    have e2 : pre ++ flat big inner ++ (flat big rest ++ post) = pre ++ flat big inner ++ flat big rest ++ post := by simp
    simp only []
    rw [e2, this, bind_pure_some]
    simp [flat_length, Nat.add_assoc]

theorem load_place (big : Bool) (v : Val) (h : v.WF) (pre post : List Byte) : load (pre ++ flat big v ++ post) (v.place pre.length) = some v := by
  induction v generalizing pre post with
  | done => rfl
  | pod n bs rest ih =>
    simp only [Val.place, flat]
    rw [load]
    have := ih h (pre ++ bs) post
    rw [List.length_append] at this
    have e2 : pre ++ (bs ++ flat big rest) ++ post = pre ++ bs ++ flat big rest ++ post := by simp
    rw [e2, this, bind_pure_some]; rfl
  | vec n es xs rest ih =>
    obtain ⟨h1, h2, h2', h3⟩ := h
    have hl := flatten_length h1
    simp only [Val.place, flat]
    rw [load]
    have hw : loadElems (pre ++ (enc big 8 xs.length ++ xs.flatten ++ flat big rest) ++ post) es xs.length (pre.length + 8) = some xs := by
      have := loadElems_eq (pre ++ enc big 8 xs.length) (flat big rest ++ post) es xs h1
      rw [List.length_append, enc_length] at this
      rw [← this]; simp
    rw [hw, bind_pure_some]
    have := ih h3 (pre ++ enc big 8 xs.length ++ xs.flatten) post
    rw [List.length_append, List.length_append, enc_length, hl] at this
    have e2 : pre ++ (enc big 8 xs.length ++ xs.flatten ++ flat big rest) ++ post = pre ++ enc big 8 xs.length ++ xs.flatten ++ flat big rest ++ post := by simp
    rw [e2, this, bind_pure_some]; rfl
  | obj n inner rest ih1 ih2 =>
    simp only [Val.place, flat]
    rw [load]
    have e : pre ++ (flat big inner ++ flat big rest) ++ post = pre ++ flat big inner ++ (flat big rest ++ post) := by simp
    rw [e, ih1 h.1 pre (flat big rest ++ post), bind_pure_some]
    have := ih2 h.2 (pre ++ flat big inner) post
    rw [List.length_append, flat_length big inner] at this
    have e2 : pre ++ flat big inner ++ (flat big rest ++ post) = pre ++ flat big inner ++ flat big rest ++ post := by simp
    rw [e2, this, bind_pure_some]; rfl

/-! ## images of the other byte order -/

theorem swapped_small (big : Bool) (n : Nat) (hn : n < 2^32) (h : dec (!big) (enc big 8 n) < 2^32) : n = 0 := by
  have : leDec (leEnc 8 n).reverse < 2^32 := by
    cases big <;> simpa [dec, enc] using h
  simp only [leEnc, List.reverse_cons, List.reverse_nil, List.nil_append, List.cons_append, leDec, BitVec.toNat_ofNat] at this
  omega

theorem swapped_zero (big : Bool) : dec (!big) (enc big 8 0) = 0 := by cases big <;> rfl

theorem mapV_foreign (big : Bool) (fl : Word) (v : Val) (hw : v.WF) (hn : ∀ n ∈ lens v, n < 2^32) (he : layPos v.lay = true) (pre post : List Byte)
    (himg : (pre ++ flat big v ++ post).length < 2^32) (m : MVal) (p : Nat) (w : Val)
    (hm : mapV (!big) fl (pre ++ flat big v ++ post) v.lay pre.length = some (m, p)) (hl : load (pre ++ flat big v ++ post) m = some w) :
    (∀ n ∈ lens v, n = 0) ∧ p = pre.length + (flat big v).length := by
  induction v generalizing pre post m p w with
  | done => simp only [mapV, Val.lay] at hm; cases hm; simp [lens, flat]
  | pod n bs rest ih =>
    simp only [Val.lay, flat] at hm hl himg ⊢
    rw [mapV] at hm
    obtain ⟨b, h1, hm⟩ := bind_some hm
    obtain ⟨⟨a, q⟩, h2, hm⟩ := bind_some hm
    cases hm
    rw [load] at hl
    obtain ⟨w', h5, _⟩ := bind_some hl
    have e2 : pre ++ (bs ++ flat big rest) ++ post = pre ++ bs ++ flat big rest ++ post := by simp
    rw [e2] at h2 h5 himg
    rw [← List.length_append] at h2
    have := ih hw hn he (pre ++ bs) post himg _ _ w' h2 h5
    refine ⟨this.1, ?_⟩
    rw [this.2]; simp [Nat.add_assoc]
  | vec n es xs rest ih =>
    obtain ⟨g1, g2, g3, g4⟩ := hw
    simp only [Val.lay, layPos, Bool.and_eq_true, decide_eq_true_eq] at he
    obtain ⟨he1, he2⟩ := he
    simp only [Val.lay, flat] at hm hl himg ⊢
    rw [mapV] at hm
    have e : pre ++ (enc big 8 xs.length ++ xs.flatten ++ flat big rest) ++ post = pre ++ enc big 8 xs.length ++ (xs.flatten ++ flat big rest ++ post) := by simp
    have hr := rdBytes_eq e
    rw [enc_length] at hr
    rw [hr, bind_pure_some] at hm
    simp only [] at hm
    obtain ⟨u, _, hm⟩ := bind_some hm
    obtain ⟨⟨a, q⟩, h2, hm⟩ := bind_some hm
    cases hm
    rw [load] at hl
    obtain ⟨ys, h7, hl⟩ := bind_some hl
    obtain ⟨w', h5, _⟩ := bind_some hl
    have h8 := loadElems_le (rdBytes_le hr) h7
    have h9 : dec (!big) (enc big 8 xs.length) ≤ dec (!big) (enc big 8 xs.length) * es := Nat.le_mul_of_pos_right _ he1
    have hx : xs.length = 0 := swapped_small big _ (hn _ (by simp [lens])) (by omega)
    have hxs : xs = [] := List.eq_nil_of_length_eq_zero hx
    subst hxs
    simp only [List.length_nil, swapped_zero, Nat.zero_mul, Nat.zero_mod, Nat.add_zero, List.flatten_nil, List.append_nil] at h2 h5 himg ⊢
    have e2 : pre ++ (enc big 8 0 ++ flat big rest) ++ post = pre ++ enc big 8 0 ++ flat big rest ++ post := by simp
    rw [e2] at h2 h5 himg
    rw [show pre.length + 8 = (pre ++ enc big 8 0).length by simp [enc_length]] at h2
    have := ih g4 (fun n hn' => hn n (by simp [lens, hn'])) he2 (pre ++ enc big 8 0) post himg _ _ w' h2 h5
    refine ⟨?_, ?_⟩
    · intro k hk
      simp only [lens, List.length_nil, List.mem_cons] at hk
      rcases hk with rfl | hk
      · rfl
      · exact this.1 k hk
    · rw [this.2]; simp [Nat.add_assoc]
  | obj n inner rest ih1 ih2 =>
    simp only [Val.lay, layPos, Bool.and_eq_true] at he
    simp only [Val.lay, flat] at hm hl himg ⊢
    rw [mapV] at hm
    obtain ⟨⟨a, q⟩, h1, hm⟩ := bind_some hm
    dsimp only at hm
    obtain ⟨⟨b, q'⟩, h2, hm⟩ := bind_some hm
    obtain ⟨rfl, rfl⟩ := Prod.mk.inj (Option.some.inj hm)
    rw [load] at hl
    obtain ⟨x, h5, hl⟩ := bind_some hl
    obtain ⟨y, h6, _⟩ := bind_some hl
    have e : pre ++ (flat big inner ++ flat big rest) ++ post = pre ++ flat big inner ++ (flat big rest ++ post) := by simp
    have e2 : pre ++ (flat big inner ++ flat big rest) ++ post = pre ++ flat big inner ++ flat big rest ++ post := by simp
    have r1 := ih1 hw.1 (fun k hk => hn k (by simp [lens, hk])) he.1 pre (flat big rest ++ post) (by rw [← e]; exact himg) a q x (by rw [← e]; exact h1)
      (by rw [← e]; exact h5)
    have r2 := ih2 hw.2 (fun k hk => hn k (by simp [lens, hk])) he.2 (pre ++ flat big inner) post (by rw [← e2]; exact himg) b q' y
      (by rw [← e2, List.length_append, ← r1.2]; exact h2) (by rw [← e2]; exact h6)
    refine ⟨?_, ?_⟩
    · intro k hk
      simp only [lens, List.mem_append] at hk
      rcases hk with hk | hk
      · exact r1.1 k hk
      · exact r2.1 k hk
    · rw [r2.2]; simp [Nat.add_assoc]

theorem lens_le (v : Val) (hw : v.WF) (he : layPos v.lay = true) (n : Nat) (hn : n ∈ lens v) : n ≤ v.flat.length := by
  induction v with
  | done => simp [lens] at hn
  | pod k bs rest ih => have := ih hw he hn; simp only [Val.flat, List.length_append]; omega
  | vec k es xs rest ih =>
    obtain ⟨g1, g2, g3, g4⟩ := hw
    simp only [Val.lay, layPos, Bool.and_eq_true, decide_eq_true_eq] at he
    simp only [Val.flat, List.length_append, flatten_length g1]
    have h9 : xs.length ≤ xs.length * es := Nat.le_mul_of_pos_right _ he.1
    simp only [lens, List.mem_cons] at hn
    rcases hn with rfl | hn
    · omega
    · have := ih g4 he.2 hn; omega
  | obj k inner rest ih1 ih2 =>
    simp only [Val.lay, layPos, Bool.and_eq_true] at he
    simp only [Val.flat, List.length_append]
    simp only [lens, List.mem_append] at hn
    rcases hn with hn | hn
    · have := ih1 hw.1 he.1 hn; omega
    · have := ih2 hw.2 he.2 hn; omega

theorem lens_inMemory (big : Bool) (v : Val) : lens (inMemory big v) = lens v := by
  induction v with
  | done => rfl
  | pod k bs rest ih => exact ih
  | vec k es xs rest ih => simp [inMemory, lens, ih]
  | obj k inner rest ih1 ih2 => simp [inMemory, lens, ih1, ih2]

end Succinct.ByteOrder
