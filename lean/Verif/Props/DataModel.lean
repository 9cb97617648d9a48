import Verif.Lemmas.DataModel
import Verif.Props.Image

/-! # C117: freezing and mapping where `long` or `size_t` has 32 bits -/
namespace Succinct
open Mapper Spec
open RSBitVector (bind_pure_some)

/-- the number of bytes of the elements of each vector of an object -/
def Spec.vectorBytes : Val → List Nat
  | .done => []
  | .pod _ _ rest => vectorBytes rest
  | .vec _ es xs rest => xs.length * es :: vectorBytes rest
  | .obj _ inner rest => vectorBytes inner ++ vectorBytes rest

theorem vectorBytes_eq (v : Val) (h : v.WF) : vectorBytes v = v.vecs := by
  induction v with
  | done => rfl
  | pod n bs rest ih => rw [vectorBytes, Val.vecs, ih h]
  | vec n es xs rest ih => rw [vectorBytes, Val.vecs, ih h.2.2.2, flatten_length h.1]
  | obj n inner rest ih1 ih2 => rw [vectorBytes, Val.vecs, ih1 h.1, ih2 h.2]

/-- what `freeze` does with an object where `long` has 32 bits -/
structure Spec.Long32 {α : Type} (c : Codec α) : Prop where
  /-- all is well if every vector takes less than 2 GB -/
  same : ∀ x, c.fits x → ∀ (name : String) (flags : Nat), (∀ n ∈ vectorBytes (top c name x), n < 2^31) →
    freezeLong32 (top c name x) flags = freeze (top c name x) flags
  /-- `write` gets a negative count just if the number of bytes of some vector, modulo 4 GB, is 2 GB or more -/
  negative : ∀ x, c.fits x → ∀ (name : String) (flags : Nat),
    (freezeLong32 (top c name x) flags = none ↔ ∃ n ∈ vectorBytes (top c name x), 2^31 ≤ n % 2^32)
  /-- otherwise `freeze` returns the size of the complete image, but of every vector only as many bytes are written as its size is
  modulo 4 GB -/
  short : ∀ x, c.fits x → ∀ (name : String) (flags : Nat) (out full : Out), freezeLong32 (top c name x) flags = some out →
    freeze (top c name x) flags = some full →
    out.written = full.bytes.length ∧ out.bytes.length + ((vectorBytes (top c name x)).map fun n => n / 2^32 * 2^32).sum = full.bytes.length
  /-- if a vector of 4 GB or more is among them, the file never gives the object back -/
  lost : ∀ x, c.fits x → ∀ (name : String) (flags : Nat) (out : Out), freezeLong32 (top c name x) flags = some out →
    (∃ n ∈ vectorBytes (top c name x), 2^32 ≤ n) → out.bytes.length < 2^60 → ∀ (mflags : Word) (m : MVal) (n : Nat) (y : Val),
      map (topLay c name) out.bytes mflags = some (m, n) → load out.bytes m = some y → (Codec.obj name c).get y ≠ some (x, .done)

theorem lost_pos {ns : List Nat} (h : ∃ n ∈ ns, 2^32 ≤ n) : 0 < (ns.map fun n => n / 2^32 * 2^32).sum := by
  obtain ⟨n, h1, h2⟩ := h
  induction ns with
  | nil => simp at h1
  | cons k t ih =>
    rw [List.map_cons, List.sum_cons]
    rcases List.mem_cons.1 h1 with rfl | h1
    · omega
    · have := ih h1; omega

/-- **C117** for any class whose fields are PODs, vectors and such classes -/
theorem C117_long {α : Type} {c : Codec α} (hc : c.Lawful) (hi : MapsImages c) : Long32 c := by
  have short : ∀ x, c.fits x → ∀ (name : String) (flags : Nat) (out full : Out), freezeLong32 (top c name x) flags = some out →
      freeze (top c name x) flags = some full →
      out.written = full.bytes.length ∧ out.bytes.length + ((vectorBytes (top c name x)).map fun n => n / 2^32 * 2^32).sum = full.bytes.length := by
    intro x hx name flags out full e1 e2
    have hw := hc.top_wf hx name
    rw [freeze_top hc hx] at e2
    cases e2
    by_cases hn : ∃ n ∈ (top c name x).vecs, 2^31 ≤ n % 2^32
    · rw [freezeLong32, freezeVL_none _ hw hn] at e1; cases e1
    · obtain ⟨bs, f1, f2⟩ := freezeVL_some _ hw (fun n h => by
        by_cases h' : n % 2^32 < 2^31
        · exact h'
        · exact absurd ⟨n, h, by omega⟩ hn) (Out.put ⟨[], 0⟩ (leEnc 8 flags) 8)
      rw [freezeLong32, f1] at e1
      cases e1
      rw [vectorBytes_eq _ hw]
      unfold Mapper.lost at f2
      simp only [Out.put, List.nil_append, List.length_append, leEnc_length, Nat.zero_add, true_and]
      omega
  refine ⟨fun x hx name flags hn => ?_, fun x hx name flags => ?_, short, ?_⟩
  · have hw := hc.top_wf hx name
    rw [vectorBytes_eq _ hw] at hn
    rw [freezeLong32, freeze, freezeVL_same _ hw hn]
  · have hw := hc.top_wf hx name
    rw [vectorBytes_eq _ hw]
    constructor
    · intro e
      by_cases hn : ∃ n ∈ (top c name x).vecs, 2^31 ≤ n % 2^32
      · exact hn
      · obtain ⟨bs, f1, f2⟩ := freezeVL_some _ hw (fun n h => by
          by_cases h' : n % 2^32 < 2^31
          · exact h'
          · exact absurd ⟨n, h, by omega⟩ hn) (Out.put ⟨[], 0⟩ (leEnc 8 flags) 8)
        rw [freezeLong32, f1] at e
        cases e
    · intro hn
      rw [freezeLong32, freezeVL_none _ hw hn]
  · intro x hx name flags out e hn hlen mflags m n y hm hl hg
    have hf := freeze_top hc hx name flags
    obtain ⟨_, s2⟩ := short x hx name flags out _ e hf
    have hp := lost_pos hn
    obtain ⟨x', hx', g', hle, hfr⟩ := hi.frozen name out.bytes mflags m n y hlen hm hl
    rw [hg] at g'
    cases g'
    rw [freeze_top hc hx] at hfr
    simp only [Option.some.injEq, Out.mk.injEq] at hfr
    simp only [List.length_append, leEnc_length] at s2
    omega

/-- **C117**, all classes of the library where `long` has 32 bits and `size_t` 64 (64-bit Windows) -/
theorem C117_long_classes : Long32 Codec.bitVector ∧ Long32 Codec.rsBitVector ∧ Long32 Codec.bpVector ∧ Long32 Codec.darray ∧ Long32 Codec.darray64 ∧
    Long32 Codec.eliasFano ∧ Long32 Codec.efList ∧ Long32 Codec.efCompressedList ∧ Long32 Codec.gammaVector ∧ Long32 Codec.gammaBitVector ∧
    Long32 Codec.nibbleVector ∧ Long32 Codec.cartesianTree ∧ Long32 (Codec.topK (Codec.vu64 "m_v")) := by
  obtain ⟨h1, h2, h3, h4, h5, h6, h7, h8, h9, h10, h11, h12, h13⟩ := C89_classes
  exact ⟨C117_long Codec.bitVector_lawful h1, C117_long Codec.rsBitVector_lawful h2, C117_long Codec.bpVector_lawful h3,
    C117_long Codec.darray_lawful h4, C117_long Codec.darray64_lawful h5, C117_long Codec.eliasFano_lawful h6, C117_long Codec.efList_lawful h7,
    C117_long Codec.efCompressedList_lawful h8, C117_long Codec.gammaVector_lawful h9, C117_long Codec.gammaBitVector_lawful h10,
    C117_long Codec.nibbleVector_lawful h11, C117_long Codec.cartesianTree_lawful h12, C117_long (Codec.topK_lawful (Codec.vu64_lawful _)) h13⟩

/-- a `bit_vector` of `2^35` bits: the file gets 24 bytes, `freeze` returns 4294967320, and mapping the file leaves a vector that is
not inside it or reads outside it -/
example (bits : List Word) (hb : bits.length = 2^29) :
    Codec.bitVector.fits ⟨2^35, bits⟩ ∧ vectorBytes (top Codec.bitVector "<TOP>" ⟨2^35, bits⟩) = [2^32] ∧
    ∃ out, freezeLong32 (top Codec.bitVector "<TOP>" ⟨2^35, bits⟩) 0 = some out ∧ out.written = 2^32 + 24 ∧ out.bytes.length = 24 := by
  have hf : Codec.bitVector.fits ⟨2^35, bits⟩ :=
    ⟨by show 2^35 < 2^64; decide, by show bits.length < 2^60; rw [hb]; decide, fun _ _ => trivial⟩
  have hv : vectorBytes (top Codec.bitVector "<TOP>" ⟨2^35, bits⟩) = [2^32] := by
    show [(bits.map fun x : Word => leEnc 8 x.toNat).length * 8] = [2^32]
    rw [List.length_map, hb, show 2^29 * 8 = 2^32 from by decide]
  have hL := C117_long_classes.1
  refine ⟨hf, hv, ?_⟩
  cases e : freezeLong32 (top Codec.bitVector "<TOP>" ⟨2^35, bits⟩) 0 with
  | none =>
    obtain ⟨n, h1, h2⟩ := (hL.negative _ hf "<TOP>" 0).1 e
    rw [hv, List.mem_singleton] at h1
    subst h1
    exact absurd h2 (by decide)
  | some out =>
    obtain ⟨s1, s2⟩ := hL.short _ hf "<TOP>" 0 out _ e (freeze_top Codec.bitVector_lawful hf "<TOP>" 0)
    have hfl : (top Codec.bitVector "<TOP>" ⟨2^35, bits⟩).flat.length = 2^32 + 16 := by
      show (leEnc 8 (2^35) ++ (leEnc 8 (bits.map fun x : Word => leEnc 8 x.toNat).length ++ (bits.map fun x : Word => leEnc 8 x.toNat).flatten ++ []) ++ []).length = _
      rw [List.append_nil, List.append_nil, List.length_append, List.length_append, leEnc_length, leEnc_length,
        flatten_length (es := 8) (by simp [leEnc_length]), List.length_map, hb, show 8 + (8 + 2^29 * 8) = 2^32 + 16 from by decide]
    rw [hv] at s2
    simp only [List.length_append, leEnc_length, hfl, List.map_cons, List.map_nil, List.sum_cons, List.sum_nil] at s1 s2
    exact ⟨out, rfl, by omega, by omega⟩

/-! ## `size_t` of 4 bytes -/

/-- **C117**: where `size_t` has `w` bytes, each class is restored and the counts agree, as where it has 8 -/
theorem C117_own (w : Nat) : (Restores (Codec.bitVectorW w) ∧ Accounts (Codec.bitVectorW w)) ∧ (Restores (Codec.rsBitVectorW w) ∧ Accounts (Codec.rsBitVectorW w)) ∧
    (Restores (Codec.bpVectorW w) ∧ Accounts (Codec.bpVectorW w)) ∧ (Restores (Codec.darrayW w) ∧ Accounts (Codec.darrayW w)) ∧
    (Restores (Codec.darray64W w) ∧ Accounts (Codec.darray64W w)) ∧ (Restores (Codec.eliasFanoW w) ∧ Accounts (Codec.eliasFanoW w)) ∧
    (Restores (Codec.efListW w) ∧ Accounts (Codec.efListW w)) ∧ (Restores (Codec.efCompressedListW w) ∧ Accounts (Codec.efCompressedListW w)) ∧
    (Restores (Codec.gammaVectorW w) ∧ Accounts (Codec.gammaVectorW w)) ∧ (Restores (Codec.cartesianTreeW w) ∧ Accounts (Codec.cartesianTreeW w)) ∧
    (Restores (Codec.nibbleVectorW w) ∧ Accounts (Codec.nibbleVectorW w)) ∧ (Restores (Codec.topKW w) ∧ Accounts (Codec.topKW w)) := by
  have key : ∀ {α : Type} {c : Codec α}, c.Lawful → Restores c ∧ Accounts c := fun h => ⟨h.restores, h.accounts⟩
  exact ⟨key (Codec.bitVectorW_lawful w), key (Codec.rsBitVectorW_lawful w), key (Codec.bpVectorW_lawful w), key (Codec.darrayW_lawful w),
    key (Codec.darray64W_lawful w), key (Codec.eliasFanoW_lawful w), key (Codec.efListW_lawful w), key (Codec.efCompressedListW_lawful w),
    key (Codec.gammaVectorW_lawful w), key (Codec.cartesianTreeW_lawful w), key (Codec.nibbleVectorW_lawful w), key (Codec.topKW_lawful w)⟩

/-- with `w = 8` these are the members of `Model/Mapper` -/
theorem C117_eight : Codec.bitVectorW 8 = Codec.bitVector ∧ Codec.rsBitVectorW 8 = Codec.rsBitVector ∧ Codec.bpVectorW 8 = Codec.bpVector ∧
    Codec.darrayW 8 = Codec.darray ∧ Codec.darray64W 8 = Codec.darray64 ∧ Codec.eliasFanoW 8 = Codec.eliasFano ∧ Codec.efListW 8 = Codec.efList ∧
    Codec.efCompressedListW 8 = Codec.efCompressedList ∧ Codec.gammaVectorW 8 = Codec.gammaVector ∧ Codec.gammaVectorW 8 = Codec.gammaBitVector ∧
    Codec.cartesianTreeW 8 = Codec.cartesianTree ∧ Codec.nibbleVectorW 8 = Codec.nibbleVector ∧ Codec.topKW 8 = Codec.topK (Codec.vu64 "m_v") := by
  have hs : ∀ n, Codec.szW 8 n = Codec.u64 n := fun n => by
    unfold Codec.szW Codec.u64
    rw [show (256 : Nat)^8 = 2^64 from by decide]
  have hb : Codec.bitVectorW 8 = Codec.bitVector := by unfold Codec.bitVectorW Codec.bitVector; rw [hs]
  have hr : Codec.rsBitVectorW 8 = Codec.rsBitVector := by unfold Codec.rsBitVectorW Codec.rsBitVector; rw [hb]
  have hp : Codec.bpVectorW 8 = Codec.bpVector := by unfold Codec.bpVectorW Codec.bpVector; rw [hr]
  have hd : Codec.darrayW 8 = Codec.darray := by unfold Codec.darrayW Codec.darray; rw [hs]
  have h6 : Codec.darray64W 8 = Codec.darray64 := by unfold Codec.darray64W Codec.darray64; rw [hs, hb]
  have he : Codec.eliasFanoW 8 = Codec.eliasFano := by unfold Codec.eliasFanoW Codec.eliasFano; rw [hb, hd]
  have ht : Codec.cartesianTreeW 8 = Codec.cartesianTree := by unfold Codec.cartesianTreeW Codec.cartesianTree; rw [hp]
  refine ⟨hb, hr, hp, hd, h6, he, ?_, ?_, ?_, ?_, ht, ?_, ?_⟩
  · unfold Codec.efListW Codec.efList; rw [he]
  · unfold Codec.efCompressedListW Codec.efCompressedList; rw [he, hb]
  · unfold Codec.gammaVectorW Codec.gammaVector; rw [h6, hb]
  · unfold Codec.gammaVectorW Codec.gammaBitVector; rw [h6, hb]
  · unfold Codec.nibbleVectorW Codec.nibbleVector; rw [hs]
  · unfold Codec.topKW Codec.topK; rw [ht]

/-- an image written where `size_t` has 4 bytes (`c`) and one written where it has 8 (`d`) are not interchangeable; `k` is the number of
`size_t` fields -/
structure Spec.Foreign {α : Type} (k : Nat) (c d : Codec α) : Prop where
  /-- the images of an object differ by 4 bytes for each of these fields -/
  sizes : ∀ x, c.fits x → d.fits x → ∀ (name : String) (flags : Nat), ∃ o4 o8, freeze (top c name x) flags = some o4 ∧ freeze (top d name x) flags = some o8 ∧
    o8.bytes.length = o4.bytes.length + 4 * k
  /-- mapping an image of the first kind on a platform of the second never gives the object back -/
  narrow : ∀ x, c.fits x → d.fits x → ∀ (name : String) (flags : Nat) (out : Out), freeze (top c name x) flags = some out → out.bytes.length < 2^60 →
    ∀ (mflags : Word) (m : MVal) (n : Nat) (y : Val), map (topLay d name) out.bytes mflags = some (m, n) → load out.bytes m = some y →
      (Codec.obj name d).get y ≠ some (x, .done)
  /-- in the other direction the count returned by `map` is less than the size of the image even if the object is given back -/
  wide : ∀ x, c.fits x → d.fits x → ∀ (name : String) (flags : Nat) (out : Out), freeze (top d name x) flags = some out → out.bytes.length < 2^60 →
    ∀ (mflags : Word) (m : MVal) (n : Nat) (y : Val), map (topLay c name) out.bytes mflags = some (m, n) → load out.bytes m = some y →
      (Codec.obj name c).get y = some (x, .done) → n + 4 * k = out.bytes.length

theorem foreign_of {α : Type} {k : Nat} {c d : Codec α} (hk : 0 < k) (hw : Codec.Wider k c d) (hc : c.Lawful) (hc' : c.Onto) (hd : d.Lawful) (hd' : d.Onto) :
    Foreign k c d := by
  have hlen : ∀ x (name : String), (top d name x).flat.length = (top c name x).flat.length + 4 * k := by
    intro x name
    have := Codec.wider_obj name hw x .done .done
    simp only [Val.flat, List.length_nil] at this
    show ((Codec.obj name d).put x .done).flat.length = ((Codec.obj name c).put x .done).flat.length + 4 * k
    omega
  refine ⟨fun x hx hx' name flags => ?_, fun x hx hx' name flags out e hs mflags m n y hm hl hg => ?_, fun x hx hx' name flags out e hs mflags m n y hm hl hg => ?_⟩
  · refine ⟨_, _, freeze_top hc hx name flags, freeze_top hd hx' name flags, ?_⟩
    simp only [List.length_append, leEnc_length, hlen]
    omega
  · obtain ⟨x', _, g', hle, hfr⟩ := (C89_image hd hd').frozen name out.bytes mflags m n y hs hm hl
    rw [hg] at g'
    cases g'
    rw [freeze_top hc hx] at e
    rw [freeze_top hd hx'] at hfr
    cases e
    simp only [Option.some.injEq, Out.mk.injEq] at hfr
    simp only [List.length_append, leEnc_length] at hle
    have := hlen x name
    omega
  · obtain ⟨x', _, g', hle, hfr⟩ := (C89_image hc hc').frozen name out.bytes mflags m n y hs hm hl
    rw [hg] at g'
    cases g'
    rw [freeze_top hd hx'] at e
    rw [freeze_top hc hx] at hfr
    cases e
    simp only [Option.some.injEq, Out.mk.injEq] at hfr
    simp only [List.length_append, leEnc_length]
    have := hlen x name
    omega

/-- **C117**: images written where `size_t` has 4 bytes and where it has 8 are not interchangeable, for any class of the library -/
theorem C117_foreign : Foreign 1 (Codec.bitVectorW 4) Codec.bitVector ∧ Foreign 1 (Codec.rsBitVectorW 4) Codec.rsBitVector ∧
    Foreign 1 (Codec.bpVectorW 4) Codec.bpVector ∧ Foreign 1 (Codec.darrayW 4) Codec.darray ∧ Foreign 2 (Codec.darray64W 4) Codec.darray64 ∧
    Foreign 4 (Codec.eliasFanoW 4) Codec.eliasFano ∧ Foreign 4 (Codec.efListW 4) Codec.efList ∧
    Foreign 5 (Codec.efCompressedListW 4) Codec.efCompressedList ∧ Foreign 3 (Codec.gammaVectorW 4) Codec.gammaVector ∧
    Foreign 3 (Codec.gammaVectorW 4) Codec.gammaBitVector ∧ Foreign 1 (Codec.cartesianTreeW 4) Codec.cartesianTree ∧
    Foreign 1 (Codec.nibbleVectorW 4) Codec.nibbleVector ∧ Foreign 1 (Codec.topKW 4) (Codec.topK (Codec.vu64 "m_v")) :=
  ⟨foreign_of (by decide) Codec.wider_bv (Codec.bitVectorW_lawful 4) (Codec.bitVectorW_onto 4) Codec.bitVector_lawful Codec.bitVector_onto,
   foreign_of (by decide) Codec.wider_rs (Codec.rsBitVectorW_lawful 4) (Codec.rsBitVectorW_onto 4) Codec.rsBitVector_lawful Codec.rsBitVector_onto,
   foreign_of (by decide) Codec.wider_bp (Codec.bpVectorW_lawful 4) (Codec.bpVectorW_onto 4) Codec.bpVector_lawful Codec.bpVector_onto,
   foreign_of (by decide) Codec.wider_darray (Codec.darrayW_lawful 4) (Codec.darrayW_onto 4) Codec.darray_lawful Codec.darray_onto,
   foreign_of (by decide) Codec.wider_darray64 (Codec.darray64W_lawful 4) (Codec.darray64W_onto 4) Codec.darray64_lawful Codec.darray64_onto,
   foreign_of (by decide) Codec.wider_ef (Codec.eliasFanoW_lawful 4) (Codec.eliasFanoW_onto 4) Codec.eliasFano_lawful Codec.eliasFano_onto,
   foreign_of (by decide) Codec.wider_efList (Codec.efListW_lawful 4) (Codec.efListW_onto 4) Codec.efList_lawful Codec.efList_onto,
   foreign_of (by decide) Codec.wider_efc (Codec.efCompressedListW_lawful 4) (Codec.efCompressedListW_onto 4) Codec.efCompressedList_lawful Codec.efCompressedList_onto,
   foreign_of (by decide) Codec.wider_gamma (Codec.gammaVectorW_lawful 4) (Codec.gammaVectorW_onto 4) Codec.gammaVector_lawful Codec.gammaVector_onto,
   foreign_of (by decide) Codec.wider_gamma (Codec.gammaVectorW_lawful 4) (Codec.gammaVectorW_onto 4) Codec.gammaBitVector_lawful Codec.gammaBitVector_onto,
   foreign_of (by decide) Codec.wider_cart (Codec.cartesianTreeW_lawful 4) (Codec.cartesianTreeW_onto 4) Codec.cartesianTree_lawful Codec.cartesianTree_onto,
   foreign_of (by decide) Codec.wider_nibble (Codec.nibbleVectorW_lawful 4) (Codec.nibbleVectorW_onto 4) Codec.nibbleVector_lawful Codec.nibbleVector_onto,
   foreign_of (by decide) Codec.wider_topk (Codec.topKW_lawful 4) (Codec.topKW_onto 4) (Codec.topK_lawful (Codec.vu64_lawful _)) (Codec.topK_onto (Codec.vu64_onto _))⟩

/-- the two directions differ: the image of an empty `bit_vector` written with 8 bytes is given back with 4, and `map` returns 20 of 24 bytes -/
theorem C117_empty :
    ∃ out m y, freeze (top Codec.bitVector "<TOP>" ⟨0, []⟩) 0 = some out ∧ out.bytes.length = 24 ∧
      map (topLay (Codec.bitVectorW 4) "<TOP>") out.bytes 0 = some (m, 20) ∧ load out.bytes m = some y ∧
      (Codec.obj "<TOP>" (Codec.bitVectorW 4)).get y = some (⟨0, []⟩, .done) :=
  ⟨⟨leEnc 8 0 ++ leEnc 8 0 ++ leEnc 8 0, 24⟩, .obj "<TOP>" (.pod "m_size" (leEnc 4 0) (.vec "m_bits" 8 20 0 .done)) .done,
    .obj "<TOP>" (.pod "m_size" (leEnc 4 0) (.vec "m_bits" 8 [] .done)) .done, by decide +kernel, by decide +kernel, by decide +kernel, by decide +kernel, rfl⟩

/-- an object to which `C117_foreign` applies -/
example : (Codec.bitVectorW 4).fits ⟨70, [5, 1]⟩ ∧ Codec.bitVector.fits ⟨70, [5, 1]⟩ :=
  ⟨⟨by show 70 < 256^4; decide, by show 2 < 2^60; decide, fun _ _ => trivial⟩, ⟨by show 70 < 2^64; decide, by show 2 < 2^60; decide, fun _ _ => trivial⟩⟩

end Succinct
