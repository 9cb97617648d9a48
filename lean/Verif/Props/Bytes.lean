import Verif.Lemmas.Bytes

/-! # C121: the bytes taken by an object

The number of bytes that `mapper::size_of` reports (`mapper.hpp:168-207,263-269`) for each class, as a function of what
was stored. By C41 the image that `freeze` writes has exactly 8 bytes more. -/
namespace Succinct
open Spec Mapper

/-- **C121** (`bit_vector`): the bits rounded up to words, and 16 bytes -/
theorem C121_bit_vector (l : List Bool) (hl : l.length < 2^60) (name : String) :
    sizeBytes (top Codec.bitVector name (BitVector.ofRange l)) = 16 + 8 * ((l.length + 63)/64) := by
  have hw := (BitVector.ofRange_rep l).len
  rw [top_size, bv_size _ _ _ (by omega)]
  simp only [sizeV]; omega

/-- **C121** (`rs_bit_vector`): 56 bytes, the words, 16 bytes per block of 512 bits, and 8 bytes per hint -/
theorem C121_rs_bit_vector (l : List Bool) (a b : Bool) (hl : l.length < 2^60) (name : String) :
    ∃ v, RSBitVector.build (BitVector.ofRange l) a b = some v ∧
      sizeBytes (top Codec.rsBitVector name v) = 56 + 8 * ((l.length + 63)/64) + 16 * ((l.length + 511)/512) +
        (if a then 8 * max 1 ((l.count true + 1023)/1024) else 0) +
        (if b then 8 * max 1 ((l.count false + (512 * ((l.length + 511)/512) - l.length) + 1023)/1024) else 0) := by
  obtain ⟨v, e, h1, h2, h3, h4⟩ := C54_rs_bit_vector_space l a b
  have c1 := List.count_le_length (a := true) (l := l)
  have c2 := List.count_le_length (a := false) (l := l)
  unfold words at h1
  refine ⟨v, e, ?_⟩
  rw [top_size, rs_size _ _ _ (by omega) (by omega) (by rw [h3]; split <;> omega) (by rw [h4]; split <;> omega)]
  simp only [sizeV]
  rw [h1, h2, h3, h4]
  cases a <;> cases b <;> simp only [Bool.false_eq_true, if_true, if_false] <;> omega

/-- the arrays of a `bp_vector` over balanced parentheses, in bytes -/
theorem bp_bytes {l : List Bool} {a b : Bool} {v : BpVector} (hl : Bal l) (hlen : l.length < 2^31)
    (e : BpVector.build (BitVector.ofRange l) a b = some v) (r : Val) (s : Nat) :
    ∃ k, sizeV (Codec.bpVector.put v r) s = sizeV r (s + k) ∧
      2048 * k ≤ (339 + (if a then 8 else 0) + (if b then 8 else 0)) * l.length + 2048 * 156 := by
  obtain ⟨c1, c2⟩ := bal_counts hl
  unfold BpVector.build at e
  simp only [Option.bind_eq_bind, Option.bind_eq_some_iff] at e
  obtain ⟨rs, er, em⟩ := e
  obtain ⟨rs', er', h1, h2, h3, h4⟩ := C54_rs_bit_vector_space l a b
  obtain rfl : rs' = rs := Option.some.inj (er'.symm.trans er)
  have sh := BpVector.buildMinTree_shape em
  have hm := sh.rsEq
  subst hm
  have hint := sh.int
  unfold words at h1
  have w1 : 64 * v.rs.bv.bits.length ≤ l.length + 63 := by omega
  have w2 : 256 * v.rs.pairs.length ≤ l.length + 1023 := by omega
  have w3 : 2048 * v.rs.hints.length ≤ (if a then l.length else 0) + 2048 := by rw [h3]; cases a <;> simp <;> omega
  have w4 : 2048 * v.rs.hints0.length ≤ (if b then l.length else 0) + 2048 * 2 := by rw [h4]; cases b <;> simp <;> omega
  have w5 : 256 * v.blockMin.length ≤ l.length + 255 := by rcases sh.bl with g | ⟨_, g⟩ <;> rw [g] <;> omega
  have w6 : 8192 * v.superMin.length ≤ 3 * (l.length + 8191) + 8192 := by rcases sh.sl with g | ⟨_, g⟩ <;> rw [g] <;> omega
  clear h1 h2 h3 h4 hint sh em er er'
  have b3 : v.rs.hints.length < 2^60 := by revert w3; cases a <;> simp <;> omega
  have b4 : v.rs.hints0.length < 2^60 := by revert w4; cases b <;> simp <;> omega
  refine ⟨_, (bp_size v r s (by omega) (by omega) b3 b4 (by omega) (by omega)).trans
    (by rw [Nat.add_assoc, Nat.add_assoc, Nat.add_assoc]), ?_⟩
  revert w3 w4
  cases a <;> cases b <;> simp only [Bool.false_eq_true, if_true, if_false] <;> intro w3 w4 <;> omega

/-- **C121** (`bp_vector`): at most 339/2048 bytes for each of the parentheses (1.33 bits), 1/256 of a byte more for each of
the two kinds of hints requested, and 156 bytes -/
theorem C121_bp_vector (l : List Bool) (a b : Bool) (hl : Bal l) (hlen : l.length < 2^31) (name : String) :
    ∃ v, BpVector.build (BitVector.ofRange l) a b = some v ∧
      2048 * sizeBytes (top Codec.bpVector name v) ≤
        (339 + (if a then 8 else 0) + (if b then 8 else 0)) * l.length + 2048 * 156 := by
  obtain ⟨v, e, _⟩ := BpVector.build_inv l a b ((Bal.dyck hl).good hlen)
  obtain ⟨k, hk, hb⟩ := bp_bytes hl hlen e .done 0
  refine ⟨v, e, ?_⟩
  rw [top_size, hk]
  simpa only [sizeV, Nat.zero_add] using hb

theorem cartesian_bytes {α : Type} {comp : α → α → Bool} {v : List α} (hv : v.length < 2^30 - 1) {t : CartesianTree}
    (e : CartesianTree.build comp v = some t) (r : Val) (s : Nat) :
    ∃ k, sizeV (Codec.cartesianTree.put t r) s = sizeV r (s + k) ∧ 100 * (8 * k) ≤ 272 * v.length + 100 * (8 * 157) := by
  obtain ⟨b, l, e1, e2, hb, hl⟩ := C37_balanced comp v 0 false
  unfold CartesianTree.build CartesianTree.ofBuilder at e
  simp only [Option.bind_eq_bind, Option.bind_eq_some_iff, Option.pure_def, Option.some.injEq] at e e1
  obtain ⟨s0, f0, s1, f1, b', f2, bv, f3, v', f4, rfl⟩ := e
  obtain ⟨s1', ⟨s0', g0, g1⟩, g2⟩ := e1
  obtain rfl : s0' = s0 := Option.some.inj (g0.symm.trans f0)
  obtain rfl : s1' = s1 := Option.some.inj (g1.symm.trans f1)
  obtain rfl : b' = b := Option.some.inj (f2.symm.trans g2)
  obtain rfl : bv = BitVector.ofRange l := Option.some.inj (f3.symm.trans e2)
  obtain ⟨k, hk, hk2⟩ := bp_bytes hb (by omega) f4 .done s
  simp only [Bool.false_eq_true, if_true, if_false] at hk2
  refine ⟨k, ?_, by omega⟩
  show sizeV ((Codec.obj "m_bp" Codec.bpVector).put v' r) s = _
  rw [obj_size, hk]; rfl

/-- **C121** (`cartesian_tree`): at most 2.72 bits for each value, and 157 bytes, whatever the values and the order -/
theorem C121_cartesian_tree {α : Type} (comp : α → α → Bool) (v : List α) (hv : v.length < 2^30 - 1) (name : String) :
    ∃ t, CartesianTree.build comp v = some t ∧
      100 * (8 * sizeBytes (top Codec.cartesianTree name t)) ≤ 272 * v.length + 100 * (8 * 157) := by
  obtain ⟨t, _, e, _⟩ := C37_size comp v hv
  obtain ⟨k, hk, hb⟩ := cartesian_bytes hv e .done 0
  refine ⟨t, e, ?_⟩
  rw [top_size, hk]
  simpa only [sizeV, Nat.zero_add] using hb

/-- **C121** (`topk_vector` over 64-bit values): the values themselves and at most 2.72 bits for each, and 165 bytes -/
theorem C121_topk_vector (v : List Nat) (hv : v.length < 2^30 - 1) (name : String) :
    ∃ t, TopK.build ⟨fun a b => decide (a < b), fun a b => decide (a = b)⟩ v = some t ∧
      100 * (8 * sizeBytes (top (Codec.topK (Codec.vu64 "m_v")) name t)) ≤ (6400 + 272) * v.length + 100 * (8 * 165) := by
  obtain ⟨t, e, _⟩ := C58_cartesian_tree (fun x y : Nat => decide (y < x)) v hv
  refine ⟨⟨v, t⟩, by unfold TopK.build; rw [e]; rfl, ?_⟩
  obtain ⟨k, hk, hb⟩ := cartesian_bytes hv e .done (0 + 8 + 8 * v.length)
  rw [top_size]
  have : sizeV ((Codec.topK (Codec.vu64 "m_v")).put ⟨v, t⟩ .done) 0 = 0 + 8 + 8 * v.length + k := by
    show sizeV ((Codec.vu64 "m_v").put v ((Codec.obj "m_cartesian_tree" Codec.cartesianTree).put t .done)) 0 = _
    unfold Codec.vu64
    rw [vec_size _ _ _ _ _ _ _ _ (by omega), obj_size, hk]; rfl
  rw [this]; omega

theorem darray_bytes {l : List Bool} {neg : Bool} {d : Darray} (hl : l.length < 2^60)
    (e : Darray.build neg (BitVector.ofRange l) = some d) (r : Val) (s : Nat) :
    sizeV (Codec.darray.put d r) s = sizeV r (s + 32 + 8 * ((l.count (!neg) + 1023)/1024) + 2 * ((l.count (!neg) + 31)/32) +
      8 * d.inv.overflow.length) ∧ 64 * d.inv.overflow.length ≤ l.length := by
  obtain ⟨d', e', h1, h2, h3⟩ := C56_darray_space l neg
  obtain rfl : d' = d := Option.some.inj (e'.symm.trans e)
  have c := List.count_le_length (a := !neg) (l := l)
  refine ⟨?_, h3⟩
  rw [darray_size _ _ _ (by omega) (by omega) (by omega), h1, h2]

/-- **C121** (`darray`): 32 bytes, 8 for every 1024 and 2 for every 32 positions, and at most one bit for each bit -/
theorem C121_darray (l : List Bool) (neg : Bool) (hl : l.length < 2^60) (name : String) :
    ∃ d, Darray.build neg (BitVector.ofRange l) = some d ∧
      32 + 8 * ((l.count (!neg) + 1023)/1024) + 2 * ((l.count (!neg) + 31)/32) ≤ sizeBytes (top Codec.darray name d) ∧
      8 * sizeBytes (top Codec.darray name d) ≤
        8 * (32 + 8 * ((l.count (!neg) + 1023)/1024) + 2 * ((l.count (!neg) + 31)/32)) + l.length := by
  obtain ⟨d, e, _⟩ := C56_darray_space l neg
  obtain ⟨h1, h2⟩ := darray_bytes hl e .done 0
  refine ⟨d, e, ?_⟩
  rw [top_size, h1]
  simp only [sizeV]
  omega

theorem ef_bytes {n : Word} {m k : Nat} {ef : EliasFano} (h : ef.Shape n m k) (hp : ef.d1.positions = k) (hm : 0 < m) (hm2 : m < 2^54)
    (wr : Bool) (h0 : wr = false → ef.d0 = ⟨0, ⟨[], [], []⟩⟩) (r : Val) (s : Nat) :
    ∃ z, sizeV (Codec.eliasFano.put ef r) s = sizeV r (s + z) ∧
      8 * z ≤ k * Nat.log2 (n.toNat / m) + (if wr then 12 else 7) * m + 8 * (if wr then 145 else 133) := by
  have hc := h.cnt
  have hlow := Codec.shape_low h (by omega)
  have hh := EFBuilder.lowLen_high h.hl hm
  have hs := h.high
  rw [Nat.mod_eq_of_lt (by omega)] at hs
  have hs3 : ef.high.size ≤ 3 * m + 1 := by omega
  have h1 := h.low
  rw [lowLen_log2 h.hl] at h1
  rw [← h1]
  have h4 := h.lowW
  have h5 := h.highW
  have h6 := h.d1b
  have h7 := h.d1s
  rw [hp] at h6 h7
  have h8 := h.d1.ov
  have b0 := h.d0p
  have b1 := h.d0b
  have b2 := h.d0s
  have b3 := h.d0.ov
  clear h hh hs h1
  refine ⟨_, (ef_size ef r s (by omega) (by omega) (by omega) (by omega) (by omega) (by omega) (by omega) (by omega)).trans
    (by rw [Nat.add_assoc, Nat.add_assoc, Nat.add_assoc, Nat.add_assoc]), ?_⟩
  cases wr with
  | true => simp only [if_true]; omega
  | false =>
    rw [h0 rfl]
    simp only [Bool.false_eq_true, if_false, List.length_nil]
    omega

/-- **C121** (`elias_fano`): for at most `m` values up to `n`, at most `⌊log₂(n/m)⌋ + 7` bits for each value, 5 more
with the rank index, and a constant number of bytes -/
theorem C121_elias_fano (n : Word) (m : Nat) (xs : List Word) (h : Storable n m xs) (hm : 0 < m) (hm2 : m < 2^54) (wr : Bool) (name : String) :
    ∃ ef, EliasFano.ofSeq n m xs wr = some ef ∧
      8 * sizeBytes (top Codec.eliasFano name ef) ≤
        xs.length * Nat.log2 (n.toNat / m) + (if wr then 12 else 7) * m + 8 * (if wr then 145 else 133) := by
  obtain ⟨ef, e, _, h1, _⟩ := C20_select n m xs h wr
  obtain ⟨k, hk, hb⟩ := ef_bytes (EliasFano.ofSeq_shape e) h1 hm hm2 wr (fun hw => EliasFano.ofSeq_d0 (hw ▸ e)) .done 0
  refine ⟨ef, e, ?_⟩
  rw [top_size, hk]
  simpa only [sizeV, Nat.zero_add] using hb

/-- **C121** (`elias_fano_list`): at most `⌊log₂((sum + 1)/n)⌋ + 7` bits for each of the `n` values, and 133 bytes -/
theorem C121_elias_fano_list (v : List Word) (hs : (v.map BitVec.toNat).sum < 2^64 - 1) (h0 : 0 < v.length) (hl : v.length < 2^54)
    (name : String) :
    ∃ t, EFList.build v = some t ∧
      8 * sizeBytes (top Codec.efList name t) ≤ v.length * (Nat.log2 (((v.map BitVec.toNat).sum + 1) / v.length) + 7) + 8 * 133 := by
  obtain ⟨t, e, h1, _⟩ := C26_list v hs (by omega)
  have hn : (v.foldl (· + ·) 0 + 1 : Word).toNat = (v.map BitVec.toNat).sum + 1 := by
    rw [BitVec.toNat_add, EFList.foldl_add_toNat v 0 (by show 0 + _ < _; omega), show (1 : Word).toNat = 1 from rfl, show (0 : Word).toNat = 0 from rfl,
      Nat.zero_add, Nat.mod_eq_of_lt (by omega)]
  obtain ⟨k, hk, hb⟩ := ef_bytes (EFList.build_shape e) h1 h0 hl false (fun _ => EFList.build_d0 e) .done 0
  refine ⟨t, e, ?_⟩
  rw [hn] at hb
  have : sizeBytes (top Codec.efList name t) = k := by
    rw [top_size]
    show sizeV ((Codec.obj "m_ef" Codec.eliasFano).put t.ef .done) 0 = _
    rw [obj_size, hk]; simp only [sizeV, Nat.zero_add]
  rw [this, Nat.mul_add]
  simp only [Bool.false_eq_true, if_false] at hb
  omega

/-- **C121** (`elias_fano_compressed_list`): with `L = Σ ⌊log₂(x+1)⌋`, the `L` bits, at most `⌊log₂((L + 1)/(n + 1))⌋ + 7` bits
for each of the `n + 1` offsets, and 157 bytes -/
theorem C121_elias_fano_compressed_list (v : List Word) (hv : ∀ x ∈ v, x ≠ BitVec.allOnes 64) (hl : v.length < 2^53) (name : String) (L : Nat)
    (hL : L = (v.map fun x => Nat.log2 (x.toNat + 1)).sum) :
    ∃ t, EFCompressedList.build v = some t ∧
      8 * sizeBytes (top Codec.efCompressedList name t) ≤
        L + (v.length + 1) * (Nat.log2 ((L + 1) / (v.length + 1)) + 7) + 8 * 157 := by
  obtain ⟨t, e, h1, _⟩ := C27_compressed_list v hv (by omega)
  obtain ⟨s, s1, s2⟩ := EFCompressedList.build_shape e
  have hb := bitsOf_add v fun x hx => lt_of_ne_allOnes (hv x hx)
  have hle := bitsOf_le 1 v
  have hb' : t.bits.size = L := by rw [s1, hL]; exact hb
  have hn : (BitVec.ofNat 64 (EFCompressedList.bitsOf 1 v) + 1 : Word).toNat = L + 1 := by
    rw [BitVec.toNat_add, BitVec.toNat_ofNat, ← s1, show (1 : Word).toNat = 1 from rfl, Nat.mod_eq_of_lt (a := t.bits.size) (by omega), Nat.mod_eq_of_lt (by omega), hb']
  have hp : t.ef.d1.positions = v.length + 1 := by
    unfold EFCompressedList.size EliasFano.numOnes subU at h1
    split at h1
    · have := Option.some.inj h1; omega
    · cases h1
  obtain ⟨k, hk, hb⟩ := ef_bytes s hp (by omega) (by omega) false (fun _ => EFCompressedList.build_d0 e) .done 0
  refine ⟨t, e, ?_⟩
  rw [hn] at hb
  have : sizeBytes (top Codec.efCompressedList name t) = k + 16 + 8 * t.bits.bits.length := by
    rw [top_size]
    show sizeV ((Codec.obj "m_ef" Codec.eliasFano).put t.ef ((Codec.obj "m_bits" Codec.bitVector).put t.bits .done)) 0 = _
    rw [obj_size, hk, obj_size, bv_size _ _ _ (by omega)]; simp only [sizeV, Nat.zero_add]
  rw [this, Nat.mul_add (v.length + 1)]
  simp only [Bool.false_eq_true, if_false] at hb
  omega

theorem gamma_bytes {g : GammaVec} {n s : Nat} (h : Darray64.Shape g.high n s) (hs : s < 2^60) (hn : n ≤ s) (hl : g.low.bits.length < 2^60) :
    sizeV (Codec.gammaVector.put g .done) 0 =
      56 + 8 * ((s + 63)/64) + 8 * ((n + 1023)/1024) + 2 * ((n + 63)/64) + 8 * g.low.bits.length := by
  have h1 := h.bl
  have h2 := h.sl
  have h3 := h.wl
  show sizeV ((Codec.obj "m_high_bits" Codec.darray64).put g.high ((Codec.obj "m_low_bits" Codec.bitVector).put g.low .done)) 0 = _
  rw [obj_size, darray64_size _ _ _ (by omega) (by omega) (by omega), obj_size, bv_size _ _ _ hl, h1, h2, h3]
  simp only [sizeV]
  omega

/-- **C121** (`gamma_vector`): with `L = Σ ⌊log₂(x+1)⌋`, the `2L + n + 1` bits of the codes rounded up to words, 8 bytes for
every 1024 and 2 for every 64 of the `n + 1` entries of the index, and 56 bytes; at most 1.3125 bits for each value beyond `2L` -/
theorem C121_gamma_vector (v : List Word) (hv : ∀ x ∈ v, x ≠ BitVec.allOnes 64) (hl : v.length < 2^53) (name : String) (L : Nat)
    (hL : L = (v.map fun x => Nat.log2 (x.toNat + 1)).sum) :
    ∃ g, GammaVector.build v = some g ∧
      sizeBytes (top Codec.gammaVector name g) = 56 + 8 * ((L + v.length + 1 + 63)/64) + 8 * ((L + 63)/64) +
        8 * ((v.length + 1 + 1023)/1024) + 2 * ((v.length + 1 + 63)/64) ∧
      16 * (8 * sizeBytes (top Codec.gammaVector name g)) ≤ 32 * L + 21 * v.length + 16 * (8 * 82) := by
  obtain ⟨g, e, _⟩ := C28_gamma_vector v hv
  obtain ⟨s, s1, s2⟩ := GammaVector.build_shape e
  have ht := bitsOf_le 1 v
  have hb : EFCompressedList.bitsOf 1 v = L := by rw [hL]; exact bitsOf_add v fun x hx => lt_of_ne_allOnes (hv x hx)
  refine ⟨g, e, ?_⟩
  rw [top_size, gamma_bytes s (by omega) (by omega) (by omega), s2, hb]
  omega

/-- **C121** (`gamma_bit_vector`): with `L = Σ ⌊log₂(x+2)⌋`, the `2L + 1` bits of the codes rounded up to words and the same
index; at most 0.3125 bits for each value beyond `2L` -/
theorem C121_gamma_bit_vector (v : List Word) (hv : ∀ x ∈ v, x.toNat < 2^64 - 2) (hl : v.length < 2^53) (name : String) (L : Nat)
    (hL : L = (v.map fun x => Nat.log2 (x.toNat + 2)).sum) :
    ∃ g, GammaBitVector.build v = some g ∧
      sizeBytes (top Codec.gammaBitVector name g) = 56 + 8 * ((L + 1 + 63)/64) + 8 * ((L + 63)/64) +
        8 * ((v.length + 1 + 1023)/1024) + 2 * ((v.length + 1 + 63)/64) ∧
      16 * (8 * sizeBytes (top Codec.gammaBitVector name g)) ≤ 32 * L + 5 * v.length + 16 * (8 * 82) := by
  obtain ⟨g, e, h1, h2, h3, h4, h5, h6⟩ := C57_gamma_bit_vector_space v hv
  obtain ⟨s, s1, s2⟩ := GammaBitVector.build_shape e
  have ht := bitsOf_le 2 v
  have hb : EFCompressedList.bitsOf 2 v = L := by omega
  refine ⟨g, e, ?_⟩
  have h := gamma_bytes s (by omega) s.le (by omega)
  rw [s2, hb] at h
  rw [top_size, show sizeV (Codec.gammaBitVector.put g .done) 0 = _ from h]
  omega

/-- **C121** (`nibble_vector`): half a byte for each value, rounded up, and 16 bytes -/
theorem C121_nibble_vector (l : List Nat) (hl : ∀ a ∈ l, a < 16) (hn : l.length < 2^60) (name : String) :
    ∃ v, NibbleVector.build l = some v ∧ sizeBytes (top Codec.nibbleVector name v) = 16 + (l.length + 1)/2 := by
  obtain ⟨v, e, h⟩ := C57_nibble_vector_space l hl
  refine ⟨v, e, ?_⟩
  rw [top_size]
  show sizeV ((Codec.u64 "m_size").put v.size ((Codec.vec "m_nibbles" 1 (fun x => [x]) (fun bs => bs.headD 0) (fun _ => True)).put v.nibbles .done)) 0 = _
  rw [u64_size, vec_size _ _ _ _ _ _ _ _ (by omega), h]
  simp only [sizeV]; omega

/-! ## Examples -/

example : sizeBytes (top Codec.bitVector "" (BitVector.ofRange (List.replicate 65 true))) = 32 := by decide +kernel
example : (EFList.build [5, 9, 0, 100]).map (fun t => sizeBytes (top Codec.efList "" t)) = some 131 := by decide +kernel
example : (CartesianTree.build (fun x y : Nat => decide (x < y)) [3, 1, 4, 1, 5]).map (fun t => sizeBytes (top Codec.cartesianTree "" t)) =
    some 122 := by decide +kernel
example : Bal [true, true, false, true, false, false, true, false] ∧ Storable 30 6 exampleSeq ∧ (0 : Nat) < 6 :=
  ⟨bal_example, exampleSeq_storable, by decide⟩
example : ∀ x ∈ ([5, 0, 1000] : List Word), x ≠ BitVec.allOnes 64 := by
  simp only [List.forall_mem_cons, ne_eq]; exact ⟨by decide, by decide, by decide, by simp⟩

end Succinct
