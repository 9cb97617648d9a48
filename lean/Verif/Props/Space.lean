import Verif.Lemmas.Fits
import Verif.Lemmas.MapperProps
import Verif.Props.EliasFano
import Verif.Props.Gamma
import Verif.Props.BpVector
import Verif.Props.CartesianTree
import Verif.Props.Util

/-! # C53-C58: space, and persistence of every built structure

A size is counted in elements of the stored arrays.  `Nat.log2 k` is `⌊log₂ k⌋`, and 0 for `k = 0`. -/
namespace Succinct
open Spec Mapper

/-! ## C53 -/

/-- number of 64-bit words for `n` bits -/
def words (n : Nat) : Nat := (n + 63)/64

theorem lowLen_log2 {n : Word} {m l : Nat} (h : EFBuilder.lowLen n m = some l) : l = Nat.log2 (n.toNat / m) := by
  rcases EFBuilder.lowLen_spec h with ⟨h1, h2⟩ | ⟨h0, h1, h2, _⟩
  · subst h2
    rcases h1 with rfl | h1
    · simp
    · rw [Nat.div_eq_of_lt h1]; simp
  · have a1 : 2^l ≤ n.toNat / m := (Nat.le_div_iff_mul_le h0).2 (by rw [Nat.mul_comm]; exact h1)
    have a2 : n.toNat / m < 2^(l+1) := (Nat.div_lt_iff_lt_mul h0).2 (by rw [Nat.mul_comm]; exact h2)
    exact ((Nat.log2_eq_iff (by have := Nat.two_pow_pos l; omega)).2 ⟨a1, a2⟩).symm

/-- **C53.** An `elias_fano` for at most `m ≥ 1` values up to `n` stores `⌊log₂(n/m)⌋` low bits for each
value pushed and at most `3m + 1` high bits, in arrays without slack; the index over the high bits has
one 8-byte entry per 1024 ones, one 2-byte entry per 32 ones and at most one 8-byte entry per 64 bits. -/
theorem C53_elias_fano_space (n : Word) (m : Nat) (xs : List Word) (h : Storable n m xs) (hm : 0 < m) (wr : Bool) :
    ∃ ef, EliasFano.ofSeq n m xs wr = some ef ∧ ef.low.size = xs.length * Nat.log2 (n.toNat / m) ∧
      ef.high.size = m + 2 + n.toNat / 2^Nat.log2 (n.toNat / m) ∧ ef.high.size ≤ 3*m + 1 ∧
      ef.low.bits.length = words ef.low.size ∧ ef.high.bits.length = words ef.high.size ∧
      ef.d1.inv.block.length = (xs.length + 1023)/1024 ∧ ef.d1.inv.subblock.length = (xs.length + 31)/32 ∧
      64 * ef.d1.inv.overflow.length ≤ ef.high.size ∧
      ef.d0.inv.block.length ≤ (ef.high.size + 1023)/1024 ∧ ef.d0.inv.subblock.length ≤ (ef.high.size + 31)/32 ∧
      64 * ef.d0.inv.overflow.length ≤ ef.high.size := by
  obtain ⟨ef, e, _, h1, _⟩ := C20_select n m xs h wr
  have s := EliasFano.ofSeq_shape e
  have hl := lowLen_log2 s.hl
  have hh := EFBuilder.lowLen_high s.hl hm
  have hc := h.cap
  have hs := s.high
  have a1 := s.d1b
  have a2 := s.d1s
  have b0 := s.d0p
  have b1 := s.d0b
  have b2 := s.d0s
  unfold EliasFano.numOnes at h1
  rw [Nat.mod_eq_of_lt (by omega)] at hs
  rw [hl] at hh
  refine ⟨ef, e, by rw [s.low, hl], by rw [← hl]; exact hs, by rw [hl] at hs; omega, s.lowW, s.highW, by rw [a1, h1], by rw [a2, h1], s.d1.ov, by omega, by omega, s.d0.ov⟩

/-- 6 values up to 30: `⌊log₂ 5⌋ = 2` low bits each, `6 + 2 + 7` high bits -/
example : (EliasFano.ofSeq 30 6 exampleSeq true).map (fun ef => (ef.low.size, ef.high.size)) = some (12, 15) := by decide +kernel

/-- **C53** for `elias_fano_list`: below `⌊log₂((sum + 1)/n)⌋ + 3` bits per integer, and one more bit -/
theorem C53_list_space (v : List Word) (hs : (v.map BitVec.toNat).sum < 2^64 - 1) (hl : v.length ≤ 2^62) (h0 : 0 < v.length) :
    ∃ t, EFList.build v = some t ∧ t.ef.low.size = v.length * Nat.log2 (((v.map BitVec.toNat).sum + 1) / v.length) ∧
      t.ef.high.size ≤ 3 * v.length + 1 ∧ t.ef.low.bits.length = words t.ef.low.size ∧ t.ef.high.bits.length = words t.ef.high.size := by
  obtain ⟨t, e, _⟩ := C26_list v hs hl
  have s := EFList.build_shape e
  have hn : (v.foldl (· + ·) 0 + 1 : Word).toNat = (v.map BitVec.toNat).sum + 1 := by
    rw [BitVec.toNat_add, EFList.foldl_add_toNat v 0 (by show 0 + _ < _; omega), show (1 : Word).toNat = 1 from rfl, show (0 : Word).toNat = 0 from rfl,
      Nat.zero_add, Nat.mod_eq_of_lt (by omega)]
  have hl' := lowLen_log2 s.hl
  have hh := EFBuilder.lowLen_high s.hl h0
  have hs' := s.high
  rw [Nat.mod_eq_of_lt (by omega)] at hs'
  exact ⟨t, e, by rw [s.low, hl', hn], by omega, s.lowW, s.highW⟩

example : (EFList.build [5, 9, 0, 100]).map (fun t => (t.ef.low.size, t.ef.high.size)) = some (16, 13) := by decide +kernel

/-! ## C54 -/

/-- **C54.** `rs_bit_vector` keeps two words per block of 512 bits and two more, one hint per 1024 ones and
one hint per 1024 zeros of the blocks (counting the padding of the last block); hints that were not
requested take no space. -/
theorem C54_rs_bit_vector_space (l : List Bool) (a b : Bool) :
    ∃ v, RSBitVector.build (BitVector.ofRange l) a b = some v ∧ v.bv.bits.length = words l.length ∧
      v.pairs.length = 2 * ((l.length + 511)/512) + 2 ∧
      v.hints.length = (if a then max 1 ((l.count true + 1023)/1024) else 0) ∧
      v.hints0.length = (if b then max 1 ((l.count false + (512 * ((l.length + 511)/512) - l.length) + 1023)/1024) else 0) := by
  obtain ⟨v, e, hbv, hi⟩ := RSBitVector.build_inv l a b
  have s := RSBitVector.build_shape e
  have hc : l.count true + l.count false = l.length := by
    have h := List.length_eq_countP_add_countP (fun x => x == true) (l := l)
    have h2 : l.countP (fun a => decide ¬(a == true) = true) = l.count false := by
      unfold List.count; apply List.countP_congr; intro x _; cases x <;> simp
    rw [h2] at h; unfold List.count at *; omega
  refine ⟨v, e, hi.rep.len, s.pairs, s.hints, ?_⟩
  rw [s.hints0, show 512 * ((l.length + 511)/512) - l.count true = l.count false + (512 * ((l.length + 511)/512) - l.length) by omega]

example : (RSBitVector.build (BitVector.ofRange (List.replicate 600 true)) true true).map (fun v => (v.pairs.length, v.hints.length, v.hints0.length)) =
    some (6, 1, 1) := by decide +kernel

/-! ## C55 -/

/-- **C55.** `bp_vector` keeps one 2-byte minimum per 256 bits and, over superblocks of 8192 bits, a tree of
`n + 2^⌈log₂ n⌉ < 3n` 4-byte minima (2 for a single superblock). -/
theorem C55_bp_vector_space (l : List Bool) (a b : Bool) (hl : Bal l) (hlen : l.length < 2^31) (h0 : 0 < l.length) :
    ∃ v, BpVector.build (BitVector.ofRange l) a b = some v ∧ v.blockMin.length = (l.length + 255)/256 ∧
      (∃ H, v.superMin.length = 2^H + (l.length + 8191)/8192 ∧ (l.length + 8191)/8192 ≤ 2^H) ∧
      v.superMin.length < 3 * ((l.length + 8191)/8192) := by
  have hg := (Bal.dyck hl).good hlen
  obtain ⟨v, e, hbv, hi⟩ := BpVector.build_inv l a b hg
  obtain ⟨H, e1, ht⟩ := hi.tree h0
  have hb := hi.bm h0
  refine ⟨v, e, hb.lenEq, ⟨H, ht.lenEq, ht.le⟩, ?_⟩
  unfold BpVector.build at e
  simp only [Option.bind_eq_bind, Option.bind_eq_some_iff] at e
  obtain ⟨rs, er, em⟩ := e
  have s := BpVector.buildMinTree_shape em
  have h1 := s.int
  have h2 := ht.lenEq
  have h3 := hi.rs.rep.len
  rw [s.rsEq] at h3
  omega

example : (BpVector.build (BitVector.ofRange [true, true, false, false]) false true).map (fun v => (v.blockMin.length, v.superMin.length)) =
    some (1, 2) := by decide +kernel

/-! ## C56 -/

/-- **C56.** A `darray` over `l` has one 8-byte entry per 1024 positions, one 2-byte entry per 32 positions, and
at most one 8-byte overflow entry per 64 bits of `l`, however the bits are distributed. -/
theorem C56_darray_space (l : List Bool) (neg : Bool) :
    ∃ d, Darray.build neg (BitVector.ofRange l) = some d ∧ d.inv.block.length = (l.count (!neg) + 1023)/1024 ∧
      d.inv.subblock.length = (l.count (!neg) + 31)/32 ∧ 64 * d.inv.overflow.length ≤ l.length := by
  have hr := BitVector.ofRange_rep l
  have hs := hr.size
  have hw := hr.len
  have key : ∀ d, Darray.build neg (BitVector.ofRange l) = some d → d.positions = l.count (!neg) →
      d.inv.block.length = (l.count (!neg) + 1023)/1024 ∧
      d.inv.subblock.length = (l.count (!neg) + 31)/32 ∧ 64 * d.inv.overflow.length ≤ l.length := by
    intro d e hp
    obtain ⟨h1, h2, h3, h4⟩ := EliasFano.darray_shape (by omega) e
    rw [← hp, ← hs]; exact ⟨h3, h4, h1.ov⟩
  cases neg with
  | false => obtain ⟨d, e, hp, _⟩ := C18_darray1 l; exact ⟨d, e, key d e hp⟩
  | true => obtain ⟨d, e, hp, _⟩ := C18_darray0 l; exact ⟨d, e, key d e hp⟩

/-- `darray64`: one 8-byte entry per 1024 ones and one 2-byte entry per 64 ones -/
theorem C56_darray64_space (ks : List Nat) (hks : ∀ k ∈ ks, k ≤ 64) :
    ∃ b d, (Darray64.new.bind fun b0 => ks.foldlM Darray64.append1 b0) = some b ∧ Darray64.ofBuilder b = some d ∧
      d.bits.size = ks.sum + ks.length ∧ d.bits.bits.length = words d.bits.size ∧
      d.block.length = (ks.length + 1023)/1024 ∧ d.subblock.length = (ks.length + 63)/64 := by
  obtain ⟨b, d, e1, e2, _⟩ := C19_darray64 ks hks
  obtain ⟨b0, f0, f1⟩ := Option.bind_eq_some_iff.1 e1
  have s := Darray64.ofBuilder_shape e2 (Darray64.fold_shape ks b0 b 0 0 f1 (Darray64.new_shape f0))
  rw [Nat.zero_add, Nat.zero_add] at s
  exact ⟨b, d, e1, e2, s.size, by rw [s.wl, s.size]; rfl, s.bl, s.sl⟩

/-- 1024 ones spread over 65 536 bits and more take the overflow path, 40 ones close together do not -/
example : (Darray.build false (BitVector.ofRange (List.replicate 40 true))).map (fun d => (d.inv.block.length, d.inv.subblock.length, d.inv.overflow.length)) =
    some (1, 2, 0) := by decide +kernel

/-! ## C57 -/

theorem bitsOf_add {c : Nat} (xs : List Word) (h : ∀ x ∈ xs, x.toNat + c < 2^64) :
    EFCompressedList.bitsOf (BitVec.ofNat 64 c) xs = (xs.map fun x => Nat.log2 (x.toNat + c)).sum := by
  unfold EFCompressedList.bitsOf
  congr 1
  apply List.map_congr_left
  intro x hx
  have := h x hx
  rw [BitVec.toNat_add, BitVec.toNat_ofNat, Nat.mod_eq_of_lt (a := c) (by omega), Nat.mod_eq_of_lt (by omega)]

theorem bitsOf_le (c : Word) (xs : List Word) : EFCompressedList.bitsOf c xs ≤ 64 * xs.length := by
  unfold EFCompressedList.bitsOf
  induction xs with
  | nil => simp
  | cons x xs ih =>
    have h1 : Nat.log2 (x + c).toNat ≤ 64 := by
      rcases Nat.eq_zero_or_pos (x+c).toNat with h | h
      · rw [h]; decide
      · have hx := (x+c).isLt
        have := (Nat.log2_lt (n := (x+c).toNat) (k := 64) (by omega)).2 (by omega)
        omega
    rw [List.map_cons, List.sum_cons, List.length_cons]; omega

theorem lt_of_ne_allOnes {x : Word} (h : x ≠ BitVec.allOnes 64) : x.toNat + 1 < 2^64 := by
  have := x.isLt
  rcases Nat.lt_or_ge (x.toNat + 1) (2^64) with a | a
  · exact a
  · exfalso; apply h; apply BitVec.eq_of_toNat_eq; rw [BitVec.toNat_allOnes]; omega

/-- **C57** (`gamma_vector`): each value `x` takes the `2⌊log₂(x+1)⌋ + 1` bits of its Elias gamma code, split
into a unary part (with one extra leading bit) and a binary part -/
theorem C57_gamma_vector_space (v : List Word) (hv : ∀ x ∈ v, x ≠ BitVec.allOnes 64) :
    ∃ g, GammaVector.build v = some g ∧ g.low.size = (v.map fun x => Nat.log2 (x.toNat + 1)).sum ∧
      g.high.bits.size = g.low.size + v.length + 1 ∧ g.low.bits.length = words g.low.size ∧
      g.high.bits.bits.length = words g.high.bits.size ∧ g.high.block.length = (v.length + 1 + 1023)/1024 ∧
      g.high.subblock.length = (v.length + 1 + 63)/64 := by
  obtain ⟨g, e, _⟩ := C28_gamma_vector v hv
  obtain ⟨s, s1, s2⟩ := GammaVector.build_shape e
  refine ⟨g, e, ?_, by rw [s.size, s1], by rw [s2, s1]; rfl, by rw [s.wl, s.size]; rfl, s.bl, s.sl⟩
  rw [s1]; exact bitsOf_add v fun x hx => lt_of_ne_allOnes (hv x hx)

/-- **C57** (`gamma_bit_vector`): the binary parts take `⌊log₂(x+2)⌋` bits, the unary parts as many, and one -/
theorem C57_gamma_bit_vector_space (v : List Word) (hv : ∀ x ∈ v, x.toNat < 2^64 - 2) :
    ∃ g, GammaBitVector.build v = some g ∧ g.low.size = (v.map fun x => Nat.log2 (x.toNat + 2)).sum ∧
      g.high.bits.size = g.low.size + 1 ∧ g.low.bits.length = words g.low.size ∧
      g.high.bits.bits.length = words g.high.bits.size ∧ g.high.block.length = (v.length + 1 + 1023)/1024 ∧
      g.high.subblock.length = (v.length + 1 + 63)/64 := by
  obtain ⟨g, e, _⟩ := C29_gamma_bit_vector v hv
  obtain ⟨s, s1, s2⟩ := GammaBitVector.build_shape e
  refine ⟨g, e, ?_, by rw [s.size, s1], by rw [s2, s1]; rfl, by rw [s.wl, s.size]; rfl, s.bl, s.sl⟩
  rw [s1]; exact bitsOf_add (c := 2) v fun x hx => by have := hv x hx; omega

/-- **C57** (`elias_fano_compressed_list`): the values take `⌊log₂(x+1)⌋` bits each, their offsets are `n + 1`
values of an `elias_fano` whose universe is the total length plus one -/
theorem C57_compressed_list_space (v : List Word) (hv : ∀ x ∈ v, x ≠ BitVec.allOnes 64) (hl : v.length < 2^57) :
    ∃ t, EFCompressedList.build v = some t ∧ t.bits.size = (v.map fun x => Nat.log2 (x.toNat + 1)).sum ∧
      t.bits.bits.length = words t.bits.size ∧
      t.ef.low.size = (v.length + 1) * Nat.log2 ((t.bits.size + 1) / (v.length + 1)) ∧
      t.ef.high.size ≤ 3 * (v.length + 1) + 1 := by
  obtain ⟨t, e, _⟩ := C27_compressed_list v hv hl
  obtain ⟨s, s1, s2⟩ := EFCompressedList.build_shape e
  have hb := bitsOf_add v fun x hx => lt_of_ne_allOnes (hv x hx)
  have hle := bitsOf_le 1 v
  have hb' : t.bits.size = (v.map fun x => Nat.log2 (x.toNat + 1)).sum := by rw [s1]; exact hb
  have hn : (BitVec.ofNat 64 (EFCompressedList.bitsOf 1 v) + 1 : Word).toNat = t.bits.size + 1 := by
    rw [BitVec.toNat_add, BitVec.toNat_ofNat, ← s1, show (1 : Word).toNat = 1 from rfl, Nat.mod_eq_of_lt (a := t.bits.size) (by omega), Nat.mod_eq_of_lt (by omega)]
  have hl' := lowLen_log2 s.hl
  have hh := EFBuilder.lowLen_high s.hl (by omega)
  have hs' := s.high
  rw [Nat.mod_eq_of_lt (by omega)] at hs'
  exact ⟨t, e, hb', s2, by rw [s.low, hl', hn], by omega⟩

example : (GammaVector.build [5, 0, 1000]).map (fun g => (g.low.size, g.high.bits.size)) = some (11, 15) := by decide +kernel
example : (GammaBitVector.build [5, 0, 1000]).map (fun g => (g.low.size, g.high.bits.size)) = some (12, 13) := by decide +kernel
example : (EFCompressedList.build [5, 0, 1000]).map (fun t => (t.bits.size, t.ef.low.size, t.ef.high.size)) = some (11, 4, 12) := by decide +kernel

/-- **C57** (`nibble_vector`): half a byte per value, rounded up -/
theorem C57_nibble_vector_space (l : List Nat) (hl : ∀ a ∈ l, a < 16) :
    ∃ v, NibbleVector.build l = some v ∧ v.nibbles.length = (l.length + 1)/2 := by
  obtain ⟨v, e, _, h, _⟩ := NibbleVector.build_spec l hl
  exact ⟨v, e, h⟩

example : (NibbleVector.build [3, 15, 9]).map (fun v => v.nibbles.length) = some 2 := by decide +kernel

/-! ## C58: what the constructors build can be frozen and mapped back

The bounds on the inputs keep every stored array below `2^60` elements. -/

theorem C58_bit_vector (l : List Bool) (hl : l.length < 2^60) : RestoresAt Codec.bitVector (BitVector.ofRange l) :=
  Codec.bitVector_lawful.restores _ (Codec.ofRange_fits hl)

theorem C58_rs_bit_vector (l : List Bool) (a b : Bool) (hl : l.length < 2^60) :
    ∃ v, RSBitVector.build (BitVector.ofRange l) a b = some v ∧ RestoresAt Codec.rsBitVector v := by
  obtain ⟨v, e, _⟩ := RSBitVector.build_inv l a b
  exact ⟨v, e, Codec.rsBitVector_lawful.restores _ (Codec.rsBitVector_fits (RSBitVector.build_shape e) hl)⟩

theorem bp_fits {l : List Bool} {a b : Bool} {v : BpVector} (e : BpVector.build (BitVector.ofRange l) a b = some v) (hl : l.length < 2^60) :
    Codec.bpVector.fits v := by
  unfold BpVector.build at e
  simp only [Option.bind_eq_bind, Option.bind_eq_some_iff] at e
  obtain ⟨rs, er, em⟩ := e
  exact Codec.bpVector_fits (BpVector.buildMinTree_shape em) (Codec.rsBitVector_fits (RSBitVector.build_shape er) hl)

theorem C58_bp_vector (l : List Bool) (a b : Bool) (hl : Bal l) (hlen : l.length < 2^31) :
    ∃ v, BpVector.build (BitVector.ofRange l) a b = some v ∧ RestoresAt Codec.bpVector v := by
  obtain ⟨v, e, _⟩ := BpVector.build_inv l a b ((Bal.dyck hl).good hlen)
  exact ⟨v, e, Codec.bpVector_lawful.restores _ (bp_fits e (by omega))⟩

theorem C58_darray (l : List Bool) (neg : Bool) (hl : l.length < 2^60) :
    ∃ d, Darray.build neg (BitVector.ofRange l) = some d ∧ RestoresAt Codec.darray d := by
  obtain ⟨d, e, _⟩ := C56_darray_space l neg
  exact ⟨d, e, Codec.darray_lawful.restores _ (Codec.darray_build_fits e hl)⟩

theorem C58_darray64 (ks : List Nat) (hks : ∀ k ∈ ks, k ≤ 64) (hl : ks.length < 2^53) :
    ∃ b d, (Darray64.new.bind fun b0 => ks.foldlM Darray64.append1 b0) = some b ∧ Darray64.ofBuilder b = some d ∧
      RestoresAt Codec.darray64 d := by
  obtain ⟨b, d, e1, e2, _⟩ := C19_darray64 ks hks
  obtain ⟨b0, f0, f1⟩ := Option.bind_eq_some_iff.1 e1
  have s := Darray64.ofBuilder_shape e2 (Darray64.fold_shape ks b0 b 0 0 f1 (Darray64.new_shape f0))
  have hsum : ∀ ks : List Nat, (∀ k ∈ ks, k ≤ 64) → ks.sum ≤ 64 * ks.length := by
    intro ks h
    induction ks with
    | nil => simp
    | cons k ks ih =>
      have := ih fun k hk => h k (List.mem_cons_of_mem _ hk)
      have := h k (by simp)
      rw [List.sum_cons, List.length_cons]; omega
  have := hsum ks hks
  exact ⟨b, d, e1, e2, Codec.darray64_lawful.restores _ (Codec.darray64_fits s (by omega))⟩

theorem C58_elias_fano (n : Word) (m : Nat) (xs : List Word) (h : Storable n m xs) (hm : 0 < m) (hm2 : m < 2^54) (wr : Bool) :
    ∃ ef, EliasFano.ofSeq n m xs wr = some ef ∧ RestoresAt Codec.eliasFano ef := by
  obtain ⟨ef, e, _⟩ := C20_select n m xs h wr
  have s := EliasFano.ofSeq_shape e
  have hc := s.cnt
  exact ⟨ef, e, Codec.eliasFano_lawful.restores _ (Codec.eliasFano_fits s (Codec.shape_high s hm (by omega)) (Codec.shape_low s (by omega)))⟩

theorem C58_elias_fano_list (v : List Word) (hs : (v.map BitVec.toNat).sum < 2^64 - 1) (hl : v.length < 2^54) :
    ∃ t, EFList.build v = some t ∧ RestoresAt Codec.efList t := by
  obtain ⟨t, e, _⟩ := C26_list v hs (by omega)
  have s := EFList.build_shape e
  refine ⟨t, e, Codec.efList_lawful.restores _ (show Codec.eliasFano.fits t.ef from Codec.eliasFano_fits s ?_ (Codec.shape_low s hl))⟩
  rcases Nat.eq_zero_or_pos v.length with h0 | h0
  · have := s.high
    have hv := List.eq_nil_of_length_eq_zero h0
    subst hv
    have hl0 := lowLen_log2 s.hl
    simp at hl0
    rw [hl0] at this
    simp at this
    omega
  · exact Codec.shape_high s h0 (by omega)

theorem C58_elias_fano_compressed_list (v : List Word) (hv : ∀ x ∈ v, x ≠ BitVec.allOnes 64) (hl : v.length < 2^53) :
    ∃ t, EFCompressedList.build v = some t ∧ RestoresAt Codec.efCompressedList t := by
  obtain ⟨t, e, _⟩ := C27_compressed_list v hv (by omega)
  obtain ⟨s, s1, s2⟩ := EFCompressedList.build_shape e
  have ht := bitsOf_le 1 v
  exact ⟨t, e, Codec.efCompressedList_lawful.restores _
    ⟨Codec.eliasFano_fits s (Codec.shape_high s (by omega) (by omega)) (Codec.shape_low s (by omega)),
     Codec.bitVector_fits (by simp only []; omega) (by simp only []; omega)⟩⟩

theorem C58_gamma_vector (v : List Word) (hv : ∀ x ∈ v, x ≠ BitVec.allOnes 64) (hl : v.length < 2^53) :
    ∃ g, GammaVector.build v = some g ∧ RestoresAt Codec.gammaVector g := by
  obtain ⟨g, e, _⟩ := C28_gamma_vector v hv
  obtain ⟨s, s1, s2⟩ := GammaVector.build_shape e
  have ht := bitsOf_le 1 v
  exact ⟨g, e, Codec.gammaVector_lawful.restores _ ⟨Codec.darray64_fits s (by omega), Codec.bitVector_fits (by simp only []; omega) (by simp only []; omega)⟩⟩

theorem C58_gamma_bit_vector (v : List Word) (hv : ∀ x ∈ v, x.toNat < 2^64 - 2) (hl : v.length < 2^53) :
    ∃ g, GammaBitVector.build v = some g ∧ RestoresAt Codec.gammaBitVector g := by
  obtain ⟨g, e, _⟩ := C29_gamma_bit_vector v hv
  obtain ⟨s, s1, s2⟩ := GammaBitVector.build_shape e
  have ht := bitsOf_le 2 v
  exact ⟨g, e, Codec.gammaBitVector_lawful.restores _ ⟨Codec.darray64_fits s (by omega), Codec.bitVector_fits (by simp only []; omega) (by simp only []; omega)⟩⟩

theorem C58_nibble_vector (l : List Nat) (hl : ∀ a ∈ l, a < 16) (hn : l.length + 1 < 2^60) :
    ∃ v, NibbleVector.build l = some v ∧ RestoresAt Codec.nibbleVector v := by
  obtain ⟨v, e, _⟩ := C45_nibble_vector l hl
  exact ⟨v, e, Codec.nibbleVector_lawful.restores _ (Codec.nibbleVector_fits e hn)⟩

theorem cartesian_fits {α : Type} {comp : α → α → Bool} {v : List α} (hv : v.length < 2^30 - 1) {t : CartesianTree}
    (e : CartesianTree.build comp v = some t) : Codec.cartesianTree.fits t := by
  obtain ⟨b, l, e1, e2, _, hl⟩ := C37_balanced comp v 0 false
  unfold CartesianTree.build CartesianTree.ofBuilder at e
  simp only [Option.bind_eq_bind, Option.bind_eq_some_iff, Option.pure_def, Option.some.injEq] at e e1
  obtain ⟨s0, f0, s1, f1, b', f2, bv, f3, v', f4, rfl⟩ := e
  obtain ⟨s1', ⟨s0', g0, g1⟩, g2⟩ := e1
  obtain rfl : s0' = s0 := Option.some.inj (g0.symm.trans f0)
  obtain rfl : s1' = s1 := Option.some.inj (g1.symm.trans f1)
  obtain rfl : b' = b := Option.some.inj (f2.symm.trans g2)
  obtain rfl : bv = BitVector.ofRange l := Option.some.inj (f3.symm.trans e2)
  exact bp_fits (v := v') f4 (by omega)

theorem C58_cartesian_tree {α : Type} (comp : α → α → Bool) (v : List α) (hv : v.length < 2^30 - 1) :
    ∃ t, CartesianTree.build comp v = some t ∧ RestoresAt Codec.cartesianTree t := by
  obtain ⟨t, _, e, _⟩ := C37_size comp v hv
  exact ⟨t, e, Codec.cartesianTree_lawful.restores _ (cartesian_fits hv e)⟩

theorem C58_topk_vector (v : List Nat) (hv : v.length < 2^30 - 1) (h64 : ∀ x ∈ v, x < 2^64) :
    ∃ t, TopK.build ⟨fun a b => decide (a < b), fun a b => decide (a = b)⟩ v = some t ∧ RestoresAt (Codec.topK (Codec.vu64 "m_v")) t := by
  obtain ⟨t, e, _⟩ := C58_cartesian_tree (fun x y : Nat => decide (y < x)) v hv
  refine ⟨⟨v, t⟩, by unfold TopK.build; rw [e]; rfl, (Codec.topK_lawful (Codec.vu64_lawful _)).restores _ ⟨⟨by simp only []; omega, h64⟩, cartesian_fits hv e⟩⟩

/-- the hypotheses hold for ordinary inputs -/
example : Bal [true, true, false, true, false, false, true, false] ∧ Storable 30 6 exampleSeq ∧ (0 : Nat) < 6 := ⟨bal_example, exampleSeq_storable, by decide⟩

/-- the cartesian tree over five values is restored -/
example : ∃ t, CartesianTree.build (fun x y : Nat => decide (x < y)) [3, 1, 4, 1, 5] = some t ∧ RestoresAt Codec.cartesianTree t :=
  C58_cartesian_tree _ _ (by decide)

/-- and so is a compressed list -/
example : ∃ t, EFCompressedList.build [5, 0, 1000] = some t ∧ RestoresAt Codec.efCompressedList t :=
  C58_elias_fano_compressed_list _ (by simp only [List.forall_mem_cons, ne_eq]; exact ⟨by decide, by decide, by decide, by simp⟩) (by simp only [List.length_cons, List.length_nil]; omega)

end Succinct
