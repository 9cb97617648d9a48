import Verif.Spec.Safety
import Verif.Lemmas.CheckedBp
import Verif.Lemmas.CheckedBpAgree
import Verif.Lemmas.CheckedUnary

/-! # C103: queries on untrusted objects with assertions enabled

The objects below are arbitrary: a size that does not fit the words, block indexes that point anywhere, a minimum tree of
any shape. -/
namespace Succinct
open Spec Checked

theorem Checked.Safe.contained {α : Type} {ar : Prop} {x : Run α} (h : Safe ar x) : Contained x := by
  cases x <;> first | exact absurd h id | exact ⟨by simp, by simp⟩

theorem Checked.Safe.guarded {α : Type} {ar : Prop} {x : Run α} (h : Safe ar x) (ha : ¬ ar) : Guarded x := by
  cases x with
  | ok a => exact .inl ⟨a, rfl⟩
  | abort => exact .inr rfl
  | mem => exact absurd h id
  | arith => exact absurd h ha
  | loop => exact absurd h id

theorem Checked.Agree.same {α : Type} {y : Run α} {x : Option α} (h : Agree y x) : SameValue y x := by
  intro a
  rcases h with h | h
  · subst h
    exact ⟨fun h => (nomatch h), fun _ => .inr rfl⟩
  · subst h
    cases y <;> simp [Run.toOption]

/-- **C103**, `bit_vector` -/
theorem C103_bit_vector (v : Machine.BitVector) (hv : v.bits.length < 2^64) (ov : Word → Nat → Word) (pos len : Word) (neg : Bool) :
    Guarded (Checked.BitVector.access v pos) ∧ Guarded (Checked.BitVector.getWord v pos) ∧
    Guarded (Checked.BitVector.predecessor neg v pos) ∧ Guarded (Checked.BitVector.successor neg v pos) ∧
    Contained (Checked.BitVector.getBits ov v pos len) ∧ (len ≤ 64 → Guarded (Checked.BitVector.getBits ov v pos len)) :=
  ⟨(BitVector.access_safe _ _).guarded id, (BitVector.getWord_safe _ _).guarded id, (BitVector.predecessor_safe _ _ _).guarded id,
    (BitVector.successor_safe _ _ hv _).guarded id, (BitVector.getBits_safe _ _ _ _).contained,
    fun h => (BitVector.getBits_safe _ _ _ _).guarded (by have : len.toNat ≤ 64 := h; omega)⟩

/-- a vector that claims 1000 bits and has one word: accesses beyond fail an assertion; 65 bits are an over-wide shift -/
example : Checked.BitVector.access ⟨1000, [5]⟩ 2 = .ok true ∧ Checked.BitVector.access ⟨1000, [5]⟩ 64 = .abort ∧
    Checked.BitVector.getWord ⟨1000, [5, 7]⟩ 120 = .ok 0 ∧ Checked.BitVector.getBits (fun _ _ => 0) ⟨1000, [5]⟩ 60 10 = .abort ∧
    Checked.BitVector.successor false ⟨1000, [5]⟩ 3 = .abort ∧ Checked.BitVector.predecessor true ⟨1000, [5]⟩ 2 = .ok 1 ∧
    Checked.BitVector.getBits (fun _ _ => 0) ⟨1000, [5, 7]⟩ 0 65 = .arith := by
  decide +kernel

/-- **C103**, the enumerator of `bit_vector`: from any state, any calls -/
theorem C103_enumerator (v : Machine.BitVector) (hv : v.bits.length < 2^58) (e : Machine.Enum) (calls : List Machine.EnumCall) :
    Contained (Checked.Enum.run v e calls) ∧ ((∀ l, .take l ∈ calls → l ≤ 64) → Guarded (Checked.Enum.run v e calls)) :=
  ⟨(Enum.run_safe v hv calls e).contained, fun h => (Enum.run_safe v hv calls e).guarded fun ⟨l, h1, h2⟩ => by
    have : l.toNat ≤ 64 := h l h1
    omega⟩

/-- `skip_zeros` on zeros runs into an assertion; from a buffer that claims more bits than a word the run goes on -/
example : Checked.Enum.run ⟨200, [0, 0]⟩ ⟨0, 0, 0⟩ [.skipZeros] = .abort ∧
    Checked.Enum.run ⟨200, [0, 8]⟩ ⟨0, 0, 1000⟩ [.skipZeros] = .abort ∧
    Checked.Enum.run ⟨200, [0, 8]⟩ ⟨0, 6, 1000⟩ [.skipZeros, .take 3] = .ok [(.val 1, 2), (.val 1, 5)] ∧
    Checked.Enum.run ⟨200, [0, 8]⟩ ⟨0, 6, 1000⟩ [.take 65] = .arith := by
  decide +kernel

/-- **C103**, `rs_bit_vector` with at least one pair of counts -/
theorem C103_rs_bit_vector (v : Machine.RSBitVector) (hv : 2 ≤ v.pairs.length) (x : Word) :
    Guarded (Checked.RSBitVector.numOnes v) ∧ Guarded (Checked.RSBitVector.rank v x) ∧ Guarded (Checked.RSBitVector.rank0 v x) ∧
    Guarded (Checked.RSBitVector.select v x) ∧ Guarded (Checked.RSBitVector.select0 v x) :=
  ⟨(RSBitVector.numOnes_safe (ar := False) hv).guarded id, (RSBitVector.rank_safe (ar := False) hv _).guarded id,
    (RSBitVector.rank0_safe (ar := False) hv _).guarded id, (RSBitVector.select_safe (ar := False) hv _).guarded id,
    (RSBitVector.select0_safe (ar := False) hv _).guarded id⟩

/-- counts that have nothing to do with the bits: wrong answers and failed assertions, nothing else -/
example : Checked.RSBitVector.rank ⟨⟨100, [5, 7]⟩, [90, 3, 80, 11], [], []⟩ 3 = .ok 92 ∧
    Checked.RSBitVector.rank ⟨⟨5000, [5, 7]⟩, [90, 3, 80, 11], [], []⟩ 4000 = .abort ∧
    Checked.RSBitVector.select ⟨⟨100, [5, 7]⟩, [0, 3, 80, 11], [], []⟩ 79 = .abort ∧
    Checked.RSBitVector.select ⟨⟨100, [5, 7]⟩, [0, 3, 80, 11], [7], []⟩ 2 = .abort ∧
    Checked.RSBitVector.select ⟨⟨100, [5, 7]⟩, [0, 0x180C06030180C06, 80, 11], [], []⟩ 1 = .ok 2 := by
  decide +kernel

/-- **C103** is false without a pair of counts, as in a default-constructed `rs_bit_vector`: `num_ones`, and with it
`rank(size())`, reads before the array -/
theorem C103_rs_bit_vector_empty (bv : Machine.BitVector) (hints hints0 : List Word) :
    Checked.RSBitVector.numOnes ⟨bv, [], hints, hints0⟩ = .mem ∧
    Checked.RSBitVector.rank ⟨bv, [], hints, hints0⟩ bv.size = .mem ∧
    ∀ n, Checked.RSBitVector.select ⟨bv, [], hints, hints0⟩ n = .mem := by
  refine ⟨rfl, ?_, fun n => rfl⟩
  unfold Checked.RSBitVector.rank Checked.chk
  rw [if_pos (by show bv.size ≤ bv.size; exact BitVec.le_refl _)]
  show (if bv.size = bv.size then _ else _) = _
  rw [if_pos rfl]
  rfl

/-- **C103**, `darray0`, `darray1` and `darray64` -/
theorem C103_darray (neg : Bool) (d : Machine.Darray) (bv : Machine.BitVector) (hb : bv.bits.length < 2^64) (i : Word) :
    Contained (Checked.Darray.select neg d bv i) ∧ (BitVec.intMin 64 ∉ d.inv.block → Guarded (Checked.Darray.select neg d bv i)) :=
  ⟨(Darray.select_safe neg d bv hb i).contained, fun h => (Darray.select_safe neg d bv hb i).guarded h⟩

theorem C103_darray64 (d : Machine.Darray64) (hb : d.bits.bits.length < 2^64) (i : Word) : Guarded (Checked.Darray64.select d i) :=
  (Darray64.select_safe d hb i).guarded id

/-- a block outside of the bits, an overflow index outside of the overflow positions, the least `int64_t` -/
example : Checked.Darray.select false ⟨50, ⟨[1000], [3, 4], []⟩⟩ ⟨100, [5, 7]⟩ 3 = .abort ∧
    Checked.Darray.select false ⟨50, ⟨[1000], [3, 4], []⟩⟩ ⟨100, [5, 7]⟩ 0 = .ok 1003 ∧
    Checked.Darray.select false ⟨50, ⟨[-5], [3, 4], [1, 2]⟩⟩ ⟨100, [5, 7]⟩ 3 = .abort ∧
    Checked.Darray.select false ⟨50, ⟨[0], [0, 0], [1, 2]⟩⟩ ⟨100, [5, 7]⟩ 4 = .ok 66 ∧
    Checked.Darray.select false ⟨50, ⟨[0], [0, 0], [1, 2]⟩⟩ ⟨100, [5, 7]⟩ 5 = .abort ∧
    Checked.Darray.select false ⟨50, ⟨[BitVec.intMin 64], [], []⟩⟩ ⟨0, []⟩ 0 = .arith := by
  decide +kernel

/-- **C103**, `elias_fano` -/
theorem C103_elias_fano (ov : Word → Nat → Word) (ef : Machine.EliasFano) (hb : ef.high.bits.length < 2^64) (x : Word) :
    (Contained (Checked.EliasFano.select ov ef x) ∧ Contained (Checked.EliasFano.access ov ef x) ∧
      Contained (Checked.EliasFano.rank ov ef x) ∧ Contained (Checked.EliasFano.predecessor1 ov ef x) ∧
      Contained (Checked.EliasFano.successor1 ov ef x) ∧ Contained (Checked.EliasFano.delta ov ef x) ∧
      Contained (Checked.EliasFano.selectRange ov ef x)) ∧
    (ef.l < 64 → BitVec.intMin 64 ∉ ef.d1.inv.block → BitVec.intMin 64 ∉ ef.d0.inv.block →
      Guarded (Checked.EliasFano.select ov ef x) ∧ Guarded (Checked.EliasFano.access ov ef x) ∧
      Guarded (Checked.EliasFano.rank ov ef x) ∧ Guarded (Checked.EliasFano.predecessor1 ov ef x) ∧
      Guarded (Checked.EliasFano.successor1 ov ef x) ∧ Guarded (Checked.EliasFano.delta ov ef x) ∧
      Guarded (Checked.EliasFano.selectRange ov ef x)) := by
  have h1 := EliasFano.select_safe ov ef hb x
  have h2 := EliasFano.access_safe ov ef hb x
  have h3 := EliasFano.rank_safe ov ef hb x
  have h4 := EliasFano.predecessor1_safe ov ef hb x
  have h5 := EliasFano.successor1_safe ov ef hb x
  have h6 := EliasFano.delta_safe ov ef hb x
  have h7 := EliasFano.selectRange_safe ov ef hb x
  refine ⟨⟨h1.contained, h2.contained, h3.contained, h4.contained, h5.contained, h6.contained, h7.contained⟩, fun hl b1 b0 => ?_⟩
  have hn : ¬ EliasFano.Bad ef := by
    rintro (h | h | h)
    · have : ef.l.toNat < 64 := hl
      omega
    · exact b1 h
    · exact b0 h
  exact ⟨h1.guarded hn, h2.guarded hn, h3.guarded hn, h4.guarded hn, h5.guarded hn, h6.guarded hn, h7.guarded hn⟩

/-- a corrupted sequence: `select` and `delta` answer or fail an assertion; with 64 low bits they shift too far -/
example : Checked.EliasFano.select (fun _ _ => 0) ⟨100, ⟨100, [5, 7]⟩, ⟨50, ⟨[0], [0, 0], []⟩⟩, ⟨0, ⟨[], [], []⟩⟩, ⟨20, [0xABC]⟩, 4⟩ 2 = .ok 0x3EA ∧
    Checked.EliasFano.select (fun _ _ => 0) ⟨100, ⟨100, [5, 7]⟩, ⟨50, ⟨[0], [0, 0], []⟩⟩, ⟨0, ⟨[], [], []⟩⟩, ⟨20, [0xABC]⟩, 4⟩ 7 = .abort ∧
    Checked.EliasFano.delta (fun _ _ => 0) ⟨100, ⟨100, [5, 7]⟩, ⟨50, ⟨[40], [0, 0], []⟩⟩, ⟨0, ⟨[], [], []⟩⟩, ⟨20, [0xABC]⟩, 4⟩ 1 = .ok 0xFFFFFFFFFFFFFFFF ∧
    Checked.EliasFano.rank (fun _ _ => 0) ⟨100, ⟨100, [5, 7]⟩, ⟨50, ⟨[40], [0, 0], []⟩⟩, ⟨9, ⟨[1], [60], []⟩⟩, ⟨20, [0xABC]⟩, 4⟩ 3 = .ok 61 ∧
    Checked.EliasFano.select (fun _ _ => 0) ⟨100, ⟨100, [5, 7]⟩, ⟨50, ⟨[0], [0, 0], []⟩⟩, ⟨0, ⟨[], [], []⟩⟩, ⟨200, [0xABC]⟩, 64⟩ 0 = .arith := by
  decide +kernel

/-- **C103**, the lists of integers, `nibble_vector` and `vbyte` -/
theorem C103_lists (ov : Word → Nat → Word) (x : Word) :
    (∀ v : Machine.EliasFano, v.high.bits.length < 2^64 → Contained (Checked.EFList.get ov v x)) ∧
    (∀ v : Machine.EFCompressedList, v.ef.high.bits.length < 2^64 → Contained (Checked.EFCompressedList.get ov v x)) ∧
    (∀ v : Machine.GammaVec, v.high.bits.bits.length < 2^64 →
      Guarded (Checked.GammaVector.get ov v x) ∧ Contained (Checked.GammaBitVector.get ov v x)) ∧
    (∀ v : Machine.NibbleVector, Guarded (Checked.NibbleVector.get v x)) ∧
    (∀ v : List (BitVec 8), v.length < 2^64 → Guarded (Checked.Vbyte.decode v x)) :=
  ⟨fun v h => (EliasFano.delta_safe ov v h x).contained, fun v h => (EFCompressedList.get_safe ov v h x).contained,
    fun v h => ⟨(GammaVector.get_safe ov v h x).guarded id, (GammaBitVector.get_safe ov v h x).contained⟩,
    fun v => (NibbleVector.get_safe v x).guarded id, fun v h => (Vbyte.decode_safe v h x).guarded id⟩

/-- gaps of 64 zeros and more, a `darray64` that points anywhere, bytes without an end: `gamma_bit_vector` shifts by 64 bits -/
example : Checked.GammaVector.get (fun _ _ => 0) ⟨⟨3, ⟨128, [1, 1]⟩, [0], [0]⟩, ⟨128, [9, 9]⟩⟩ 0 = .ok (0x8000000000000009 - 1) ∧
    Checked.GammaVector.get (fun _ _ => 0) ⟨⟨3, ⟨128, [1, 1]⟩, [700], [0]⟩, ⟨128, [9, 9]⟩⟩ 0 = .abort ∧
    Checked.GammaVector.get (fun _ _ => 0) ⟨⟨3, ⟨128, [1, 0]⟩, [0], [0]⟩, ⟨128, [9, 9]⟩⟩ 0 = .abort ∧
    Checked.GammaBitVector.get (fun _ _ => 0) ⟨⟨3, ⟨128, [1, 1]⟩, [0], [0]⟩, ⟨128, [9, 9]⟩⟩ 0 = .arith ∧
    Checked.NibbleVector.get ⟨50, [0x12, 0x34]⟩ 3 = .ok 3 ∧ Checked.NibbleVector.get ⟨50, [0x12, 0x34]⟩ 4 = .abort ∧
    Checked.Vbyte.decode [0x81, 0x02, 0x83] 0 = .ok (130, 2) ∧ Checked.Vbyte.decode [0x81, 0x02, 0x83] 2 = .abort := by
  decide +kernel

/-- **C103**, `bp_vector` -/
theorem C103_bp_vector (ov : Word → Nat → Word) (v : Machine.BpVector) (hp : 2 ≤ v.rs.pairs.length) (hs : v.superMin.length ≤ 2^62) (a b : Word) :
    Contained (Checked.BpVector.excess v a) ∧ Contained (Checked.BpVector.findClose ov v a) ∧ Contained (Checked.BpVector.findOpen ov v a) ∧
    Contained (Checked.BpVector.enclose ov v a) ∧ Contained (Checked.BpVector.excessRmq v a b) :=
  ⟨(BpVector.excess_safe (ar := True) hp a).contained, (BpVector.findClose_safe ov v hp hs a).contained, (BpVector.findOpen_safe ov v hp hs a).contained,
    (BpVector.enclose_safe ov v hp hs a).contained, (BpVector.excessRmq_safe v hp hs a b).contained⟩

/-- **C103**, `cartesian_tree` -/
theorem C103_cartesian_tree (t : Machine.CartesianTree) (hp : 2 ≤ t.bp.rs.pairs.length) (hs : t.bp.superMin.length ≤ 2^62) (a b : Word) :
    Contained (Checked.CartesianTree.rmq t a b) :=
  (CartesianTree.rmq_safe t hp hs a b).contained

/-- a node above the range of the tree, a tree whose minimums lie, and a minimum that overflows the excess -/
example : Checked.BpVector.findClose (fun _ _ => 0) ⟨⟨⟨600, List.replicate 10 (BitVec.allOnes 64)⟩, [0, 0, 512, 0], [], []⟩, 1, [], []⟩ 3 = .abort ∧
    Checked.BpVector.findClose (fun _ _ => 0) ⟨⟨⟨600, List.replicate 10 (BitVec.allOnes 64)⟩, [0, 0, 512, 0], [], []⟩, 1, [0, 0, 1], [0, 0]⟩ 3 = .abort ∧
    Checked.BpVector.findClose (fun _ _ => 0) ⟨⟨⟨600, [11]⟩, [0, 0, 512, 0], [], []⟩, 1, [0, 0, 1], [0, 0]⟩ 1 = .ok 2 ∧
    Checked.BpVector.findClose (fun _ _ => 0) ⟨⟨⟨600, List.replicate 10 (BitVec.allOnes 64)⟩, [512, 0, 512, 0], [], []⟩, 1, [0, 2147483647], [0, 0]⟩ 3 = .arith := by
  decide +kernel

/-- **C103**: the constructors of the enumerators of `elias_fano`, `gamma_vector` and `gamma_bit_vector` read through a plain
pointer: with a corrupted `darray` they read outside of the vector although all assertions are enabled -/
theorem C103_enumerators_unchecked :
    (∀ bits : List Word, ∀ pos : Word, bits.length ≤ pos.toNat / 64 → Checked.UEnum.new bits pos = .mem) ∧
    Checked.EliasFano.SelEnum.new ⟨100, ⟨100, [5, 7]⟩, ⟨50, ⟨[1000], [0, 0], []⟩⟩, ⟨0, ⟨[], [], []⟩⟩, ⟨20, [0xABC]⟩, 4⟩ 0 = .mem ∧
    Checked.GammaVector.enumNew ⟨⟨3, ⟨128, [1, 1]⟩, [700], [0]⟩, ⟨128, [9, 9]⟩⟩ 0 = .mem ∧
    Checked.GammaBitVector.enumNew ⟨⟨3, ⟨128, [1, 1]⟩, [700], [0]⟩, ⟨128, [9, 9]⟩⟩ 0 = .mem := by
  refine ⟨fun bits pos h => ?_, by decide +kernel, by rfl, by rfl⟩
  have e : (pos / 64).toNat = pos.toNat / 64 := by rw [BitVec.toNat_udiv]; rfl
  unfold Checked.UEnum.new Checked.raw
  rw [e, List.getElem?_eq_none h]
  rfl

/-- the three objects just named pass the checks of random access -/
example : Checked.EliasFano.select (fun _ _ => 0) ⟨100, ⟨100, [5, 7]⟩, ⟨50, ⟨[1000], [0, 0], []⟩⟩, ⟨0, ⟨[], [], []⟩⟩, ⟨20, [0xABC]⟩, 4⟩ 0 = .ok 16012 ∧
    (130 : Word).toNat / 64 ≥ [5, (7 : Word)].length := by
  decide +kernel

/-- **C103**, `unary_enumerator::next`, which reads through a plain pointer as well: from any state it terminates, either with
a value, which is that of the 64-bit model, or with a read outside of the words; the latter happens exactly if no bit is left in
the buffer nor in any later word -/
theorem C103_unary_enumerator (bits : List Word) (hb : bits.length < 2^57) (hn : bits ≠ []) (e : Machine.UEnum)
    (he : e.position.toNat + 64 < 2^64) :
    (Checked.UEnum.next bits e = .mem ↔ e.buf = 0 ∧ ∀ w ∈ bits.drop (e.position.toNat / 64 + 1), w = 0) ∧
    (Checked.UEnum.next bits e ≠ .mem → ∃ r, Checked.UEnum.next bits e = .ok r ∧ Machine.UEnum.next bits e = some r) := by
  have hs := (UEnum.next_agree bits e).same
  unfold Checked.UEnum.next at hs ⊢
  rcases UEnum.nextLoop_cases bits hb bits.length e.position e.buf he (by omega) (List.length_pos_iff.2 hn) with
    ⟨h1, h2, h3⟩ | ⟨⟨⟨p, b, r⟩, h1⟩, h2⟩
  · rw [h1]
    exact ⟨⟨fun _ => ⟨h2, h3⟩, fun _ => rfl⟩, fun h => absurd rfl h⟩
  · rw [h1] at hs ⊢
    refine ⟨⟨fun h => (nomatch h), fun ⟨h, h'⟩ => ?_⟩, fun _ => ⟨_, rfl, (hs _).1 rfl⟩⟩
    rcases h2 with h2 | ⟨w, h2, h3⟩
    · exact absurd h h2
    · exact absurd (h' w h2) h3

/-- a next one two words on, and none: the read behind the last word; the position may lie behind the words to begin with -/
example : Checked.UEnum.next [1, 0, 4] ⟨0, 0⟩ = .ok (130, ⟨130, 0⟩) ∧ Checked.UEnum.next [1, 0, 4] ⟨130, 0⟩ = .mem ∧
    Checked.UEnum.next [1, 0, 4] ⟨5000, 6⟩ = .ok (4993, ⟨4993, 4⟩) ∧ Checked.UEnum.next [1, 0, 4] ⟨5000, 0⟩ = .mem := by
  decide +kernel

/-- **C103**, values: a run with a value has the value of the 64-bit model, of which the other claims say what it is -/
theorem C103_values (ov : Word → Nat → Word) (neg : Bool) (x y : Word) :
    (∀ v : Machine.BitVector, SameValue (Checked.BitVector.access v x) (v.access x) ∧
      SameValue (Checked.BitVector.getBits ov v x y) (v.getBits ov x y) ∧ SameValue (Checked.BitVector.getWord v x) (v.getWord x) ∧
      SameValue (Checked.BitVector.predecessor neg v x) (v.predecessor neg x) ∧
      SameValue (Checked.BitVector.successor neg v x) (v.successor neg x) ∧
      ∀ e calls, SameValue (Checked.Enum.run v e calls) (Machine.Enum.run v e calls)) ∧
    (∀ v : Machine.RSBitVector, SameValue (Checked.RSBitVector.rank v x) (v.rank x) ∧ SameValue (Checked.RSBitVector.rank0 v x) (v.rank0 x) ∧
      SameValue (Checked.RSBitVector.select v x) (v.select x) ∧ SameValue (Checked.RSBitVector.select0 v x) (v.select0 x)) ∧
    (∀ d bv, SameValue (Checked.Darray.select neg d bv x) (d.select neg bv x)) ∧
    (∀ d, SameValue (Checked.Darray64.select d x) (d.select x)) ∧
    (∀ ef : Machine.EliasFano, SameValue (Checked.EliasFano.select ov ef x) (ef.select ov x) ∧
      SameValue (Checked.EliasFano.access ov ef x) (ef.access ov x) ∧ SameValue (Checked.EliasFano.rank ov ef x) (ef.rank ov x) ∧
      SameValue (Checked.EliasFano.predecessor1 ov ef x) (ef.predecessor1 ov x) ∧
      SameValue (Checked.EliasFano.successor1 ov ef x) (ef.successor1 ov x) ∧
      SameValue (Checked.EliasFano.delta ov ef x) (ef.delta ov x) ∧
      SameValue (Checked.EliasFano.selectRange ov ef x) (ef.selectRange ov x) ∧
      SameValue (Checked.EliasFano.SelEnum.new ef x) (Machine.EliasFano.SelEnum.new ef x)) ∧
    (∀ v : Machine.EFCompressedList, SameValue (Checked.EFCompressedList.get ov v x) (v.get ov x)) ∧
    (∀ v : Machine.GammaVec, SameValue (Checked.GammaVector.get ov v x) (Machine.GammaVector.get ov v x) ∧
      SameValue (Checked.GammaBitVector.get ov v x) (Machine.GammaBitVector.get ov v x) ∧
      SameValue (Checked.GammaVector.enumNew v x) (Machine.GammaVector.enumNew v x) ∧
      SameValue (Checked.GammaBitVector.enumNew v x) (Machine.GammaBitVector.enumNew v x)) ∧
    (∀ v : Machine.NibbleVector, SameValue (Checked.NibbleVector.get v x) (v.get x)) ∧
    (∀ v : List (BitVec 8), v.length < 2^64 → SameValue (Checked.Vbyte.decode v x) (Machine.Vbyte.decode v x)) ∧
    (∀ v : Machine.BpVector, SameValue (Checked.BpVector.excess v x) (v.excess x) ∧ SameValue (Checked.BpVector.findClose ov v x) (v.findClose ov x) ∧
      SameValue (Checked.BpVector.findOpen ov v x) (v.findOpen ov x) ∧ SameValue (Checked.BpVector.enclose ov v x) (v.enclose ov x) ∧
      SameValue (Checked.BpVector.excessRmq v x y) (v.excessRmq x y)) ∧
    (∀ t : Machine.CartesianTree, SameValue (Checked.CartesianTree.rmq t x y) (t.rmq x y)) :=
  ⟨fun v => ⟨(BitVector.access_agree v x).same, (BitVector.getBits_agree ov v x y).same, (BitVector.getWord_agree v x).same,
      (BitVector.predecessor_agree neg v x).same, (BitVector.successor_agree neg v x).same, fun e calls => (Enum.run_agree v calls e).same⟩,
    fun v => ⟨(RSBitVector.rank_agree v x).same, (RSBitVector.rank0_agree v x).same, (RSBitVector.select_agree v x).same,
      (RSBitVector.select0_agree v x).same⟩,
    fun d bv => (Darray.select_agree neg d bv x).same, fun d => (Darray64.select_agree d x).same,
    fun ef => ⟨(EliasFano.select_agree ov ef x).same, (EliasFano.access_agree ov ef x).same, (EliasFano.rank_agree ov ef x).same,
      (EliasFano.predecessor1_agree ov ef x).same, (EliasFano.successor1_agree ov ef x).same, (EliasFano.delta_agree ov ef x).same,
      (EliasFano.selectRange_agree ov ef x).same, (EliasFano.SelEnum.new_agree ef x).same⟩,
    fun v => (EFCompressedList.get_agree ov v x).same,
    fun v => ⟨(GammaVector.get_agree ov v x).same, (GammaBitVector.get_agree ov v x).same, (GammaVector.enumNew_agree v x).same,
      (GammaBitVector.enumNew_agree v x).same⟩,
    fun v => (NibbleVector.get_agree v x).same, fun v h => (Vbyte.decode_agree v h x).same,
    fun v => ⟨(BpVector.excess_agree v x).same, (BpVector.findClose_agree ov v x).same, (BpVector.findOpen_agree ov v x).same,
      (BpVector.enclose_agree ov v x).same, (BpVector.excessRmq_agree v x y).same⟩,
    fun t => (CartesianTree.rmq_agree t x y).same⟩

/-- the run of the checked model and of the 64-bit model on the same bits -/
example : Checked.BitVector.successor false ⟨70, [0, 32]⟩ 3 = .ok 69 ∧ Machine.BitVector.successor false ⟨70, [0, 32]⟩ 3 = some 69 := by
  decide +kernel

end Succinct
