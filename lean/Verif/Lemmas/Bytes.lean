import Verif.Props.Space

/-! # `size_of` of the structures in terms of the lengths of their arrays -/
namespace Succinct
open Spec Mapper

namespace Mapper

theorem vec_size {α : Type} (name : String) (k : Nat) (enc : α → List Byte) (dec : List Byte → α) (fits : α → Prop)
    (xs : List α) (r : Val) (s : Nat) (h : xs.length * k < 2^64) :
    sizeV ((Codec.vec name k enc dec fits).put xs r) s = sizeV r (s + 8 + k * xs.length) := by
  simp only [Codec.vec, sizeV, List.length_map]
  rw [Nat.mod_eq_of_lt h, Nat.mul_comm]

theorem u64_size (name : String) (x : Nat) (r : Val) (s : Nat) : sizeV ((Codec.u64 name).put x r) s = sizeV r (s + 8) := by
  simp only [Codec.u64, Codec.pod, sizeV, leEnc_length]

theorem w64_size (name : String) (x : Word) (r : Val) (s : Nat) : sizeV ((Codec.w64 name).put x r) s = sizeV r (s + 8) := by
  simp only [Codec.w64, Codec.pod, sizeV, leEnc_length]

theorem u8_size (name : String) (x : Nat) (r : Val) (s : Nat) : sizeV ((Codec.u8 name).put x r) s = sizeV r (s + 1) := by
  simp only [Codec.u8, Codec.pod, sizeV, leEnc_length]

theorem obj_size {α : Type} (name : String) (c : Codec α) (x : α) (r : Val) (s : Nat) :
    sizeV ((Codec.obj name c).put x r) s = sizeV r (sizeV (c.put x .done) s) := by
  simp only [Codec.obj, sizeV]

theorem bv_size (v : BitVector) (r : Val) (s : Nat) (h : v.bits.length < 2^60) :
    sizeV (Codec.bitVector.put v r) s = sizeV r (s + 16 + 8 * v.bits.length) := by
  show sizeV ((Codec.u64 "m_size").put v.size ((Codec.vw64 "m_bits").put v.bits r)) s = _
  rw [u64_size]
  unfold Codec.vw64
  rw [vec_size _ _ _ _ _ _ _ _ (by omega)]

theorem rs_size (v : RSBitVector) (r : Val) (s : Nat) (h : v.bv.bits.length < 2^60) (h1 : v.pairs.length < 2^60)
    (h2 : v.hints.length < 2^60) (h3 : v.hints0.length < 2^60) :
    sizeV (Codec.rsBitVector.put v r) s =
      sizeV r (s + 40 + 8 * (v.bv.bits.length + v.pairs.length + v.hints.length + v.hints0.length)) := by
  show sizeV (Codec.bitVector.put v.bv ((Codec.vu64 "m_block_rank_pairs").put v.pairs ((Codec.vu64 "m_select_hints").put v.hints
    ((Codec.vu64 "m_select0_hints").put v.hints0 r)))) s = _
  rw [bv_size _ _ _ h]
  unfold Codec.vu64
  rw [vec_size _ _ _ _ _ _ _ _ (by omega), vec_size _ _ _ _ _ _ _ _ (by omega), vec_size _ _ _ _ _ _ _ _ (by omega)]
  congr 1; omega

theorem bp_size (v : BpVector) (r : Val) (s : Nat) (h : v.rs.bv.bits.length < 2^60) (h1 : v.rs.pairs.length < 2^60)
    (h2 : v.rs.hints.length < 2^60) (h3 : v.rs.hints0.length < 2^60) (h4 : v.blockMin.length < 2^60) (h5 : v.superMin.length < 2^60) :
    sizeV (Codec.bpVector.put v r) s =
      sizeV r (s + 64 + 8 * (v.rs.bv.bits.length + v.rs.pairs.length + v.rs.hints.length + v.rs.hints0.length) +
        2 * v.blockMin.length + 4 * v.superMin.length) := by
  show sizeV (Codec.rsBitVector.put v.rs ((Codec.u64 "m_internal_nodes").put v.internalNodes
    ((Codec.vi16 "m_block_excess_min").put v.blockMin ((Codec.vi32 "m_superblock_excess_min").put v.superMin r)))) s = _
  rw [rs_size _ _ _ h h1 h2 h3, u64_size]
  unfold Codec.vi16 Codec.vi32
  rw [vec_size _ _ _ _ _ _ _ _ (by omega), vec_size _ _ _ _ _ _ _ _ (by omega)]
  congr 1; omega

theorem darray_size (v : Darray) (r : Val) (s : Nat) (h1 : v.inv.block.length < 2^60) (h2 : v.inv.subblock.length < 2^60)
    (h3 : v.inv.overflow.length < 2^60) :
    sizeV (Codec.darray.put v r) s =
      sizeV r (s + 32 + 8 * v.inv.block.length + 2 * v.inv.subblock.length + 8 * v.inv.overflow.length) := by
  show sizeV ((Codec.u64 "m_positions").put v.positions ((Codec.vi64 "m_block_inventory").put v.inv.block
    ((Codec.vu16 "m_subblock_inventory").put v.inv.subblock ((Codec.vu64 "m_overflow_positions").put v.inv.overflow r)))) s = _
  rw [u64_size]
  unfold Codec.vi64 Codec.vu16 Codec.vu64
  rw [vec_size _ _ _ _ _ _ _ _ (by omega), vec_size _ _ _ _ _ _ _ _ (by omega), vec_size _ _ _ _ _ _ _ _ (by omega)]
  congr 1; omega

theorem darray64_size (v : Darray64) (r : Val) (s : Nat) (h : v.bits.bits.length < 2^60) (h1 : v.block.length < 2^60)
    (h2 : v.subblock.length < 2^60) :
    sizeV (Codec.darray64.put v r) s = sizeV r (s + 40 + 8 * v.bits.bits.length + 8 * v.block.length + 2 * v.subblock.length) := by
  show sizeV ((Codec.u64 "m_num_ones").put v.numOnes ((Codec.obj "m_bits" Codec.bitVector).put v.bits
    ((Codec.vu64 "m_block_inventory").put v.block ((Codec.vu16 "m_subblock_inventory").put v.subblock r)))) s = _
  rw [u64_size, obj_size, bv_size _ _ _ h]
  unfold Codec.vu16 Codec.vu64
  rw [vec_size _ _ _ _ _ _ _ _ (by omega), vec_size _ _ _ _ _ _ _ _ (by omega)]
  congr 1; simp only [sizeV]; omega

theorem ef_size (v : EliasFano) (r : Val) (s : Nat) (h : v.high.bits.length < 2^60) (h0 : v.low.bits.length < 2^60)
    (h1 : v.d1.inv.block.length < 2^60) (h2 : v.d1.inv.subblock.length < 2^60) (h3 : v.d1.inv.overflow.length < 2^60)
    (h4 : v.d0.inv.block.length < 2^60) (h5 : v.d0.inv.subblock.length < 2^60) (h6 : v.d0.inv.overflow.length < 2^60) :
    sizeV (Codec.eliasFano.put v r) s =
      sizeV r (s + 105 + 8 * v.high.bits.length + 8 * v.low.bits.length +
        (8 * v.d1.inv.block.length + 2 * v.d1.inv.subblock.length + 8 * v.d1.inv.overflow.length) +
        (8 * v.d0.inv.block.length + 2 * v.d0.inv.subblock.length + 8 * v.d0.inv.overflow.length)) := by
  show sizeV ((Codec.w64 "m_size").put v.size ((Codec.obj "m_high_bits" Codec.bitVector).put v.high
    ((Codec.obj "m_high_bits_d1" Codec.darray).put v.d1 ((Codec.obj "m_high_bits_d0" Codec.darray).put v.d0
    ((Codec.obj "m_low_bits" Codec.bitVector).put v.low ((Codec.u8 "m_l").put v.l r)))))) s = _
  rw [w64_size, obj_size, bv_size _ _ _ h, obj_size, darray_size _ _ _ h1 h2 h3, obj_size, darray_size _ _ _ h4 h5 h6,
    obj_size, bv_size _ _ _ h0, u8_size]
  congr 1; simp only [sizeV]; omega

theorem top_size {α : Type} (c : Codec α) (name : String) (x : α) : sizeBytes (top c name x) = sizeV (c.put x .done) 0 := by
  unfold sizeBytes top
  rw [obj_size]; rfl

end Mapper

theorem bal_counts {l : List Bool} (h : Bal l) : 2 * l.count true = l.length ∧ 2 * l.count false = l.length := by
  induction h with
  | nil => simp
  | node _ _ i1 i2 => simp; omega

/-- an `elias_fano` without rank index has an empty `m_high_bits_d0` -/
theorem EliasFano.build_d0 {b : EFBuilder} {ef : EliasFano} (h : EliasFano.build b false = some ef) :
    ef.d0 = ⟨0, ⟨[], [], []⟩⟩ := by
  unfold EliasFano.build at h
  simp only [Option.bind_eq_bind, Option.bind_eq_some_iff] at h
  obtain ⟨hi, _, d1, _, h⟩ := h
  simp only [Bool.false_eq_true, if_false, Option.pure_def, Option.bind_some] at h
  revert h
  cases BitVector.ofBuilder _ with
  | none => intro h; cases h
  | some lo =>
    intro h
    have h' := Option.some.inj h
    rw [← h']

theorem EliasFano.ofSeq_d0 {n : Word} {m : Nat} {xs : List Word} {ef : EliasFano} (h : EliasFano.ofSeq n m xs false = some ef) :
    ef.d0 = ⟨0, ⟨[], [], []⟩⟩ := by
  unfold EliasFano.ofSeq at h
  simp only [Option.bind_eq_bind, Option.bind_eq_some_iff] at h
  obtain ⟨_, _, _, _, h⟩ := h
  exact EliasFano.build_d0 h

theorem EFList.build_d0 {v : List Word} {t : EFList} (h : EFList.build v = some t) : t.ef.d0 = ⟨0, ⟨[], [], []⟩⟩ := by
  unfold EFList.build at h
  simp only [Option.bind_eq_bind, Option.bind_eq_some_iff, Option.pure_def, Option.some.injEq] at h
  obtain ⟨_, _, _, _, ef, h, rfl⟩ := h
  exact EliasFano.build_d0 h

theorem EFCompressedList.build_d0 {v : List Word} {t : EFCompressedList} (h : EFCompressedList.build v = some t) :
    t.ef.d0 = ⟨0, ⟨[], [], []⟩⟩ := by
  unfold EFCompressedList.build at h
  simp only [Option.bind_eq_bind, Option.bind_eq_some_iff, Option.pure_def, Option.some.injEq] at h
  obtain ⟨s, es, b0, e0, bits, eb, b1, e1, ⟨bits', b2⟩, e2, ef, e3, bv, e4, rfl⟩ := h
  exact EliasFano.build_d0 e3

end Succinct
