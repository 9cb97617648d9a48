import Verif.Model.Mapper

/-! # `mapper.hpp` and the widths of `long` and `size_t`

`freeze_visitor` passes the number of bytes of a vector to `ostream::write` as `long(n_bytes)` (`mapper.hpp:84`), and
`long` has 32 bits on 64-bit Windows and on 32-bit platforms.  The fields `m_size` of `bit_vector` and `nibble_vector`,
`m_positions` of `darray` and `m_num_ones` of `darray64` are of type `size_t` and are written with `sizeof(size_t)`
bytes, 4 on 32-bit platforms.  `Model/Mapper` has 8 bytes for both types. -/
namespace Succinct.Mapper

/-- `long(n_bytes)` where `long` has 32 bits (`mapper.hpp:84`); the conversion keeps the low bits, as all compilers do -/
def long32 (n : Nat) : Int := Int.bmod n (2^32)

/-- `freezeV` where `long` has 32 bits (`mapper.hpp:63-88`).  `write` with a negative count violates its precondition.
`m_written` is still increased by `n_bytes` (`85`). -/
def freezeVL : Val → Out → Option Out
  | .done, o => some o
  | .pod _ bs rest, o => freezeVL rest (o.put bs bs.length)
  | .vec _ es xs rest, o => do
    let o := o.put (leEnc 8 xs.length) 8
    let n := xs.length * es % 2^64
    assertP (0 ≤ long32 n)
    let data ← rdBytes xs.flatten 0 (long32 n).toNat
    freezeVL rest (o.put data n)
  | .obj _ inner rest, o => do
    let o ← freezeVL inner o
    freezeVL rest o

/-- `mapper.hpp:53-61,234-240` where `long` has 32 bits -/
def freezeLong32 (x : Val) (flags : Nat) : Option Out :=
  freezeVL x (Out.put ⟨[], 0⟩ (leEnc 8 flags) 8)

namespace Codec

/-- a `size_t` of `w` bytes (e.g. `bit_vector.hpp:525`) -/
def szW (w : Nat) (name : String) : Codec Nat := pod name w (leEnc w) leDec (· < 256^w)

/-- `bit_vector::map` (`bit_vector.hpp:228-232`) where `size_t` has `w` bytes -/
def bitVectorW (w : Nat) : Codec BitVector :=
  iso (szW w "m_size" ⊳ vw64 "m_bits") (fun p => ⟨p.1, p.2⟩) (fun v => (v.size, v.bits))

/-- `rs_bit_vector::map` (`rs_bit_vector.hpp:27-34`) -/
def rsBitVectorW (w : Nat) : Codec RSBitVector :=
  iso (bitVectorW w ⊳ vu64 "m_block_rank_pairs" ⊳ vu64 "m_select_hints" ⊳ vu64 "m_select0_hints")
    (fun p => ⟨p.1, p.2.1, p.2.2.1, p.2.2.2⟩) (fun v => (v.bv, v.pairs, v.hints, v.hints0))

/-- `bp_vector::map` (`bp_vector.hpp:29-36`); `m_internal_nodes` is a `uint64_t` -/
def bpVectorW (w : Nat) : Codec BpVector :=
  iso (rsBitVectorW w ⊳ u64 "m_internal_nodes" ⊳ vi16 "m_block_excess_min" ⊳ vi32 "m_superblock_excess_min")
    (fun p => ⟨p.1, p.2.1, p.2.2.1, p.2.2.2⟩) (fun v => (v.rs, v.internalNodes, v.blockMin, v.superMin))

/-- `darray::map` (`darray.hpp:58-65`) -/
def darrayW (w : Nat) : Codec Darray :=
  iso (szW w "m_positions" ⊳ vi64 "m_block_inventory" ⊳ vu16 "m_subblock_inventory" ⊳ vu64 "m_overflow_positions")
    (fun p => ⟨p.1, ⟨p.2.1, p.2.2.1, p.2.2.2⟩⟩) (fun v => (v.positions, v.inv.block, v.inv.subblock, v.inv.overflow))

/-- `darray64::map` (`darray64.hpp:57-64`) -/
def darray64W (w : Nat) : Codec Darray64 :=
  iso (szW w "m_num_ones" ⊳ obj "m_bits" (bitVectorW w) ⊳ vu64 "m_block_inventory" ⊳ vu16 "m_subblock_inventory")
    (fun p => ⟨p.1, p.2.1, p.2.2.1, p.2.2.2⟩) (fun v => (v.numOnes, v.bits, v.block, v.subblock))

/-- `elias_fano::map` (`elias_fano.hpp:81-90`); its own `m_size` is a `uint64_t` (`266`) -/
def eliasFanoW (w : Nat) : Codec EliasFano :=
  iso (w64 "m_size" ⊳ obj "m_high_bits" (bitVectorW w) ⊳ obj "m_high_bits_d1" (darrayW w) ⊳ obj "m_high_bits_d0" (darrayW w) ⊳
      obj "m_low_bits" (bitVectorW w) ⊳ u8 "m_l")
    (fun p => ⟨p.1, p.2.1, p.2.2.1, p.2.2.2.1, p.2.2.2.2.1, p.2.2.2.2.2⟩)
    (fun v => (v.size, v.high, v.d1, v.d0, v.low, v.l))

/-- `elias_fano_list::map` (`elias_fano_list.hpp:58-62`) -/
def efListW (w : Nat) : Codec EFList := iso (obj "m_ef" (eliasFanoW w)) (fun e => ⟨e⟩) (fun v => v.ef)

/-- `elias_fano_compressed_list::map` (`elias_fano_compressed_list.hpp:62-67`) -/
def efCompressedListW (w : Nat) : Codec EFCompressedList :=
  iso (obj "m_ef" (eliasFanoW w) ⊳ obj "m_bits" (bitVectorW w)) (fun p => ⟨p.1, p.2⟩) (fun v => (v.ef, v.bits))

/-- `gamma_vector::map` and `gamma_bit_vector::map` (`gamma_vector.hpp:60-65`, `gamma_bit_vector.hpp:66-71`) -/
def gammaVectorW (w : Nat) : Codec GammaVec :=
  iso (obj "m_high_bits" (darray64W w) ⊳ obj "m_low_bits" (bitVectorW w)) (fun p => ⟨p.1, p.2⟩) (fun v => (v.high, v.low))

/-- `cartesian_tree::map` (`cartesian_tree.hpp:150-154`) -/
def cartesianTreeW (w : Nat) : Codec CartesianTree := iso (obj "m_bp" (bpVectorW w)) (fun b => ⟨b⟩) (fun t => t.bp)

/-- `nibble_vector::map` (`nibble_vector.hpp:42-47`) -/
def nibbleVectorW (w : Nat) : Codec NibbleVector :=
  iso (szW w "m_size" ⊳ vec "m_nibbles" 1 (fun x => [x]) (fun bs => bs.headD 0) (fun _ => True))
    (fun p => ⟨p.1, p.2⟩) (fun v => (v.size, v.nibbles))

/-- `topk_vector::map` (`topk_vector.hpp:169-174`) over a `mappable_vector<uint64_t>` -/
def topKW (w : Nat) : Codec (TopK Nat) :=
  iso (vu64 "m_v" ⊳ obj "m_cartesian_tree" (cartesianTreeW w)) (fun p => ⟨p.1, p.2⟩) (fun t => (t.v, t.tree))

end Codec
end Succinct.Mapper
