import Verif.Lemmas.MapperProps

/-! # C40, C41, C42, C51, C52: freezing, mapping and size accounting

The predicates are in `Verif/Spec/Mapper.lean`.  `c.fits x` says that every field of `x` is
representable in its C++ type and every vector has fewer than `2^60` elements, which every object in
memory satisfies. -/
namespace Succinct
open Mapper Spec

/-! ## C40 -/

theorem C40_bit_vector : Restores Codec.bitVector := Codec.bitVector_lawful.restores
theorem C40_rs_bit_vector : Restores Codec.rsBitVector := Codec.rsBitVector_lawful.restores
theorem C40_bp_vector : Restores Codec.bpVector := Codec.bpVector_lawful.restores
theorem C40_darray : Restores Codec.darray := Codec.darray_lawful.restores
theorem C40_darray64 : Restores Codec.darray64 := Codec.darray64_lawful.restores
theorem C40_elias_fano : Restores Codec.eliasFano := Codec.eliasFano_lawful.restores
theorem C40_elias_fano_list : Restores Codec.efList := Codec.efList_lawful.restores
theorem C40_elias_fano_compressed_list : Restores Codec.efCompressedList := Codec.efCompressedList_lawful.restores
theorem C40_gamma_vector : Restores Codec.gammaVector := Codec.gammaVector_lawful.restores
theorem C40_gamma_bit_vector : Restores Codec.gammaBitVector := Codec.gammaBitVector_lawful.restores
theorem C40_nibble_vector : Restores Codec.nibbleVector := Codec.nibbleVector_lawful.restores
theorem C40_cartesian_tree : Restores Codec.cartesianTree := Codec.cartesianTree_lawful.restores
/-- `topk_vector<mappable_vector<uint64_t>>` -/
theorem C40_topk_vector : Restores (Codec.topK (Codec.vu64 "m_v")) := (Codec.topK_lawful (Codec.vu64_lawful _)).restores
/-- `topk_vector<elias_fano_list>` and other compressed vectors: any vector class whose own `map` restores it -/
theorem C40_topk_vector_of {α : Type} {c : Codec (List α)} (hc : c.Lawful) : Restores (Codec.topK c) := (Codec.topK_lawful hc).restores

/-! ## C41 -/

theorem C41_bit_vector : Accounts Codec.bitVector := Codec.bitVector_lawful.accounts
theorem C41_rs_bit_vector : Accounts Codec.rsBitVector := Codec.rsBitVector_lawful.accounts
theorem C41_bp_vector : Accounts Codec.bpVector := Codec.bpVector_lawful.accounts
theorem C41_darray : Accounts Codec.darray := Codec.darray_lawful.accounts
theorem C41_darray64 : Accounts Codec.darray64 := Codec.darray64_lawful.accounts
theorem C41_elias_fano : Accounts Codec.eliasFano := Codec.eliasFano_lawful.accounts
theorem C41_elias_fano_list : Accounts Codec.efList := Codec.efList_lawful.accounts
theorem C41_elias_fano_compressed_list : Accounts Codec.efCompressedList := Codec.efCompressedList_lawful.accounts
theorem C41_gamma_vector : Accounts Codec.gammaVector := Codec.gammaVector_lawful.accounts
theorem C41_gamma_bit_vector : Accounts Codec.gammaBitVector := Codec.gammaBitVector_lawful.accounts
theorem C41_nibble_vector : Accounts Codec.nibbleVector := Codec.nibbleVector_lawful.accounts
theorem C41_cartesian_tree : Accounts Codec.cartesianTree := Codec.cartesianTree_lawful.accounts
theorem C41_topk_vector : Accounts (Codec.topK (Codec.vu64 "m_v")) := (Codec.topK_lawful (Codec.vu64_lawful _)).accounts

/-! ## C42 -/

theorem C42_bit_vector : TreeSpec Codec.bitVector ["m_bits"] := Codec.bitVector_lawful.tree _ rfl
theorem C42_rs_bit_vector : TreeSpec Codec.rsBitVector ["m_bits", "m_block_rank_pairs", "m_select_hints", "m_select0_hints"] :=
  Codec.rsBitVector_lawful.tree _ rfl
theorem C42_bp_vector : TreeSpec Codec.bpVector
    ["m_bits", "m_block_rank_pairs", "m_select_hints", "m_select0_hints", "m_block_excess_min", "m_superblock_excess_min"] :=
  Codec.bpVector_lawful.tree _ rfl
theorem C42_darray : TreeSpec Codec.darray ["m_block_inventory", "m_subblock_inventory", "m_overflow_positions"] :=
  Codec.darray_lawful.tree _ rfl
theorem C42_darray64 : TreeSpec Codec.darray64 ["m_bits", "m_block_inventory", "m_subblock_inventory"] := Codec.darray64_lawful.tree _ rfl
theorem C42_elias_fano : TreeSpec Codec.eliasFano ["m_high_bits", "m_high_bits_d1", "m_high_bits_d0", "m_low_bits"] :=
  Codec.eliasFano_lawful.tree _ rfl
theorem C42_elias_fano_list : TreeSpec Codec.efList ["m_ef"] := Codec.efList_lawful.tree _ rfl
theorem C42_elias_fano_compressed_list : TreeSpec Codec.efCompressedList ["m_ef", "m_bits"] := Codec.efCompressedList_lawful.tree _ rfl
theorem C42_gamma_vector : TreeSpec Codec.gammaVector ["m_high_bits", "m_low_bits"] := Codec.gammaVector_lawful.tree _ rfl
theorem C42_gamma_bit_vector : TreeSpec Codec.gammaBitVector ["m_high_bits", "m_low_bits"] := Codec.gammaBitVector_lawful.tree _ rfl
theorem C42_nibble_vector : TreeSpec Codec.nibbleVector ["m_nibbles"] := Codec.nibbleVector_lawful.tree _ rfl
theorem C42_cartesian_tree : TreeSpec Codec.cartesianTree ["m_bp"] := Codec.cartesianTree_lawful.tree _ rfl
theorem C42_topk_vector : TreeSpec (Codec.topK (Codec.vu64 "m_v")) ["m_v", "m_cartesian_tree"] :=
  (Codec.topK_lawful (Codec.vu64_lawful _)).tree _ rfl

/-- a POD at top level makes `size_tree_of` fail its assertion -/
theorem C42_pod_rejected (name : String) (bs : List Byte) : sizeTreeOf (.pod name bs .done) = none := rfl

/-! ## C52 -/

theorem C52_bit_vector : DetectsTruncation Codec.bitVector := Codec.bitVector_lawful.truncation
theorem C52_rs_bit_vector : DetectsTruncation Codec.rsBitVector := Codec.rsBitVector_lawful.truncation
theorem C52_bp_vector : DetectsTruncation Codec.bpVector := Codec.bpVector_lawful.truncation
theorem C52_darray : DetectsTruncation Codec.darray := Codec.darray_lawful.truncation
theorem C52_darray64 : DetectsTruncation Codec.darray64 := Codec.darray64_lawful.truncation
theorem C52_elias_fano : DetectsTruncation Codec.eliasFano := Codec.eliasFano_lawful.truncation
theorem C52_elias_fano_list : DetectsTruncation Codec.efList := Codec.efList_lawful.truncation
theorem C52_elias_fano_compressed_list : DetectsTruncation Codec.efCompressedList := Codec.efCompressedList_lawful.truncation
theorem C52_gamma_vector : DetectsTruncation Codec.gammaVector := Codec.gammaVector_lawful.truncation
theorem C52_gamma_bit_vector : DetectsTruncation Codec.gammaBitVector := Codec.gammaBitVector_lawful.truncation
theorem C52_nibble_vector : DetectsTruncation Codec.nibbleVector := Codec.nibbleVector_lawful.truncation
theorem C52_cartesian_tree : DetectsTruncation Codec.cartesianTree := Codec.cartesianTree_lawful.truncation
theorem C52_topk_vector : DetectsTruncation (Codec.topK (Codec.vu64 "m_v")) := (Codec.topK_lawful (Codec.vu64_lawful _)).truncation

/-- `map` itself does not notice: it accepts a truncated image and returns more bytes than there are -/
theorem C52_map_accepts :
    ∃ out m n, freeze (top Codec.bitVector "<TOP>" ⟨70, [5, 1]⟩) 0 = some out ∧
      map (topLay Codec.bitVector "<TOP>") (out.bytes.take 30) 0 = some (m, n) ∧ 30 < n ∧ load (out.bytes.take 30) m = none := by
  refine ⟨⟨leEnc 8 0 ++ leEnc 8 70 ++ leEnc 8 2 ++ leEnc 8 5 ++ leEnc 8 1, 40⟩, .obj "<TOP>" (.pod "m_size" (leEnc 8 70) (.vec "m_bits" 8 24 2 .done)) .done, 40, ?_⟩
  decide +kernel

/-! ## C51 -/

/-- holds for the structures whose only vectors of elements smaller than 8 bytes come last -/
theorem C51_aligned_partial : Aligned Codec.bitVector ∧ Aligned Codec.rsBitVector ∧ Aligned Codec.darray64 ∧ Aligned Codec.nibbleVector :=
  ⟨aligned_of_safe (by decide), aligned_of_safe (by decide), aligned_of_safe (by decide), aligned_of_safe (by decide)⟩

/-- the vectors (element size, offset, length) of a structure after freezing and mapping -/
def mappedVectors {α : Type} (c : Codec α) (x : α) : Option (List (Nat × Nat × Nat)) := do
  let out ← freeze (top c "<TOP>" x) 0
  let (m, _) ← map (topLay c "<TOP>") out.bytes 0
  pure (vectors m)

theorem not_aligned {α : Type} {c : Codec α} {x : α} (hf : c.fits x) {vs : List (Nat × Nat × Nat)} (h : mappedVectors c x = some vs)
    (hb : ∃ p ∈ vs, p.2.1 % p.1 ≠ 0) : ¬ Aligned c := by
  intro ha
  unfold mappedVectors at h
  obtain ⟨out, h1, h2⟩ := bind_some h
  obtain ⟨⟨m, n⟩, h3, h4⟩ := bind_some h2
  cases h4
  obtain ⟨p, hp, hq⟩ := hb
  exact hq (ha x hf 0 0 "<TOP>" out m n h1 h3 p hp)

/-- a `bp_vector` over two nested pairs: the 4-byte superblock minima start at offset 122 -/
def bpWitness : BpVector := ⟨⟨⟨4, [3]⟩, [0, 36099303471055874, 2, 0], [], [1]⟩, 1, [0], [4, 0]⟩
theorem bpWitness_built : BpVector.build (BitVector.ofRange [true, true, false, false]) false true = some bpWitness := by decide +kernel
theorem C51_bp_vector_false : ¬ Aligned Codec.bpVector :=
  not_aligned (x := bpWitness) (by simp only [Codec.bpVector, Codec.rsBitVector, Codec.bitVector, Codec.iso, Codec.seq, Codec.u64, Codec.vw64, Codec.vu64, Codec.vi16, Codec.vi32, Codec.pod, Codec.vec, bpWitness]; simp)
    (vs := [(8, 24, 1), (8, 40, 4), (8, 80, 0), (8, 88, 1), (2, 112, 1), (4, 122, 2)]) (by decide +kernel) (by decide)
theorem C51_cartesian_tree_false : ¬ Aligned Codec.cartesianTree :=
  not_aligned (x := ⟨bpWitness⟩) (by simp only [Codec.cartesianTree, Codec.obj, Codec.bpVector, Codec.rsBitVector, Codec.bitVector, Codec.iso, Codec.seq, Codec.u64, Codec.vw64, Codec.vu64, Codec.vi16, Codec.vi32, Codec.pod, Codec.vec, bpWitness]; simp)
    (vs := [(8, 24, 1), (8, 40, 4), (8, 80, 0), (8, 88, 1), (2, 112, 1), (4, 122, 2)]) (by decide +kernel) (by decide)
theorem C51_topk_vector_false : ¬ Aligned (Codec.topK (Codec.vu64 "m_v")) :=
  not_aligned (x := ⟨[7], ⟨bpWitness⟩⟩) (by simp only [Codec.topK, Codec.cartesianTree, Codec.obj, Codec.bpVector, Codec.rsBitVector, Codec.bitVector, Codec.iso, Codec.seq, Codec.u64, Codec.vw64, Codec.vu64, Codec.vi16, Codec.vi32, Codec.pod, Codec.vec, bpWitness]; simp)
    (vs := [(8, 16, 1), (8, 40, 1), (8, 56, 4), (8, 96, 0), (8, 104, 1), (2, 128, 1), (4, 138, 2)]) (by decide +kernel) (by decide)

/-- a `darray` over two ones: the overflow positions start at offset 50 (there are none here; in the
second value there are) -/
theorem C51_darray_false : ¬ Aligned Codec.darray :=
  not_aligned (x := ⟨2, ⟨[0], [0], []⟩⟩) (by simp only [Codec.darray, Codec.iso, Codec.seq, Codec.u64, Codec.vi64, Codec.vu64, Codec.vu16, Codec.pod, Codec.vec]; simp)
    (vs := [(8, 24, 1), (2, 40, 1), (8, 50, 0)]) (by decide +kernel) (by decide)
example : Darray.build false (BitVector.ofRange [true, true, false, false]) = some ⟨2, ⟨[0], [0], []⟩⟩ := by decide +kernel
example : mappedVectors Codec.darray ⟨1025, ⟨[0, -1], [0], [9]⟩⟩ = some [(8, 24, 2), (2, 48, 1), (8, 58, 1)] := by decide +kernel

/-- an `elias_fano_list` of 5 and 9: the 8-byte words of `m_low_bits` start at offset 130 -/
def efWitness : EliasFano := ⟨15, ⟨7, [0x12]⟩, ⟨2, ⟨[1], [0], []⟩⟩, ⟨0, ⟨[], [], []⟩⟩, ⟨4, [9]⟩, 2⟩
theorem efWitness_built : (EFList.build [5, 9]).map EFList.ef = some efWitness := by decide +kernel
theorem C51_elias_fano_false : ¬ Aligned Codec.eliasFano :=
  not_aligned (x := efWitness) (by simp only [Codec.eliasFano, Codec.w64, Codec.u8, Codec.obj, Codec.bitVector, Codec.darray, Codec.iso, Codec.seq, Codec.u64, Codec.vw64, Codec.vi64, Codec.vu64, Codec.vu16, Codec.pod, Codec.vec, efWitness]; simp)
    (vs := [(8, 32, 1), (8, 56, 1), (2, 72, 1), (8, 82, 0), (8, 98, 0), (2, 106, 0), (8, 114, 0), (8, 130, 1)]) (by decide +kernel) (by decide)
theorem C51_elias_fano_list_false : ¬ Aligned Codec.efList :=
  not_aligned (x := ⟨efWitness⟩) (by simp only [Codec.efList, Codec.eliasFano, Codec.w64, Codec.u8, Codec.obj, Codec.bitVector, Codec.darray, Codec.iso, Codec.seq, Codec.u64, Codec.vw64, Codec.vi64, Codec.vu64, Codec.vu16, Codec.pod, Codec.vec, efWitness]; simp)
    (vs := [(8, 32, 1), (8, 56, 1), (2, 72, 1), (8, 82, 0), (8, 98, 0), (2, 106, 0), (8, 114, 0), (8, 130, 1)]) (by decide +kernel) (by decide)

/-- an `elias_fano_compressed_list` of 5 and 9: `m_bits` starts at the odd offset 155 -/
def efcWitness : EFCompressedList := ⟨⟨6, ⟨8, [0x15]⟩, ⟨3, ⟨[0], [0], []⟩⟩, ⟨0, ⟨[], [], []⟩⟩, ⟨3, [4]⟩, 1⟩, ⟨5, [10]⟩⟩
theorem efcWitness_built : (EFCompressedList.build [5, 9]).map (fun x => (x.ef, x.bits)) = some (efcWitness.ef, efcWitness.bits) := by decide +kernel
theorem C51_elias_fano_compressed_list_false : ¬ Aligned Codec.efCompressedList :=
  not_aligned (x := efcWitness) (by simp only [Codec.efCompressedList, Codec.eliasFano, Codec.w64, Codec.u8, Codec.obj, Codec.bitVector, Codec.darray, Codec.iso, Codec.seq, Codec.u64, Codec.vw64, Codec.vi64, Codec.vu64, Codec.vu16, Codec.pod, Codec.vec, efcWitness]; simp)
    (vs := [(8, 32, 1), (8, 56, 1), (2, 72, 1), (8, 82, 0), (8, 98, 0), (2, 106, 0), (8, 114, 0), (8, 130, 1), (8, 155, 1)]) (by decide +kernel) (by decide)

/-- a `gamma_vector` of 5 and 9: the 8-byte words of `m_low_bits` start at offset 82 -/
def gammaWitness : GammaVec := ⟨⟨3, ⟨8, [0x89]⟩, [0], [0]⟩, ⟨5, [10]⟩⟩
theorem gammaWitness_built : (GammaVector.build [5, 9]).map (fun x => (x.high, x.low)) = some (gammaWitness.high, gammaWitness.low) := by decide +kernel
theorem C51_gamma_vector_false : ¬ Aligned Codec.gammaVector :=
  not_aligned (x := gammaWitness) (by simp only [Codec.gammaVector, Codec.darray64, Codec.obj, Codec.bitVector, Codec.iso, Codec.seq, Codec.u64, Codec.vw64, Codec.vu64, Codec.vu16, Codec.pod, Codec.vec, gammaWitness]; simp)
    (vs := [(8, 32, 1), (8, 48, 1), (2, 64, 1), (8, 82, 1)]) (by decide +kernel) (by decide)
theorem C51_gamma_bit_vector_false : ¬ Aligned Codec.gammaBitVector :=
  not_aligned (x := gammaWitness) (by simp only [Codec.gammaBitVector, Codec.darray64, Codec.obj, Codec.bitVector, Codec.iso, Codec.seq, Codec.u64, Codec.vw64, Codec.vu64, Codec.vu16, Codec.pod, Codec.vec, gammaWitness]; simp)
    (vs := [(8, 32, 1), (8, 48, 1), (2, 64, 1), (8, 82, 1)]) (by decide +kernel) (by decide)

/-! ## concrete cases -/

/-- a representable value with words, as the hypothesis of C40-C42 and C52 asks -/
theorem bitVector_fits_ex : Codec.bitVector.fits ⟨70, [5, 1]⟩ := by
  simp only [Codec.bitVector, Codec.iso, Codec.seq, Codec.u64, Codec.vw64, Codec.pod, Codec.vec]; simp
example : freeze (top Codec.bitVector "<TOP>" ⟨70, [5, 1]⟩) 3 =
    some ⟨leEnc 8 3 ++ leEnc 8 70 ++ leEnc 8 2 ++ leEnc 8 5 ++ leEnc 8 1, 40⟩ := by decide +kernel
example : sizeBytes (top Codec.bitVector "" ⟨70, [5, 1]⟩) = 32 := by decide +kernel
example : sizeTreeOf (top Codec.bitVector "<TOP>" ⟨70, [5, 1]⟩) = some ("<TOP>", 32, .cons "m_bits" 24 .nil .nil) := by decide +kernel
example : sizeTreeOf (top Codec.gammaVector "g" gammaWitness) =
    some ("g", 82, .cons "m_high_bits" 58 (.cons "m_bits" 24 (.cons "m_bits" 16 .nil .nil)
      (.cons "m_block_inventory" 16 .nil (.cons "m_subblock_inventory" 10 .nil .nil)))
      (.cons "m_low_bits" 24 (.cons "m_bits" 16 .nil .nil) .nil)) := by decide +kernel

end Succinct
