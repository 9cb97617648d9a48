import Verif.Lemmas.ByteOrder
import Verif.Props.BitVector
import Mathlib.Tactic.ByContra

/-!
# C99: byte order

The answers of `get_word56` depend on the byte order of the machine, those of no other query do.  On a big-endian machine it is right exactly
at positions in the first byte of a word (`C99_get_word56_big`, `C99_get_word56_false`).  Freezing and mapping on machines of the same order
restores every structure, for either order (`C99_restores`); no image with data can be read on a machine of the other order (`C99_abroad`).
-/
namespace Succinct
open Spec Mapper ByteOrder

/-- **C99**, `get_word56` on a big-endian machine: the first `8 * j` bits come from the end of the *next* word (`j` the byte within the word),
and only then those from the beginning of the word.  In the first byte of a word the answer is right. -/
theorem C99_get_word56_big (l : List Bool) (pos : Nat) (hp : pos / 8 + 8 ≤ 8 * (BitVector.ofRange l).bits.length) :
    ∃ x, ByteOrder.getWord56 true (BitVector.ofRange l) pos = some x ∧
      (∀ i, i < 56 → x.getLsbD i = l.getD
        (if pos % 8 + i < 8 * (pos / 8 % 8) then 64 * (pos / 64 + 2) - 8 * (pos / 8 % 8) + (pos % 8 + i)
          else 64 * (pos / 64) + (pos % 8 + i) - 8 * (pos / 8 % 8)) false) ∧
      (pos % 64 < 8 → lowBits x 56 = (l.drop pos ++ List.replicate 56 false).take 56) := by
  obtain ⟨x, e, hx⟩ := getWord56_big (BitVector.ofRange_rep l) pos hp
  refine ⟨x, e, fun i hi => ?_, fun h8 => ?_⟩
  · rw [hx i hi]; rfl
  · obtain ⟨y, ey, hy⟩ := BitVector.getWord56_eq (BitVector.ofRange_rep l) pos hp
    have hxy : lowBits x 56 = lowBits y 56 := by
      apply bitFn_ext
      · simp
      · intro i
        rw [bitFn_lowBits, bitFn_lowBits]
        by_cases hi : i < 56
        · rw [hx i hi, hy i hi, if_neg (by omega)]
          congr 2; omega
        · simp [hi]
    obtain ⟨z, ez, hz⟩ := C04_get_word56 l pos hp
    rw [ey] at ez
    cases ez
    rw [hxy, hz]

/-- **C99** is false of `get_word56` on a big-endian machine at every position outside the first byte of a word -/
theorem C99_get_word56_false (pos : Nat) (h8 : 8 ≤ pos % 64) :
    ∃ l x, pos / 8 + 8 ≤ 8 * (BitVector.ofRange l).bits.length ∧ ByteOrder.getWord56 true (BitVector.ofRange l) pos = some x ∧
      l.getD pos false = true ∧ x.getLsbD 0 = false := by
  have hlen : (BitVector.ofRange ((List.range (64 * (pos / 64 + 2))).map fun i => decide (i = pos))).bits.length = pos / 64 + 2 := by
    rw [(BitVector.ofRange_rep _).repr.len]; simp only [List.length_map, List.length_range, wordsFor]; omega
  have hp : pos / 8 + 8 ≤ 8 * (BitVector.ofRange ((List.range (64 * (pos / 64 + 2))).map fun i => decide (i = pos))).bits.length := by
    rw [hlen]; omega
  obtain ⟨x, e, hx, _⟩ := C99_get_word56_big _ pos hp
  refine ⟨_, x, hp, e, ?_, ?_⟩
  · rw [List.getD_eq_getElem?_getD, List.getElem?_map, List.getElem?_range (by omega)]; simp
  · rw [hx 0 (by omega), if_pos (by omega), List.getD_eq_getElem?_getD, List.getElem?_map, List.getElem?_range (by omega)]
    simp only [Option.map_some, Option.getD_some, decide_eq_false_iff_not]
    omega

/-- the case `pos = 8`: bit 8 of the sequence is set, the answer starts with bit 120 -/
example : ByteOrder.getWord56 true ⟨128, [0x100#64, 0#64]⟩ 8 = some 0x10000#64 ∧ ByteOrder.getWord56 false ⟨128, [0x100#64, 0#64]⟩ 8 = some 1#64 := by
  decide +kernel

/-- **C99**, machines of the same byte order, for any class whose members are visited in the same order by `freeze` and `map` -/
theorem C99_restores {α : Type} (big : Bool) {c : Codec α} (hc : c.Lawful) : RestoresOn big c := by
  intro x h flags mf name tail
  have hw := inMemory_wf big _ (hc.top_wf h name)
  refine ⟨⟨ByteOrder.enc big 8 flags ++ flat big (inMemory big (top c name x)), 8 + (flat big (inMemory big (top c name x))).length⟩,
    (inMemory big (top c name x)).place 8, inMemory big (top c name x), ?_, ?_, ?_, ?_⟩
  · unfold ByteOrder.freeze
    rw [ByteOrder.freezeV_eq _ _ hw]
    simp [Out.put]
  · unfold ByteOrder.map
    have hr : rdBytes (ByteOrder.enc big 8 flags ++ flat big (inMemory big (top c name x)) ++ tail) 0 8 = some (ByteOrder.enc big 8 flags) := by
      have := rdBytes_eq (mem := ByteOrder.enc big 8 flags ++ flat big (inMemory big (top c name x)) ++ tail) (pre := [])
        (x := ByteOrder.enc big 8 flags) (post := flat big (inMemory big (top c name x)) ++ tail) (by simp)
      rwa [ByteOrder.enc_length] at this
    rw [hr, RSBitVector.bind_pure_some, ← hc.top_lay h name, ← inMemory_lay big]
    have := ByteOrder.mapV_eq big mf _ hw (ByteOrder.enc big 8 flags) tail
    rw [ByteOrder.enc_length] at this
    rw [this, List.length_append, ByteOrder.enc_length]
  · have := ByteOrder.load_place big _ hw (ByteOrder.enc big 8 flags) tail
    rwa [ByteOrder.enc_length] at this
  · rw [inMemory_twice]; exact (Codec.obj_lawful name hc).getPut x _ h

/-- **C99**, machines of different byte order -/
theorem C99_abroad {α : Type} (big : Bool) {c : Codec α} (hc : c.Lawful) (hpos : layPos (c.lay .done) = true) : UnreadableAbroad big c := by
  intro x h flags mf name out ho hlen hne m k hm
  have hw := inMemory_wf big _ (hc.top_wf h name)
  have hlay : (inMemory big (top c name x)).lay = topLay c name := by rw [inMemory_lay, hc.top_lay h name]
  have hlp : layPos (inMemory big (top c name x)).lay = true := by
    rw [hlay]; simp only [topLay, Codec.obj, layPos, Bool.and_true]; exact hpos
  unfold ByteOrder.freeze at ho
  rw [ByteOrder.freezeV_eq _ _ hw] at ho
  cases ho
  simp only [Out.put, List.nil_append] at hm hlen ⊢
  unfold ByteOrder.map at hm
  obtain ⟨_, _, hm⟩ := bind_some hm
  by_contra hl
  obtain ⟨w, hl⟩ := Option.ne_none_iff_exists'.1 hl
  have hn : ∀ n ∈ lens (inMemory big (top c name x)), n < 2^32 := by
    intro n hn
    have := lens_le _ hw hlp n hn
    rw [← flat_length big] at this
    rw [List.length_append] at hlen
    omega
  have e : ByteOrder.enc big 8 flags ++ flat big (inMemory big (top c name x)) =
    ByteOrder.enc big 8 flags ++ flat big (inMemory big (top c name x)) ++ [] := by simp
  rw [e] at hm hl hlen
  rw [show (8 : Nat) = (ByteOrder.enc big 8 flags).length from (ByteOrder.enc_length big 8 flags).symm, ← hlay, ByteOrder.enc_length big 8 flags] at hm
  have hz := (mapV_foreign big mf _ hw hn hlp (ByteOrder.enc big 8 flags) [] hlen m k w (by rw [ByteOrder.enc_length]; exact hm) hl).1
  obtain ⟨n, hn, h0⟩ := hne
  have := hz n (by rw [lens_inMemory]; simpa [top, Codec.obj, lens] using hn)
  omega

/-- **C99** for the classes of the library -/
theorem C99_classes (big : Bool) :
    (RestoresOn big Codec.bitVector ∧ UnreadableAbroad big Codec.bitVector) ∧
    (RestoresOn big Codec.rsBitVector ∧ UnreadableAbroad big Codec.rsBitVector) ∧
    (RestoresOn big Codec.bpVector ∧ UnreadableAbroad big Codec.bpVector) ∧
    (RestoresOn big Codec.darray ∧ UnreadableAbroad big Codec.darray) ∧
    (RestoresOn big Codec.darray64 ∧ UnreadableAbroad big Codec.darray64) ∧
    (RestoresOn big Codec.eliasFano ∧ UnreadableAbroad big Codec.eliasFano) ∧
    (RestoresOn big Codec.efList ∧ UnreadableAbroad big Codec.efList) ∧
    (RestoresOn big Codec.efCompressedList ∧ UnreadableAbroad big Codec.efCompressedList) ∧
    (RestoresOn big Codec.gammaVector ∧ UnreadableAbroad big Codec.gammaVector) ∧
    (RestoresOn big Codec.gammaBitVector ∧ UnreadableAbroad big Codec.gammaBitVector) ∧
    (RestoresOn big Codec.nibbleVector ∧ UnreadableAbroad big Codec.nibbleVector) ∧
    (RestoresOn big Codec.cartesianTree ∧ UnreadableAbroad big Codec.cartesianTree) ∧
    (RestoresOn big (Codec.topK (Codec.vu64 "m_v")) ∧ UnreadableAbroad big (Codec.topK (Codec.vu64 "m_v"))) :=
  ⟨⟨C99_restores big Codec.bitVector_lawful, C99_abroad big Codec.bitVector_lawful rfl⟩,
   ⟨C99_restores big Codec.rsBitVector_lawful, C99_abroad big Codec.rsBitVector_lawful rfl⟩,
   ⟨C99_restores big Codec.bpVector_lawful, C99_abroad big Codec.bpVector_lawful rfl⟩,
   ⟨C99_restores big Codec.darray_lawful, C99_abroad big Codec.darray_lawful rfl⟩,
   ⟨C99_restores big Codec.darray64_lawful, C99_abroad big Codec.darray64_lawful rfl⟩,
   ⟨C99_restores big Codec.eliasFano_lawful, C99_abroad big Codec.eliasFano_lawful rfl⟩,
   ⟨C99_restores big Codec.efList_lawful, C99_abroad big Codec.efList_lawful rfl⟩,
   ⟨C99_restores big Codec.efCompressedList_lawful, C99_abroad big Codec.efCompressedList_lawful rfl⟩,
   ⟨C99_restores big Codec.gammaVector_lawful, C99_abroad big Codec.gammaVector_lawful rfl⟩,
   ⟨C99_restores big Codec.gammaBitVector_lawful, C99_abroad big Codec.gammaBitVector_lawful rfl⟩,
   ⟨C99_restores big Codec.nibbleVector_lawful, C99_abroad big Codec.nibbleVector_lawful rfl⟩,
   ⟨C99_restores big Codec.cartesianTree_lawful, C99_abroad big Codec.cartesianTree_lawful rfl⟩,
   ⟨C99_restores big (Codec.topK_lawful (Codec.vu64_lawful _)), C99_abroad big (Codec.topK_lawful (Codec.vu64_lawful _)) rfl⟩⟩

/-- a bit vector of 70 bits: its image on a big-endian machine, and what a little-endian machine makes of it: the element count 2 becomes
`2^57`, and the number of bytes wraps to `2^60` -/
example : ∃ out m, ByteOrder.freeze true (inMemory true (top Codec.bitVector "<TOP>" ⟨70, [5#64, 1#64]⟩)) 0 = some out ∧
    out.bytes = [0,0,0,0,0,0,0,0, 0,0,0,0,0,0,0,70, 0,0,0,0,0,0,0,2, 0,0,0,0,0,0,0,5, 0,0,0,0,0,0,0,1] ∧
    ByteOrder.map false (topLay Codec.bitVector "<TOP>") out.bytes 0 = some (m, 24 + 2^60) ∧
    vectors m = [(8, 24, 2^57)] ∧
    (∃ m', ByteOrder.map true (topLay Codec.bitVector "<TOP>") out.bytes 0 = some (m', 40) ∧ vectors m' = [(8, 24, 2)]) := by
  refine ⟨_, _, rfl, ?_, rfl, ?_, _, rfl, ?_⟩ <;> decide +kernel

/-- the object of the example has a vector with an element, and it fits -/
example : Codec.bitVector.fits ⟨70, [5#64, 1#64]⟩ ∧ ∃ n ∈ lens (Codec.bitVector.put ⟨70, [5#64, 1#64]⟩ .done), 0 < n := by
  refine ⟨⟨?_, ?_, fun _ _ => trivial⟩, 2, ?_, ?_⟩
  · show 70 < 2^64; decide
  · show 2 < 2^60; decide
  · decide +kernel
  · decide

end Succinct
