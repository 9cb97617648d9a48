import Verif.Lemmas.Size32
import Verif.Props.RSBitVector
import Verif.Props.EliasFano
import Verif.Props.Gamma

/-! # C119: bit vectors and integer sequences where `size_t` has 32 bits -/
namespace Succinct
open Spec
open RSBitVector (bind_pure_some)

/-- **C119** (`bit_vector`): where `size_t` has 32 bits, a vector of `n` bits reports `n mod 2^32` bits and gives access to
that many from the front, whether it comes from a range or a builder; with fewer than `2^32` bits nothing changes. -/
theorem C119_bit_vector (l : List Bool) :
    (BitVector.ofRange32 l).size = l.length % 2^32 ∧
    (∀ i, (BitVector.ofRange32 l).access i = (l.take (l.length % 2^32))[i]?) ∧
    (l.length < 2^32 → BitVector.ofRange32 l = BitVector.ofRange l) ∧
    (∀ p : Prog, p.spec = some l → p.ReserveAligned →
      (Builder.run p).bind BitVector.ofBuilder32 = some (BitVector.ofRange32 l)) := by
  have hv := BitVector.ofRange_rep l
  have hle := Nat.mod_le l.length (2^32)
  have hs : (BitVector.ofRange32 l).size = l.length % 2^32 := by
    rw [BitVector.ofRange32_eq]
    show (BitVector.ofRange l).size % 2^32 = _
    rw [hv.size]
  refine ⟨hs, fun i => ?_, fun h => ?_, fun p hp hr => ?_⟩
  · by_cases hi : i < l.length % 2^32
    · have h1 := BitVector.access_eq hv i (by omega)
      rw [List.getElem?_take_of_lt hi, bitFn_getElem? l i (by omega), ← h1, BitVector.ofRange32_eq]
      unfold BitVector.access
      rw [assertP_eq (i < (BitVector.ofRange l).cut.size) (by show _ < (BitVector.ofRange l).size % 2^32; rw [hv.size]; exact hi),
        assertP_eq (i < (BitVector.ofRange l).size) (by rw [hv.size]; omega)]
      rfl
    · rw [List.getElem?_eq_none (by rw [List.length_take]; omega)]
      unfold BitVector.access
      rw [assertP_none (by rw [hs]; exact hi)]
      rfl
  · rw [BitVector.ofRange32_eq, BitVector.cut_id (by rw [hv.size]; exact h)]
  · obtain ⟨b, eb, ib⟩ := Builder.run_inv p l hp hr
    obtain ⟨v, ev, rv⟩ := BitVector.ofBuilder_rep _ _ ib
    rw [eb, Option.bind_some, BitVector.ofBuilder32_eq, ev, Option.map_some, BitVector.eq_ofRange rv, BitVector.ofRange32_eq]

example : BitVector.ofRange32 [true, false, true] = ⟨3, [5]⟩ := by decide +kernel

/-- **C119** (`rs_bit_vector`, not what C14 says): where `size_t` has 32 bits, `rank` at the end of a vector counts the ones of
all the bits the vector was built from, also of those beyond its size. -/
theorem C119_rank_end_false (l : List Bool) (a b : Bool) :
    ∃ v, RSBitVector.build (BitVector.ofRange32 l) a b = some v ∧ v.bv.size = l.length % 2^32 ∧
      v.rank (l.length % 2^32) = some (l.count true) ∧
      (2^32 ≤ l.length → true ∈ l.drop (l.length % 2^32) → v.rank (l.length % 2^32) ≠ some (rank1 l (l.length % 2^32))) := by
  obtain ⟨v, e, h1, _⟩ := C14_rank l a b
  have hs := (C119_bit_vector l).1
  have he := RSBitVector.build_cut e
  rw [← BitVector.ofRange32_eq] at he
  have hr : RSBitVector.rank { v with bv := BitVector.ofRange32 l } (l.length % 2^32) = some (l.count true) := by
    unfold RSBitVector.rank
    simp only []
    rw [hs, assertP_eq _ (Nat.le_refl _), bind_pure_some, if_pos rfl]
    exact h1
  refine ⟨_, he, hs, hr, fun hl ht => ?_⟩
  rw [hr]
  intro e
  have e' := Option.some.inj e
  have hsplit := congrArg (List.count true) (List.take_append_drop (l.length % 2^32) l)
  rw [List.count_append] at hsplit
  have hpos := List.count_pos_iff.2 ht
  unfold rank1 at e'
  omega

/-- a vector of `2^32` ones claims to be empty and to have `2^32` ones before position 0 -/
example : ∃ v, RSBitVector.build (BitVector.ofRange32 (List.replicate (2^32) true)) false false = some v ∧ v.bv.size = 0 ∧
    v.rank 0 = some (2^32) := by
  obtain ⟨v, e, h1, h2, _⟩ := C119_rank_end_false (List.replicate (2^32) true) false false
  rw [List.length_replicate] at h1 h2
  rw [List.count_replicate_self] at h2
  exact ⟨v, e, h1, h2⟩

/-- **C119** (`elias_fano`): the universe may be anything up to `2^64 - 1`; a builder for at least one and fewer than `2^26`
values gives the same object as where `size_t` has 64 bits. -/
theorem C119_elias_fano (n : Word) (m : Nat) (xs : List Word) (wr : Bool) (h : Storable n m xs) (hm : 0 < m) (hm2 : m < 2^26) :
    ∃ ef, EliasFano.ofSeq32 n m xs wr = some ef ∧ EliasFano.ofSeq n m xs wr = some ef := by
  obtain ⟨ef, _, e, _⟩ := EliasFano.ofSeq_good n m xs h wr
  exact ⟨ef, EliasFano.ofSeq32_eq n m xs wr ef e hm hm2, e⟩

example : (EliasFano.ofSeq32 (BitVec.ofNat 64 (2^40)) 3 [5, BitVec.ofNat 64 (2^33 + 1), BitVec.ofNat 64 (2^40)] false).bind
    (fun ef => ef.select (fun _ _ => 0) 1) = some (BitVec.ofNat 64 (2^33 + 1)) := by decide +kernel

/-- **C119** (`elias_fano_list`): where `size_t` has 32 bits, the list keeps each value modulo `2^32`, without any sign of an
error, as long as these add up to less than `2^32 - 1`; otherwise an assertion fails. -/
theorem C119_list (v : List Word) (hl : v.length < 2^26) :
    ((v.map fun x => x.toNat % 2^32).sum < 2^32 - 1 → ∃ t, EFList.build32 v = some t ∧ t.size = v.length ∧
      t.sum.toNat = (v.map fun x => x.toNat % 2^32).sum ∧
      ∀ ov i (h : i < v.length), t.get ov i = some (BitVec.ofNat 64 (v[i].toNat % 2^32))) ∧
    (2^32 - 1 ≤ (v.map fun x => x.toNat % 2^32).sum → EFList.build32 v = none) := by
  refine ⟨fun hs => ?_, fun hs => ?_⟩
  · have hm := EFList.total32_map v
    have hs' : EFList.total32 v < 2^32 - 1 := hs
    obtain ⟨t, e, h1, h2, h3⟩ := C26_list (v.map toSize32) (by omega) (by rw [List.length_map]; omega)
    refine ⟨t, by rw [EFList.build32_eq v hs hl, e], by rw [h1, List.length_map], by rw [h2, hm]; rfl, fun ov i hi => ?_⟩
    rw [h3 ov i (by rw [List.length_map]; exact hi), List.getElem?_eq_getElem (by rw [List.length_map]; exact hi), List.getElem_map]
    rfl
  · cases h : EFList.build32 v with
    | none => rfl
    | some t => have := EFList.build32_some h; unfold EFList.total32 at this; omega

/-- the values come back exactly if all of them are below `2^32` -/
theorem C119_list_values (v : List Word) (t : EFList) (hl : v.length < 2^26) (h : EFList.build32 v = some t) (ov : Word → Nat → Word) :
    (∀ i, i < v.length → t.get ov i = v[i]?) ↔ ∀ x ∈ v, x.toNat < 2^32 := by
  obtain ⟨t', e, _, _, h1⟩ := (C119_list v hl).1 (EFList.build32_some h)
  rw [h] at e
  have e := Option.some.inj e
  subst e
  constructor
  · intro hg x hx
    obtain ⟨i, hi, rfl⟩ := List.getElem_of_mem hx
    have h2 := hg i hi
    rw [h1 ov i hi, List.getElem?_eq_getElem hi] at h2
    have h3 := congrArg BitVec.toNat (Option.some.inj h2)
    rw [BitVec.toNat_ofNat] at h3
    omega
  · intro hx i hi
    rw [h1 ov i hi, List.getElem?_eq_getElem hi, Nat.mod_eq_of_lt (hx _ (List.getElem_mem hi)), BitVec.ofNat_toNat, BitVec.setWidth_eq]

/-- `2^32 + 5` comes back as 5, whereas `2^32 - 1` and two times `2^31` are rejected -/
example : (EFList.build32 [7, BitVec.ofNat 64 (2^32 + 5)]).bind (fun t => t.get (fun _ _ => 0) 1) = some 5 ∧
    (EFList.build [7, BitVec.ofNat 64 (2^32 + 5)]).bind (fun t => t.get (fun _ _ => 0) 1) = some (BitVec.ofNat 64 (2^32 + 5)) ∧
    EFList.build32 [BitVec.ofNat 64 (2^32 - 1)] = none ∧
    EFList.build32 [BitVec.ofNat 64 (2^31), BitVec.ofNat 64 (2^31)] = none := by decide +kernel

/-- **C119** (`elias_fano_compressed_list`): where `size_t` has 32 bits, the list keeps of each value `x` the number
`(x + 1) mod 2^32 - 1`; if that would be negative for some value, an assertion fails. -/
theorem C119_compressed_list (v : List Word) (hl : v.length < 2^26) :
    ((∀ x ∈ v, (x.toNat + 1) % 2^32 ≠ 0) → ∃ t, EFCompressedList.build32 v = some t ∧ t.size = some v.length ∧
      ∀ ov i (h : i < v.length), t.get ov i = some (BitVec.ofNat 64 ((v[i].toNat + 1) % 2^32 - 1))) ∧
    ((∃ x ∈ v, (x.toNat + 1) % 2^32 = 0) → EFCompressedList.build32 v = none) := by
  refine ⟨fun hv => ?_, fun ⟨x, hx, h0⟩ => ?_⟩
  · obtain ⟨t, hb, n, e, g, r⟩ := EFCompressedList.build32_good v hv hl
    have hx : ∀ x ∈ v.map EFCompressedList.kept, x ≠ BitVec.allOnes 64 := by
      intro x hx
      obtain ⟨y, hy, rfl⟩ := List.mem_map.1 hx
      exact (EFCompressedList.kept_ok y (hv y hy)).1
    refine ⟨t, e, ?_, ?_⟩
    · unfold EFCompressedList.size EliasFano.numOnes
      rw [g.ones, List.length_cons, EFCompressedList.offs_length, subU_eq _ _ (by omega), List.length_map]; rfl
    · intro ov i hi
      rw [EFCompressedList.get_eq ov _ hx (by rw [List.length_map]; omega) t n hb g r i (by rw [List.length_map]; exact hi), List.getElem_map]
      congr 1
      apply BitVec.eq_of_toNat_eq
      rw [EFCompressedList.kept_toNat _ (hv _ (List.getElem_mem hi)), BitVec.toNat_ofNat]
      omega
  · cases h : EFCompressedList.build32 v with
    | none => rfl
    | some t => exact absurd h0 (EFCompressedList.build32_some h x hx)

/-- `2^32 + 5` comes back as 5, `2^32 - 1` is rejected; with a `size_t` of 64 bits both are fine -/
example : (EFCompressedList.build32 [7, BitVec.ofNat 64 (2^32 + 5)]).bind (fun t => t.get (fun _ _ => 0) 1) = some 5 ∧
    EFCompressedList.build32 [7, BitVec.ofNat 64 (2^32 - 1)] = none ∧
    (EFCompressedList.build [BitVec.ofNat 64 (2^32 - 1), BitVec.ofNat 64 (2^32 + 5)]).bind (fun t => t.get (fun _ _ => 0) 0) =
      some (BitVec.ofNat 64 (2^32 - 1)) := by decide +kernel

/-- **C119** (`gamma_vector`, `gamma_bit_vector`): fewer than `2^26` values are stored as where `size_t` has 64 bits. -/
theorem C119_gamma (v : List Word) (hl : v.length < 2^26) :
    GammaVector.build32 v = GammaVector.build v ∧ GammaBitVector.build32 v = GammaBitVector.build v :=
  ⟨GammaVector.build32_eq v hl, GammaBitVector.build32_eq v hl⟩

example : (GammaVector.build32 [7, BitVec.ofNat 64 (2^32 + 5)]).bind (fun g => GammaVector.get (fun _ _ => 0) g 1) =
    some (BitVec.ofNat 64 (2^32 + 5)) := by decide +kernel

end Succinct
