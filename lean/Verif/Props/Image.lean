import Verif.Lemmas.Image
import Verif.Props.Mapper

/-! # C89: what `map` accepts

`map` reads an image without any check.  These statements are about arbitrary bytes at the mapped address, not only images that `freeze` wrote. -/
namespace Succinct
open Mapper Spec

/-- What mapping does with any bytes `img` of a file (of fewer than `2^60` bytes). -/
structure Spec.MapsImages {α : Type} (c : Codec α) : Prop where
  /-- if the mapped object can be read completely, the first `n` bytes, `n` being the returned count, are those `freeze` writes for this object; every field of it is
  representable in its C++ type -/
  frozen : ∀ (name : String) (img : List Byte) (mflags : Word) (m : MVal) (n : Nat) (y : Val), img.length < 2^60 →
    map (topLay c name) img mflags = some (m, n) → load img m = some y →
    ∃ x, c.fits x ∧ (Codec.obj name c).get y = some (x, .done) ∧ n ≤ img.length ∧ freeze (top c name x) (leDec (img.take 8)) = some ⟨img.take n, n⟩
  /-- with the flag `warmup`, mapping stays inside the image just if mapping without it does and the mapped object can be read completely; the result is the same -/
  warmup : ∀ (name : String) (img : List Byte) (mflags : Word), mflags &&& 1 ≠ 0 →
    map (topLay c name) img mflags = (map (topLay c name) img 0).bind fun r => (load img r.1).map fun _ => r
  /-- a check a caller can make: if the returned count is at most the size of the file, and no vector has so many elements that their size in bytes exceeds 64 bits, the mapped object can
  be read completely -/
  check : ∀ (name : String) (img : List Byte) (mflags : Word) (m : MVal) (n : Nat), map (topLay c name) img mflags = some (m, n) → n ≤ img.length →
    (∀ v ∈ vectors m, v.2.2 * v.1 < 2^64) → ∃ y, load img m = some y

theorem C89_image {α : Type} {c : Codec α} (hc : c.Lawful) (ho : c.Onto) : MapsImages c := by
  refine ⟨fun name img mflags m n y hi hm hl => ?_, fun name img mflags hf => ?_, fun name img mflags m n hm hn hv => ?_⟩
  · unfold map at hm
    obtain ⟨fl, h1, h2⟩ := bind_some hm
    obtain ⟨k1, k2, k3⟩ := rdBytes_some h1
    obtain ⟨j1, j2, j3, j4, j5, j6⟩ := mapV_sound hi _ 8 n m y (by omega) h2 hl
    obtain ⟨x, r, hx, rfl, hr, _, _⟩ := Codec.obj_onto name ho y .done j1 j2 j3
    have : r = .done := by cases r <;> simp [Val.lay] at hr <;> rfl
    subst this
    refine ⟨x, hx, (Codec.obj_lawful name hc).getPut x _ hx, j6, ?_⟩
    unfold freeze
    rw [show top c name x = (Codec.obj name c).put x .done from rfl, freezeV_eq _ j2, j4]
    have h8 : leEnc 8 (leDec (img.take 8)) = img.take 8 := by
      have := leEnc_leDec (img.take 8)
      rwa [List.length_take, Nat.min_eq_left (by omega)] at this
    have hcat : img.take 8 ++ (img.drop 8).take (n - 8) = img.take n := by
      have := take_drop_add img 0 8 (n - 8)
      simp only [List.drop_zero, Nat.zero_add] at this
      rw [this]
      congr 1
      omega
    simp only [Out.put, h8, List.nil_append, hcat, List.length_take, List.length_drop, Option.some.injEq, Out.mk.injEq, true_and]
    omega
  · unfold map
    cases rdBytes img 0 8 with
    | none => rfl
    | some b =>
      rw [RSBitVector.bind_pure_some, RSBitVector.bind_pure_some]
      exact mapV_warmup hf img _ _
  · unfold map at hm
    obtain ⟨fl, h1, h2⟩ := bind_some hm
    exact (mapV_inside _ _ _ _ h2 hv).2 hn

/-- **C89** for the classes of the library -/
theorem C89_classes : MapsImages Codec.bitVector ∧ MapsImages Codec.rsBitVector ∧ MapsImages Codec.bpVector ∧ MapsImages Codec.darray ∧ MapsImages Codec.darray64 ∧
    MapsImages Codec.eliasFano ∧ MapsImages Codec.efList ∧ MapsImages Codec.efCompressedList ∧ MapsImages Codec.gammaVector ∧ MapsImages Codec.gammaBitVector ∧
    MapsImages Codec.nibbleVector ∧ MapsImages Codec.cartesianTree ∧ MapsImages (Codec.topK (Codec.vu64 "m_v")) :=
  ⟨C89_image Codec.bitVector_lawful Codec.bitVector_onto, C89_image Codec.rsBitVector_lawful Codec.rsBitVector_onto,
   C89_image Codec.bpVector_lawful Codec.bpVector_onto, C89_image Codec.darray_lawful Codec.darray_onto, C89_image Codec.darray64_lawful Codec.darray64_onto,
   C89_image Codec.eliasFano_lawful Codec.eliasFano_onto, C89_image Codec.efList_lawful Codec.efList_onto,
   C89_image Codec.efCompressedList_lawful Codec.efCompressedList_onto, C89_image Codec.gammaVector_lawful Codec.gammaVector_onto,
   C89_image Codec.gammaBitVector_lawful Codec.gammaBitVector_onto, C89_image Codec.nibbleVector_lawful Codec.nibbleVector_onto,
   C89_image Codec.cartesianTree_lawful Codec.cartesianTree_onto,
   C89_image (Codec.topK_lawful (Codec.vu64_lawful _)) (Codec.topK_onto (Codec.vu64_onto _))⟩

/-- **C89**, the returned count alone is no check: for an element count of `2^61` the number of bytes wraps to 0, and `map` returns exactly the size of the file although the
vector lies outside it -/
theorem C89_count_wraps_false : ∃ img m, map (topLay Codec.bitVector "<TOP>") img 0 = some (m, img.length) ∧ load img m = none ∧
    vectors m = [(8, 24, 2^61)] := by
  refine ⟨leEnc 8 0 ++ leEnc 8 70 ++ leEnc 8 (2^61), .obj "<TOP>" (.pod "m_size" (leEnc 8 70) (.vec "m_bits" 8 24 (2^61) .done)) .done, ?_, ?_, ?_⟩
  · decide +kernel
  · cases h : load (leEnc 8 0 ++ leEnc 8 70 ++ leEnc 8 (2^61)) (.obj "<TOP>" (.pod "m_size" (leEnc 8 70) (.vec "m_bits" 8 24 (2^61) .done)) .done) with
    | none => rfl
    | some w =>
      exfalso
      rw [load] at h
      obtain ⟨i, h1, _⟩ := bind_some h
      rw [load] at h1
      obtain ⟨j, h2, _⟩ := bind_some h1
      rw [load] at h2
      obtain ⟨xs, h3, _⟩ := bind_some h2
      have := loadElems_le (by simp [leEnc_length]) h3
      simp [leEnc_length] at this
  · rfl

/-! ## cases that meet the hypotheses -/

/-- bytes that nobody froze: the unused bits of the last word are set, and there is a word too many -/
def oddImage : List Byte := [9, 0, 0, 0, 0, 0, 0, 0] ++ [3, 0, 0, 0, 0, 0, 0, 0] ++ [2, 0, 0, 0, 0, 0, 0, 0] ++ List.replicate 16 255 ++ [7]

example : ∃ m y, map (topLay Codec.bitVector "<TOP>") oddImage 1 = some (m, 40) ∧ load oddImage m = some y ∧
    freeze (top Codec.bitVector "<TOP>" ⟨3, [BitVec.allOnes 64, BitVec.allOnes 64]⟩) 9 = some ⟨oddImage.take 40, 40⟩ ∧
    (Codec.obj "<TOP>" Codec.bitVector).get y = some (⟨3, [BitVec.allOnes 64, BitVec.allOnes 64]⟩, .done) := by
  refine ⟨.obj "<TOP>" (.pod "m_size" (leEnc 8 3) (.vec "m_bits" 8 24 2 .done)) .done,
    .obj "<TOP>" (.pod "m_size" (leEnc 8 3) (.vec "m_bits" 8 [List.replicate 8 255, List.replicate 8 255] .done)) .done, ?_⟩
  decide +kernel

/-- with `warmup` mapping reads outside a file that is cut short, without it does not -/
example : map (topLay Codec.bitVector "<TOP>") (oddImage.take 30) 1 = none ∧ (map (topLay Codec.bitVector "<TOP>") (oddImage.take 30) 0).map Prod.snd = some 40 := by
  decide +kernel

end Succinct
