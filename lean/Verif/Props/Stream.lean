import Verif.Model.Stream
import Verif.Props.Mapper

/-! # C65, C66: several objects in one stream; images determine objects -/
namespace Succinct
open Mapper Spec
open RSBitVector (bind_pure_some)

namespace Mapper

theorem freezeV_prepend (s : List Byte) : ∀ (v : Val) (o : Out), freezeV v ⟨s ++ o.bytes, o.written⟩ = (freezeV v o).map fun r => ⟨s ++ r.bytes, r.written⟩
  | .done, o => rfl
  | .pod _ bs rest, o => by
    have := freezeV_prepend s rest (o.put bs bs.length)
    simp only [freezeV, Out.put] at this ⊢
    rw [List.append_assoc]; exact this
  | .vec _ es xs rest, o => by
    simp only [freezeV, Out.put]
    cases rdBytes xs.flatten 0 (xs.length * es % 2^64) with
    | none => rfl
    | some data =>
      have := freezeV_prepend s rest ((o.put (leEnc 8 xs.length) 8).put data (xs.length * es % 2^64))
      simp only [Out.put] at this
      rw [bind_pure_some, bind_pure_some, List.append_assoc, List.append_assoc, ← List.append_assoc o.bytes]
      exact this
  | .obj _ inner rest, o => by
    simp only [freezeV]
    rw [freezeV_prepend s inner o]
    cases freezeV inner o with
    | none => rfl
    | some o1 =>
      rw [Option.map_some, bind_pure_some, bind_pure_some]
      exact freezeV_prepend s rest o1

theorem freezeTo_eq (x : Val) (flags : Nat) (s : List Byte) : freezeTo x flags s = (freeze x flags).map fun r => ⟨s ++ r.bytes, r.written⟩ := by
  unfold freezeTo freeze
  rw [← freezeV_prepend]
  simp [Out.put]

end Mapper

/-- C65: mapping at `base`, then at the address where that mapping ended, and so on, gives back the objects in order, each readable,
and ends where the stream `img` ends, up to `tail` bytes -/
def MapsBack (img : List Byte) (mf : Word) (tail : Nat) : List Item → Nat → Prop
  | [], base => base + tail = img.length
  | it :: rest, base => ∃ m n y, mapAt (topLay it.c it.name) img base mf = some (m, n) ∧ load (img.drop base) m = some y ∧
      (Codec.obj it.name it.c).get y = some (it.x, .done) ∧ MapsBack img mf tail rest (base + n)

/-- the class of an item satisfies C40 and C41, and the object is representable -/
def Mapper.Item.Ok (it : Item) : Prop := Restores it.c ∧ Accounts it.c ∧ it.c.fits it.x

theorem mapsBack_aux (mf : Word) : ∀ (its : List Item) (s : List Byte), (∀ it ∈ its, it.Ok) →
    ∃ out n, freezeAll its s = some (s ++ out, n) ∧ n = out.length ∧ ∀ tail : List Byte, MapsBack (s ++ out ++ tail) mf tail.length its s.length
  | [], s, _ => ⟨[], 0, by simp [freezeAll], rfl, fun tail => by simp [MapsBack]⟩
  | it :: its, s, h => by
    obtain ⟨h1, h2, h3⟩ := h it (by simp)
    obtain ⟨out, m, e1, e2, _, _⟩ := h2 it.x h3 it.flags mf it.name []
    obtain ⟨out2, n2, f1, f2, f3⟩ := mapsBack_aux mf its (s ++ out.bytes) (fun i hi => h i (by simp [hi]))
    refine ⟨out.bytes ++ out2, out.bytes.length + n2, ?_, by simp [f2], fun tail => ?_⟩
    · unfold freezeAll
      rw [freezeTo_eq, e1, Option.map_some, bind_pure_some]
      simp only []
      rw [f1, bind_pure_some]
      simp [e2]
    · obtain ⟨out', m', n', y, g1, g2, g3, g4⟩ := h1 it.x h3 it.flags mf it.name (out2 ++ tail)
      obtain ⟨out'', m'', k1, _, k2, _⟩ := h2 it.x h3 it.flags mf it.name (out2 ++ tail)
      rw [e1] at g1 k1
      cases g1; cases k1
      rw [g2] at k2
      cases k2
      have hd : (s ++ (out.bytes ++ out2) ++ tail).drop s.length = out.bytes ++ (out2 ++ tail) := by simp
      refine ⟨m', out.bytes.length, y, ?_, by rw [hd]; exact g3, g4, ?_⟩
      · unfold mapAt; rw [hd]; exact g2
      · have := f3 tail
        simp only [List.append_assoc, List.length_append] at this ⊢
        exact this

/-- **C65.** Any number of objects of any of the classes frozen one after the other to one stream (which may already hold
other data) are all restored by mapping at the running sum of the counts `map` returns, and these counts add up to those
`freeze` returned. -/
theorem C65_stream (its : List Item) (h : ∀ it ∈ its, it.Ok) (s tail : List Byte) (mf : Word) :
    ∃ out n, freezeAll its s = some (s ++ out, n) ∧ n = out.length ∧ MapsBack (s ++ out ++ tail) mf tail.length its s.length := by
  obtain ⟨out, n, h1, h2, h3⟩ := mapsBack_aux mf its s h
  exact ⟨out, n, h1, h2, h3 tail⟩

/-- every class is admissible -/
theorem C65_classes : (Restores Codec.bitVector ∧ Accounts Codec.bitVector) ∧ (Restores Codec.rsBitVector ∧ Accounts Codec.rsBitVector) ∧
    (Restores Codec.bpVector ∧ Accounts Codec.bpVector) ∧ (Restores Codec.darray ∧ Accounts Codec.darray) ∧
    (Restores Codec.darray64 ∧ Accounts Codec.darray64) ∧ (Restores Codec.eliasFano ∧ Accounts Codec.eliasFano) ∧
    (Restores Codec.efList ∧ Accounts Codec.efList) ∧ (Restores Codec.efCompressedList ∧ Accounts Codec.efCompressedList) ∧
    (Restores Codec.gammaVector ∧ Accounts Codec.gammaVector) ∧ (Restores Codec.gammaBitVector ∧ Accounts Codec.gammaBitVector) ∧
    (Restores Codec.nibbleVector ∧ Accounts Codec.nibbleVector) ∧ (Restores Codec.cartesianTree ∧ Accounts Codec.cartesianTree) ∧
    (Restores (Codec.topK (Codec.vu64 "m_v")) ∧ Accounts (Codec.topK (Codec.vu64 "m_v"))) :=
  ⟨⟨C40_bit_vector, C41_bit_vector⟩, ⟨C40_rs_bit_vector, C41_rs_bit_vector⟩, ⟨C40_bp_vector, C41_bp_vector⟩, ⟨C40_darray, C41_darray⟩,
   ⟨C40_darray64, C41_darray64⟩, ⟨C40_elias_fano, C41_elias_fano⟩, ⟨C40_elias_fano_list, C41_elias_fano_list⟩,
   ⟨C40_elias_fano_compressed_list, C41_elias_fano_compressed_list⟩, ⟨C40_gamma_vector, C41_gamma_vector⟩,
   ⟨C40_gamma_bit_vector, C41_gamma_bit_vector⟩, ⟨C40_nibble_vector, C41_nibble_vector⟩, ⟨C40_cartesian_tree, C41_cartesian_tree⟩,
   ⟨C40_topk_vector, C41_topk_vector⟩⟩

/-- a bit vector and a nibble vector in one stream: 8 + 8 + 8 + 16 and 8 + 8 + 8 + 1 bytes -/
example : (freezeAll [⟨_, Codec.bitVector, ⟨70, [5, 1]⟩, "a", 0⟩, ⟨_, Codec.nibbleVector, ⟨2, [0x21]⟩, "b", 0⟩] []).map Prod.snd = some 65 := by
  decide +kernel

/-- **C66.** Freezing is injective, and no image is a proper prefix of the image of another object of the class: the image
followed by arbitrary bytes determines the object. -/
theorem C66_injective {α : Type} (c : Codec α) (hc : Restores c) (x y : α) (hx : c.fits x) (hy : c.fits y) (name : String) (flags flags' : Nat)
    (ox oy : Out) (ex : freeze (top c name x) flags = some ox) (ey : freeze (top c name y) flags' = some oy) (t t' : List Byte)
    (h : ox.bytes ++ t = oy.bytes ++ t') : x = y := by
  obtain ⟨o1, m1, n1, y1, a1, a2, a3, a4⟩ := hc x hx flags 0 name t
  obtain ⟨o2, m2, n2, y2, b1, b2, b3, b4⟩ := hc y hy flags' 0 name t'
  rw [ex] at a1; rw [ey] at b1
  cases a1; cases b1
  rw [h, b2] at a2
  cases a2
  rw [h, b3] at a3
  cases a3
  rw [a4] at b4
  cases b4
  rfl

/-- Freezing a mapped object writes the image it was mapped from, byte for byte (given the same flags). -/
def Refreezes {α : Type} (c : Codec α) : Prop :=
  ∀ (x : α), c.fits x → ∀ (flags : Nat) (mf : Word) (name : String) (tail : List Byte) (out : Out) (m : MVal) (n : Nat) (y : Val),
    freeze (top c name x) flags = some out → map (topLay c name) (out.bytes ++ tail) mf = some (m, n) →
    load (out.bytes ++ tail) m = some y → freeze y flags = some out

theorem Mapper.Codec.Lawful.refreezes {α : Type} {c : Codec α} (hc : c.Lawful) : Refreezes c := by
  intro x h flags mf name tail out m n y h1 h2 h3
  have e1 := freeze_top hc h name flags
  rw [h1] at e1
  cases e1
  have e2 := map_top hc h name flags mf tail
  rw [h2] at e2
  cases e2
  have e3 := load_place _ (hc.top_wf h name) (leEnc 8 flags) tail
  rw [leEnc_length, h3] at e3
  cases e3
  exact h1

theorem C66_refreeze : Refreezes Codec.bitVector ∧ Refreezes Codec.rsBitVector ∧ Refreezes Codec.bpVector ∧ Refreezes Codec.darray ∧
    Refreezes Codec.darray64 ∧ Refreezes Codec.eliasFano ∧ Refreezes Codec.efList ∧ Refreezes Codec.efCompressedList ∧ Refreezes Codec.gammaVector ∧
    Refreezes Codec.gammaBitVector ∧ Refreezes Codec.nibbleVector ∧ Refreezes Codec.cartesianTree ∧ Refreezes (Codec.topK (Codec.vu64 "m_v")) :=
  ⟨Codec.bitVector_lawful.refreezes, Codec.rsBitVector_lawful.refreezes, Codec.bpVector_lawful.refreezes, Codec.darray_lawful.refreezes,
   Codec.darray64_lawful.refreezes, Codec.eliasFano_lawful.refreezes, Codec.efList_lawful.refreezes, Codec.efCompressedList_lawful.refreezes,
   Codec.gammaVector_lawful.refreezes, Codec.gammaBitVector_lawful.refreezes, Codec.nibbleVector_lawful.refreezes, Codec.cartesianTree_lawful.refreezes,
   (Codec.topK_lawful (Codec.vu64_lawful _)).refreezes⟩

/-- two different objects with the same bits in memory but different sizes have different images -/
example : (freeze (top Codec.bitVector "" ⟨3, [5]⟩) 0).map Out.bytes ≠ (freeze (top Codec.bitVector "" ⟨4, [5]⟩) 0).map Out.bytes := by decide +kernel

end Succinct
