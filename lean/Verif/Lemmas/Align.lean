import Verif.Lemmas.MapperProps
import Verif.Spec.Align

/-! # Offsets of mapped vectors (for C82) -/
namespace Succinct.Mapper
open Spec

/-- bytes taken by the fields -/
def Val.size : Val → Nat
  | .done => 0
  | .pod _ bs rest => bs.length + rest.size
  | .vec _ es xs rest => 8 + xs.length * es + rest.size
  | .obj _ inner rest => inner.size + rest.size

/-- every element is aligned if the fields start at `pos` -/
def Val.aligned : Val → Nat → Prop
  | .done, _ => True
  | .pod _ bs rest, pos => rest.aligned (pos + bs.length)
  | .vec _ es xs rest, pos => (xs.length = 0 ∨ (pos + 8) % es = 0) ∧ rest.aligned (pos + 8 + xs.length * es)
  | .obj _ inner rest, pos => inner.aligned pos ∧ rest.aligned (pos + inner.size)

theorem flat_size (v : Val) (h : v.WF) : v.flat.length = v.size := by
  induction v with
  | done => rfl
  | pod n bs rest ih => rw [Val.flat, List.length_append, ih h, Val.size]
  | vec n es xs rest ih => rw [Val.flat, List.length_append, List.length_append, leEnc_length, flatten_length h.1, ih h.2.2.2, Val.size]
  | obj n i rest ih1 ih2 => rw [Val.flat, List.length_append, ih1 h.1, ih2 h.2, Val.size]

theorem vectors_place (v : Val) (h : v.WF) (pos : Nat) :
    (∀ p ∈ vectors (v.place pos), ∀ i, i < p.2.2 → (p.2.1 + i * p.1) % p.1 = 0) ↔ v.aligned pos := by
  induction v generalizing pos with
  | done => simp [Val.place, vectors, Val.aligned]
  | pod n bs rest ih => rw [Val.place, vectors, Val.aligned]; exact ih h _
  | vec n es xs rest ih =>
    rw [Val.place, vectors, Val.aligned, List.forall_mem_cons, ih h.2.2.2]
    refine and_congr ?_ Iff.rfl
    constructor
    · intro g
      by_cases h0 : xs.length = 0
      · exact Or.inl h0
      · right
        have := g 0 (by show 0 < xs.length; omega)
        simpa using this
    · intro g i hi
      have hi : i < xs.length := hi
      show (pos + 8 + i * es) % es = 0
      rw [Nat.add_mul_mod_self_right]
      omega
  | obj n i rest ih1 ih2 =>
    rw [Val.place, vectors, Val.aligned, flat_size _ h.1]
    rw [← ih1 h.1, ← ih2 h.2]
    simp only [List.mem_append, or_imp, forall_and]

theorem elementsAligned_iff {α : Type} {c : Codec α} (hc : c.Lawful) {x : α} (h : c.fits x) : ElementsAligned c x ↔ (c.put x .done).aligned 8 := by
  have key : ∀ name, (top c name x).aligned 8 ↔ (c.put x .done).aligned 8 := by
    intro name
    show ((c.put x .done).aligned 8 ∧ True) ↔ _
    simp
  constructor
  · intro g
    have := g 0 0 "" _ _ _ (freeze_top hc h "" 0) (by have := map_top hc h "" 0 0 []; rw [List.append_nil] at this; exact this)
    rw [vectors_place _ (hc.top_wf h "")] at this
    exact (key _).1 this
  · intro g flags mf name out m n ho hm
    rw [freeze_top hc h name flags] at ho
    cases ho
    have := map_top hc h name flags mf []
    rw [List.append_nil] at this
    rw [this] at hm
    cases hm
    exact (vectors_place _ (hc.top_wf h name) 8).2 ((key name).2 g)

theorem leEncS_length (k : Nat) (x : Int) : (leEncS k x).length = k := leEnc_length _ _

/-! ## the structures -/

theorem Codec.bpVector_aligned (v : BpVector) (h : Codec.bpVector.fits v) :
    ElementsAligned Codec.bpVector v ↔ v.superMin.length = 0 ∨ v.blockMin.length % 2 = 0 := by
  rw [elementsAligned_iff Codec.bpVector_lawful h]
  simp only [Codec.bpVector, Codec.rsBitVector, Codec.bitVector, Codec.iso, Codec.seq, Codec.u64, Codec.vw64, Codec.vu64, Codec.vi16, Codec.vi32, Codec.pod,
    Codec.vec, Val.aligned, List.length_map, leEnc_length, and_true, or_true, true_and]
  omega

theorem Codec.cartesianTree_aligned (v : CartesianTree) (h : Codec.cartesianTree.fits v) :
    ElementsAligned Codec.cartesianTree v ↔ v.bp.superMin.length = 0 ∨ v.bp.blockMin.length % 2 = 0 := by
  rw [elementsAligned_iff Codec.cartesianTree_lawful h]
  simp only [Codec.cartesianTree, Codec.obj, Codec.bpVector, Codec.rsBitVector, Codec.bitVector, Codec.iso, Codec.seq, Codec.u64, Codec.vw64, Codec.vu64,
    Codec.vi16, Codec.vi32, Codec.pod, Codec.vec, Val.aligned, List.length_map, leEnc_length, and_true, or_true, true_and]
  omega

theorem Codec.topK_aligned (v : TopK Nat) (h : (Codec.topK (Codec.vu64 "m_v")).fits v) :
    ElementsAligned (Codec.topK (Codec.vu64 "m_v")) v ↔ v.tree.bp.superMin.length = 0 ∨ v.tree.bp.blockMin.length % 2 = 0 := by
  rw [elementsAligned_iff (Codec.topK_lawful (Codec.vu64_lawful _)) h]
  simp only [Codec.topK, Codec.cartesianTree, Codec.obj, Codec.bpVector, Codec.rsBitVector, Codec.bitVector, Codec.iso, Codec.seq, Codec.u64, Codec.vw64, Codec.vu64,
    Codec.vi16, Codec.vi32, Codec.pod, Codec.vec, Val.aligned, List.length_map, leEnc_length, and_true, or_true, true_and]
  omega

theorem Codec.darray_aligned (v : Darray) (h : Codec.darray.fits v) :
    ElementsAligned Codec.darray v ↔ v.inv.overflow.length = 0 ∨ v.inv.subblock.length % 4 = 0 := by
  rw [elementsAligned_iff Codec.darray_lawful h]
  simp only [Codec.darray, Codec.iso, Codec.seq, Codec.u64, Codec.vi64, Codec.vu64, Codec.vu16, Codec.pod,
    Codec.vec, Val.aligned, List.length_map, leEnc_length, and_true, or_true, true_and]
  omega

/-- the condition for `elias_fano` -/
def efCond (v : EliasFano) : Prop :=
  (v.d1.inv.overflow.length = 0 ∨ v.d1.inv.subblock.length % 4 = 0) ∧ (v.d0.inv.block.length = 0 ∨ v.d1.inv.subblock.length % 4 = 0) ∧
  (v.d0.inv.overflow.length = 0 ∨ (v.d1.inv.subblock.length + v.d0.inv.subblock.length) % 4 = 0) ∧
  (v.low.bits.length = 0 ∨ (v.d1.inv.subblock.length + v.d0.inv.subblock.length) % 4 = 0)

theorem Codec.eliasFano_aligned (v : EliasFano) (h : Codec.eliasFano.fits v) : ElementsAligned Codec.eliasFano v ↔ efCond v := by
  rw [elementsAligned_iff Codec.eliasFano_lawful h]
  unfold efCond
  simp only [Codec.eliasFano, Codec.w64, Codec.u8, Codec.obj, Codec.bitVector, Codec.darray, Codec.iso, Codec.seq, Codec.u64, Codec.vw64, Codec.vi64,
    Codec.vu64, Codec.vu16, Codec.pod, Codec.vec, Val.aligned, Val.size, List.length_map, leEnc_length, and_true, or_true, true_and]
  omega

theorem Codec.efList_aligned (v : EFList) (h : Codec.efList.fits v) : ElementsAligned Codec.efList v ↔ efCond v.ef := by
  rw [elementsAligned_iff Codec.efList_lawful h]
  unfold efCond
  simp only [Codec.efList, Codec.eliasFano, Codec.w64, Codec.u8, Codec.obj, Codec.bitVector, Codec.darray, Codec.iso, Codec.seq, Codec.u64, Codec.vw64, Codec.vi64,
    Codec.vu64, Codec.vu16, Codec.pod, Codec.vec, Val.aligned, Val.size, List.length_map, leEnc_length, and_true, or_true, true_and]
  omega

theorem Codec.efCompressedList_aligned (v : EFCompressedList) (h : Codec.efCompressedList.fits v) :
    ElementsAligned Codec.efCompressedList v ↔ efCond v.ef ∧ v.bits.bits.length = 0 := by
  rw [elementsAligned_iff Codec.efCompressedList_lawful h]
  unfold efCond
  simp only [Codec.efCompressedList, Codec.eliasFano, Codec.w64, Codec.u8, Codec.obj, Codec.bitVector, Codec.darray, Codec.iso, Codec.seq, Codec.u64, Codec.vw64, Codec.vi64,
    Codec.vu64, Codec.vu16, Codec.pod, Codec.vec, Val.aligned, Val.size, List.length_map, leEnc_length, and_true, or_true, true_and]
  omega

theorem Codec.gammaVector_aligned (v : GammaVec) (h : Codec.gammaVector.fits v) :
    ElementsAligned Codec.gammaVector v ↔ v.low.bits.length = 0 ∨ v.high.subblock.length % 4 = 0 := by
  rw [elementsAligned_iff Codec.gammaVector_lawful h]
  simp only [Codec.gammaVector, Codec.darray64, Codec.obj, Codec.bitVector, Codec.iso, Codec.seq, Codec.u64, Codec.vw64,
    Codec.vu64, Codec.vu16, Codec.pod, Codec.vec, Val.aligned, Val.size, List.length_map, leEnc_length, and_true, or_true, true_and]
  omega

theorem Codec.gammaBitVector_aligned (v : GammaVec) (h : Codec.gammaBitVector.fits v) :
    ElementsAligned Codec.gammaBitVector v ↔ v.low.bits.length = 0 ∨ v.high.subblock.length % 4 = 0 := by
  rw [elementsAligned_iff Codec.gammaBitVector_lawful h]
  simp only [Codec.gammaBitVector, Codec.darray64, Codec.obj, Codec.bitVector, Codec.iso, Codec.seq, Codec.u64, Codec.vw64,
    Codec.vu64, Codec.vu16, Codec.pod, Codec.vec, Val.aligned, Val.size, List.length_map, leEnc_length, and_true, or_true, true_and]
  omega

end Succinct.Mapper
