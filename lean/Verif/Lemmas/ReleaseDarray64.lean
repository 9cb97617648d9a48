import Verif.Lemmas.ReleaseDarray
import Verif.Lemmas.MachineBuilder

/-! `darray64` without assertions. -/
namespace Succinct
namespace Release
open Broadword Spec
open Machine (W at_)
open RSBitVector (bind_pure_some)

/-- the object built by a sequence of `append1` calls -/
theorem da64_build (ks : List Word) (hks : ∀ k ∈ ks, k.toNat ≤ 64) (hl : (unary (ks.map BitVec.toNat)).length ≤ 2^63) :
    ∃ b : Darray64Builder, (Machine.Darray64.new.bind fun b0 => ks.foldlM Machine.Darray64.append1 b0) = some (Machine.Darray64.encB b) ∧
      Machine.Darray64.ofBuilder (Machine.Darray64.encB b) =
        some (Machine.Darray64.enc ⟨b.nOnes, BitVector.ofRange (unary (ks.map BitVec.toNat)), b.block, b.subblock⟩) ∧
      Darray64.Good b (ks.map BitVec.toNat) ∧ (∀ k ∈ ks.map BitVec.toNat, k ≤ 64) ∧ (∀ x ∈ b.block, x < 2^63) ∧ (∀ x ∈ b.subblock, x < 2^63) := by
  have hW : (ks.map BitVec.toNat).map W = ks := by
    rw [List.map_map]
    conv_rhs => rw [← List.map_id ks]
    apply List.map_congr_left
    intro x _; exact Machine.W_of x
  generalize hns : ks.map BitVec.toNat = ns at *
  have hns' : ∀ k ∈ ns, k ≤ 64 := by
    intro k hk
    rw [← hns] at hk
    obtain ⟨x, hx, rfl⟩ := List.mem_map.1 hk
    exact hks x hx
  rw [← hW]
  have hul := unary_length ns
  obtain ⟨b0, e0, g0⟩ := Darray64.new_good
  have m0 : Machine.Darray64.new = some (Machine.Darray64.encB b0) := by
    unfold Darray64.new at e0
    simp only [Option.bind_eq_bind, Option.bind_eq_some_iff] at e0
    obtain ⟨s, e1, e2⟩ := e0
    obtain rfl := Option.some.inj e2
    unfold Machine.Darray64.new
    have := Machine.Builder.new_eq 0 false (by decide)
    rw [e1] at this
    rw [show (0 : Word) = W 0 from rfl, this]; rfl
  obtain ⟨b, e, g, m⟩ := Machine.Darray64.fold_eq ns b0 [] g0 hns' (by simp) (by simp; omega)
  rw [List.nil_append] at g
  obtain ⟨v, ev, hv⟩ := BitVector.ofBuilder_rep b.bits _ g.bits
  have hbs := g.bits.size
  have hbl := g.bits.len
  have hone : ∀ i, i < ns.length → onePos ns i < 2^63 := by
    intro i hi
    obtain ⟨hq, _⟩ := List.getElem?_eq_some_iff.1 (isSelect1_onePos ns i hi).1
    omega
  have hblk : ∀ x ∈ b.block, x < 2^63 := by
    intro x hx
    obtain ⟨j, hj, rfl⟩ := List.getElem_of_mem hx
    have hj' : 1024 * j < ns.length := by have := g.bl; omega
    have := g.blk j hj'
    rw [List.getElem?_eq_getElem hj] at this
    rw [Option.some.inj this]; exact hone _ hj'
  have hsub : ∀ x ∈ b.subblock, x < 2^63 := by
    intro x hx
    obtain ⟨j, hj, rfl⟩ := List.getElem_of_mem hx
    have hj' : 64 * j < ns.length := by have := g.sl; omega
    have := g.sub j hj'
    rw [List.getElem?_eq_getElem hj] at this
    rw [Option.some.inj this]
    have := hone _ hj'
    omega
  refine ⟨b, by rw [m0, Option.bind_some, m], ?_, g, hns', hblk, hsub⟩
  unfold Machine.Darray64.ofBuilder
  have : Machine.BitVector.ofBuilder (Machine.Builder.enc b.bits) = some (Machine.BitVector.enc v) := by
    rw [Machine.BitVector.ofBuilder_eq _ (by omega) (by omega), ev]; rfl
  rw [show (Machine.Darray64.encB b).bits = Machine.Builder.enc b.bits from rfl, this, bind_pure_some, BitVector.eq_ofRange hv]; rfl

theorem da64Select_eq (b : Darray64Builder) (ns : List Nat) (g : Darray64.Good b ns) (hns : ∀ k ∈ ns, k ≤ 64) (hl : (unary ns).length ≤ 2^63)
    (hblk : ∀ x ∈ b.block, x < 2^63) (hsub : ∀ x ∈ b.subblock, x < 2^63) (i : Word) :
    da64Select (Machine.Darray64.enc ⟨b.nOnes, BitVector.ofRange (unary ns), b.block, b.subblock⟩) i =
      if i.toNat < ns.length then some (W (onePos ns i.toNat)) else none := by
  have hul := unary_length ns
  have hf := Machine.BitVector.Fits.of_rep (BitVector.ofRange_rep (unary ns)) hl
  have hn := g.n
  by_cases hi : i.toNat < ns.length
  · rw [if_pos hi]
    refine da64Select_below _ _ _ ?_
    rw [Machine.Darray64.select_eq _ hf (by show b.nOnes < _; omega) hblk hsub, Darray64.select_eq _ b ns g rfl hns _ hi]; rfl
  · rw [if_neg hi]
    by_cases hm : i = BitVec.allOnes 64
    · rw [hm]
      refine da64Select_max _ ?_
      show (b.block.map W).length < _
      rw [List.length_map, g.bl]; omega
    · rw [da64Select_same _ _ hm]
      have := Machine.Darray64.select_eq ⟨2^64 - 1, BitVector.ofRange (unary ns), b.block, b.subblock⟩ hf (by show 2^64 - 1 < 2^64; omega) hblk hsub i
      rw [Darray64.select_out b ns g hns _ _ (by omega)] at this
      exact this

end Release
end Succinct
