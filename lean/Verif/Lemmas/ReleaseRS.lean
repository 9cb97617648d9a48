import Verif.Lemmas.ReleaseBV

/-! `rank` without assertions. -/
namespace Succinct
namespace Release
open Broadword Spec
open Machine (at_ vlen W)
open RSBitVector (bind_pure_some nblocks)

variable {v : RSBitVector} {l : List Bool}

theorem bitFn_padded (l : List Bool) : bitFn (padded l) = bitFn l := funext (padded_bitFn l)

/-- the same index over the words taken to be full -/
theorem inv_padded (h : RSBitVector.Inv v l) : RSBitVector.Inv { v with bv := ⟨64 * v.bv.bits.length, v.bv.bits⟩ } (padded l) := by
  have hb : v.bv = BitVector.ofRange l := BitVector.eq_ofRange h.rep
  refine ⟨?_, ?_, ?_, ?_⟩
  · rw [hb]; exact padded_rep l
  · rw [bitFn_padded]; exact h.tab
  · rw [bitFn_padded]; exact h.h1
  · rw [bitFn_padded]; exact h.h0

theorem rank_ne {v w : Machine.RSBitVector} (pos : Word) (hb : v.bv.bits = w.bv.bits) (hp : v.pairs = w.pairs) (h1 : pos ≠ v.bv.size)
    (h2 : pos ≠ w.bv.size) : rank v pos = rank w pos := by
  unfold rank
  rw [if_neg h1, if_neg h2, hb, hp]

theorem subBlockRank_none {f : Nat → Bool} {nb : Nat} {pairs : List Nat} (h : RSBitVector.Table f nb pairs) (sb : Word)
    (hs : nb < sb.toNat / 8) (h58 : sb.toNat < 2^58) : Machine.RSBitVector.subBlockRank (pairs.map W) sb = none := by
  have hd : (sb / 8).toNat = sb.toNat / 8 := by rw [BitVec.toNat_udiv]; rfl
  have e : Machine.RSBitVector.blockRank (pairs.map W) (sb / 8) = none := by
    refine Machine.rd_none ?_
    rw [List.length_map, h.len, Machine.toNat_mul_lt _ _ (by rw [hd]; show _ * 2 < _; omega), hd]
    show _ ≤ _ * 2
    omega
  unfold Machine.RSBitVector.subBlockRank
  dsimp only
  rw [e]; rfl

/-- where `rank` reads inside its arrays -/
def RankDefined (words pos : Nat) : Prop := pos / 512 ≤ (words + 7) / 8 ∧ (pos % 64 = 0 ∨ pos / 64 < words)

instance (words pos : Nat) : Decidable (RankDefined words pos) := by unfold RankDefined; infer_instance

theorem rank_release (h : RSBitVector.Inv v l) (hl : l.length ≤ 2^63) (pos : Word) :
    rank (Machine.RSBitVector.enc v) pos =
      if RankDefined v.bv.bits.length pos.toNat then some (W (cnt (bitFn l) pos.toNat)) else none := by
  have hs := h.rep.size
  have hlen := h.rep.len
  have hpl := pos.isLt
  by_cases hp : pos.toNat ≤ l.length
  · have hd : RankDefined v.bv.bits.length pos.toNat := by
      unfold RankDefined; omega
    rw [if_pos hd]
    refine rank_below _ _ _ ?_
    rw [Machine.RSBitVector.rank_eq h hl, RSBitVector.rank_eq h _ hp]; rfl
  have hsz : pos ≠ (Machine.RSBitVector.enc v).bv.size := by
    show pos ≠ W v.bv.size
    rw [hs, ne_eq, Machine.eq_W _ _ (by omega)]; omega
  by_cases hq : pos.toNat < 64 * v.bv.bits.length
  · have hd : RankDefined v.bv.bits.length pos.toNat := by
      unfold RankDefined; omega
    have h' := inv_padded h
    have hl' : (padded l).length ≤ 2^63 := by rw [padded_length]; omega
    have hp' : pos.toNat ≤ (padded l).length := by rw [padded_length, ← hlen]; omega
    rw [if_pos hd, rank_ne (v := Machine.RSBitVector.enc v) (w := Machine.RSBitVector.enc { v with bv := ⟨64 * v.bv.bits.length, v.bv.bits⟩ }) pos rfl rfl hsz
      (by show pos ≠ W (64 * v.bv.bits.length); rw [ne_eq, Machine.eq_W _ _ (by omega)]; omega)]
    refine rank_below _ _ _ ?_
    rw [Machine.RSBitVector.rank_eq h' hl', RSBitVector.rank_eq h' _ hp', bitFn_padded]; rfl
  · unfold rank
    rw [if_neg hsz]
    have d : pos / 64 = W (pos.toNat / 64) := by
      apply BitVec.eq_of_toNat_eq
      rw [Machine.div64, Machine.W_toNat _ (by omega)]
    dsimp only
    by_cases hb : pos.toNat / 512 ≤ nblocks v.bv.bits
    · have e := Machine.RSBitVector.subBlockRank_eq h.tab (Machine.RSBitVector.nblocks_le h.rep hl) (pos.toNat / 64) (by omega)
      rw [← d] at e
      rw [show (Machine.RSBitVector.enc v).pairs = v.pairs.map W from rfl, e, bind_pure_some]
      by_cases h0 : pos.toNat % 64 = 0
      · rw [if_neg (by rw [ne_eq, Machine.mod64_zero]; omega), if_pos ⟨hb, Or.inl h0⟩, show 64 * (pos.toNat / 64) = pos.toNat by omega]; rfl
      · rw [if_pos (by rw [ne_eq, Machine.mod64_zero]; exact h0), if_neg (by unfold RankDefined; omega),
          show at_ (Machine.RSBitVector.enc v).bv.bits (pos / 64) = none from Machine.rd_none (by
            rw [Machine.div64]; show v.bv.bits.length ≤ _; omega)]; rfl
    · rw [show (Machine.RSBitVector.enc v).pairs = v.pairs.map W from rfl, subBlockRank_none h.tab (pos / 64) (by rw [Machine.div64]; omega)
        (by rw [Machine.div64]; omega), if_neg (by unfold RankDefined; unfold nblocks at hb; omega)]; rfl

end Release
end Succinct
