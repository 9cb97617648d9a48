import Verif.Lemmas.ReleaseRank
import Verif.Lemmas.MachineRS
import Verif.Spec.Padded

/-! Without assertions a bit vector behaves like the one filled up to whole words. -/
namespace Succinct
namespace Release
open Broadword Spec
open Machine (at_ vlen W)
open RSBitVector (bind_pure_some)

theorem padded_length (l : List Bool) : (padded l).length = 64 * ((l.length + 63) / 64) := by
  unfold padded
  rw [List.length_append, List.length_replicate]
  omega

theorem padded_bitFn (l : List Bool) (p : Nat) : bitFn (padded l) p = bitFn l p := by
  unfold bitFn padded
  rcases Nat.lt_or_ge p l.length with h | h
  · simp only [List.getD_eq_getElem?_getD, List.getElem?_append_left h]
  · simp only [List.getD_eq_getElem?_getD, List.getElem?_append_right h, List.getElem?_eq_none h, List.getElem?_replicate]
    split <;> rfl

theorem padded_rep (l : List Bool) : Rep ⟨64 * (BitVector.ofRange l).bits.length, (BitVector.ofRange l).bits⟩ (padded l) := by
  have h := BitVector.ofRange_rep l
  refine ⟨?_, ?_, fun p => ?_⟩
  · show 64 * _ = _
    rw [padded_length, h.len]
  · show (BitVector.ofRange l).bits.length = ((padded l).length + 63) / 64
    rw [padded_length, h.len]; omega
  · rw [padded_bitFn]; exact h.repr.bit p

theorem ofRange_padded (l : List Bool) : BitVector.ofRange (padded l) = ⟨64 * (BitVector.ofRange l).bits.length, (BitVector.ofRange l).bits⟩ :=
  (BitVector.eq_ofRange (padded_rep l)).symm

/-- the vector that is taken to consist of whole words -/
def whole (v : Machine.BitVector) : Machine.BitVector := ⟨W (64 * v.bits.length), v.bits⟩

theorem enc_padded (l : List Bool) : Machine.BitVector.enc (BitVector.ofRange (padded l)) = whole (Machine.BitVector.enc (BitVector.ofRange l)) := by
  rw [ofRange_padded]; rfl

variable (v : Machine.BitVector) (hv : v.bits.length ≤ 2^57) (pos : Word)
include hv

theorem bvAccess_whole : bvAccess v pos = (whole v).access pos := by
  unfold bvAccess Machine.BitVector.access whole vlen
  dsimp only
  by_cases hp : pos.toNat < 64 * v.bits.length
  · rw [Machine.assert_yes ((Machine.lt_W _ _ (by omega)).2 hp), bind_pure_some,
      Machine.assert_yes ((Machine.lt_W _ _ (by omega)).2 (by rw [Machine.div64]; omega)), bind_pure_some]
  · rw [show at_ v.bits (pos / 64) = none from Machine.rd_none (by rw [Machine.div64]; omega),
      assertP_none (by rw [Machine.lt_W _ _ (by omega)]; omega)]
    rfl

theorem bvGetWord_whole : bvGetWord v pos = (whole v).getWord pos := by
  unfold bvGetWord Machine.BitVector.getWord whole
  dsimp only
  by_cases hp : pos.toNat < 64 * v.bits.length
  · rw [Machine.assert_yes ((Machine.lt_W _ _ (by omega)).2 hp), bind_pure_some]
  · rw [show at_ v.bits (pos / 64) = none from Machine.rd_none (by rw [Machine.div64]; omega),
      assertP_none (by rw [Machine.lt_W _ _ (by omega)]; omega)]
    rfl

theorem bvGetBits_whole (ov : Word → Nat → Word) (len : Word) (h0 : len ≠ 0) (hlen : len.toNat ≤ 64) :
    bvGetBits ov v pos len = (whole v).getBits ov pos len := by
  have hl0 : len.toNat ≠ 0 := fun h => h0 ((Machine.eq0 len).2 h)
  have hpl := pos.isLt
  unfold bvGetBits Machine.BitVector.getBits whole
  dsimp only
  rw [if_neg h0, if_neg h0]
  have hm := Machine.mod64 pos
  have hd := Machine.div64 pos
  have hs : (pos % 64 + len).toNat = pos.toNat % 64 + len.toNat := by
    rw [Machine.toNat_add_lt _ _ (by omega), hm]
  have hc : pos % 64 + len ≤ 64 ↔ pos.toNat % 64 + len.toNat ≤ 64 := by
    rw [BitVec.le_def, hs]; exact Iff.rfl
  have hb1 : (pos / 64 + 1).toNat = pos.toNat / 64 + 1 := by
    rw [Machine.toNat_add_lt _ _ (by rw [hd]; show _ + 1 < _; omega), hd]; rfl
  by_cases hp : pos + len ≤ W (64 * v.bits.length)
  · rw [Machine.assert_yes hp, bind_pure_some]
  · rw [assertP_none hp]
    show _ = none
    rw [Machine.le_W _ _ (by omega)] at hp
    by_cases hw : pos.toNat + len.toNat < 2^64
    · rw [Machine.toNat_add_lt _ _ hw] at hp
      by_cases h1 : v.bits.length ≤ pos.toNat / 64
      · have e : at_ v.bits (pos / 64) = none := Machine.rd_none (by rw [hd]; exact h1)
        split <;> rw [e] <;> rfl
      · have hgt : ¬ (pos % 64 + len ≤ 64) := by rw [hc]; omega
        rw [if_neg hgt]
        have e : at_ v.bits (pos / 64 + 1) = none := Machine.rd_none (by rw [hb1]; omega)
        rw [e]
        cases at_ v.bits (pos / 64) with
        | none => rfl
        | some w =>
          rw [bind_pure_some]
          cases shr w (pos % 64).toNat with
          | none => rfl
          | some x => rfl
    · have e : at_ v.bits (pos / 64) = none := Machine.rd_none (by rw [hd]; omega)
      split <;> rw [e] <;> rfl

omit hv pos in
theorem predLoop_whole (hv : v.bits.length ≤ 2^57) (neg : Bool) (fuel : Nat) (block word : Word) :
    predLoop neg v.bits fuel block word = Machine.BitVector.predLoop neg v.bits fuel block word := by
  induction fuel generalizing block word with
  | zero =>
    unfold predLoop Machine.BitVector.predLoop
    cases msb word with
    | some r => rfl
    | none =>
      dsimp only
      by_cases hb : block ≠ 0
      · rw [Machine.assert_yes hb, bind_pure_some]
      · rw [assertP_none hb]; rfl
  | succ fuel ih =>
    unfold predLoop Machine.BitVector.predLoop
    cases msb word with
    | some r => rfl
    | none =>
      dsimp only
      by_cases hb : block ≠ 0
      · rw [Machine.assert_yes hb, bind_pure_some]
        simp only [ih]
      · rw [assertP_none hb]
        have hb0 : block = 0 := not_not.1 hb
        have e : at_ v.bits (block - 1) = none := by
          subst hb0
          refine Machine.rd_none ?_
          show _ ≤ 2^64 - 1
          omega
        rw [e]; rfl

theorem bvPredecessor_whole (neg : Bool) : bvPredecessor neg v pos = (whole v).predecessor neg pos := by
  unfold bvPredecessor Machine.BitVector.predecessor whole
  dsimp only
  by_cases hp : pos.toNat < 64 * v.bits.length
  · rw [Machine.assert_yes ((Machine.lt_W _ _ (by omega)).2 hp), bind_pure_some]
    simp only [predLoop_whole v hv]
  · rw [show at_ v.bits (pos / 64) = none from Machine.rd_none (by rw [Machine.div64]; omega),
      assertP_none (by rw [Machine.lt_W _ _ (by omega)]; omega)]
    rfl

omit hv pos in
theorem succLoop_whole (hv : v.bits.length ≤ 2^57) (neg : Bool) (fuel : Nat) (block word : Word) (hb : block.toNat < v.bits.length) :
    succLoop neg v.bits fuel block word = Machine.BitVector.succLoop neg v.bits fuel block word := by
  have hb1 : (block + 1).toNat = block.toNat + 1 := by
    rw [Machine.toNat_add_lt _ _ (by show _ + 1 < _; omega)]; rfl
  induction fuel generalizing block word with
  | zero =>
    unfold succLoop Machine.BitVector.succLoop
    cases lsb word with
    | some r => rfl
    | none =>
      dsimp only
      by_cases hb : block + 1 < vlen v.bits
      · rw [Machine.assert_yes hb, bind_pure_some]
      · rw [assertP_none hb]; rfl
  | succ fuel ih =>
    unfold succLoop Machine.BitVector.succLoop
    cases lsb word with
    | some r => rfl
    | none =>
      dsimp only
      by_cases hc : block.toNat + 1 < v.bits.length
      · unfold vlen
        rw [Machine.assert_yes ((Machine.lt_W _ _ (by omega)).2 (by omega)), bind_pure_some]
        have : ((block + 1) + 1).toNat = (block + 1).toNat + 1 := by
          rw [Machine.toNat_add_lt _ _ (by rw [hb1]; show _ + 1 < _; omega)]; rfl
        simp only [ih (block + 1) _ (by omega) this]
      · rw [assertP_none (by unfold vlen; rw [Machine.lt_W _ _ (by omega)]; omega),
          show at_ v.bits (block + 1) = none from Machine.rd_none (by omega)]
        rfl

theorem bvSuccessor_whole (neg : Bool) : bvSuccessor neg v pos = (whole v).successor neg pos := by
  unfold bvSuccessor Machine.BitVector.successor whole
  dsimp only
  by_cases hp : pos.toNat < 64 * v.bits.length
  · rw [Machine.assert_yes ((Machine.lt_W _ _ (by omega)).2 hp), bind_pure_some]
    simp only [succLoop_whole v hv neg _ _ _ (show (pos / 64).toNat < v.bits.length by rw [Machine.div64]; omega)]
  · rw [show at_ v.bits (pos / 64) = none from Machine.rd_none (by rw [Machine.div64]; omega),
      assertP_none (by rw [Machine.lt_W _ _ (by omega)]; omega)]
    rfl

end Release
end Succinct
