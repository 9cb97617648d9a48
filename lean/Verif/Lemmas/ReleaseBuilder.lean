import Verif.Model.ReleaseBuilder
import Verif.Spec.RawBuilder
import Verif.Lemmas.Builder

/-! The builder without assertions keeps the buffer that `Spec.Prog.raw` describes. -/
namespace Succinct
namespace Release
open Spec Broadword
open Builder (back_eq orCur_eq negBool_bit mask_bit reverseLoop_spec reverseLoop_spec64 wbit_reverse)

structure RInv (b : Builder) (r : Raw) : Prop where
  size : b.size = r.size
  len : b.bits.length = (r.size + 63) / 64
  rlen : r.bits.length = 64 * ((r.size + 63) / 64)
  bit : ∀ p, wbit b.bits p = bitFn r.bits p
  cur : r.size % 64 ≠ 0 → b.cur = some (b.bits.length - 1)

theorem RInv.of {b : Builder} {l : List Bool} (h : Inv b l) : RInv b ⟨l.length, growTo l.length l⟩ where
  size := h.size
  len := h.len
  rlen := by simp only [growTo, roundUp, List.length_append, List.length_replicate]; omega
  bit := by
    intro p
    rw [h.repr.bit, growTo, bitFn_append, bitFn_replicate, Bool.and_false]
    split
    · rfl
    · exact bitFn_of_ge _ _ (by omega)
  cur := h.cur

theorem bitFn_grow (n : Nat) (r : List Bool) (p : Nat) : bitFn (growTo n r) p = bitFn r p := by
  rw [growTo, bitFn_append, bitFn_replicate, Bool.and_false]
  split
  · rfl
  · rw [bitFn_of_ge _ _ (by omega)]

theorem grow_length (n : Nat) (r : List Bool) (h : r.length ≤ 64 * ((n + 63) / 64)) : (growTo n r).length = 64 * ((n + 63) / 64) := by
  simp only [growTo, roundUp, List.length_append, List.length_replicate]; omega

theorem bitFn_range_map (n : Nat) (f : Nat → Bool) (p : Nat) : bitFn ((List.range n).map f) p = (decide (p < n) && f p) := by
  unfold bitFn
  rw [List.getD_eq_getElem?_getD, List.getElem?_map]
  by_cases h : p < n
  · rw [List.getElem?_range h]; simp [h]
  · rw [List.getElem?_eq_none (by simpa using h)]; simp [h]

theorem orAt_length (pos : Nat) (x r : List Bool) : (orAt pos x r).length = r.length := by simp [orAt]

theorem bitFn_orAt (pos : Nat) (x r : List Bool) (p : Nat) :
    bitFn (orAt pos x r) p = (decide (p < r.length) && (bitFn r p || (decide (pos ≤ p) && bitFn x (p - pos)))) := by
  rw [orAt, bitFn_range_map]; rfl

theorem overwrite_length (pos : Nat) (x : List Bool) (len : Nat) (r : List Bool) : (overwrite pos x len r).length = r.length := by simp [overwrite]

theorem bitFn_overwrite (pos : Nat) (x : List Bool) (len : Nat) (r : List Bool) (p : Nat) :
    bitFn (overwrite pos x len r) p = (decide (p < r.length) && if pos ≤ p ∧ p < pos + len then bitFn x (p - pos)
      else bitFn r p || (decide (pos ≤ p ∧ p < roundUp (pos + len)) && bitFn x (p - pos))) := by
  rw [overwrite, bitFn_range_map]; rfl

/-- the bits after or-ing at the end -/
theorem bitFn_orGrow {b : Builder} {r : Raw} (h : RInv b r) (n : Nat) (hn : r.size ≤ n) (x : List Bool) (p : Nat) :
    bitFn (orAt r.size x (growTo n r.bits)) p =
      (decide (p < 64 * ((n + 63) / 64)) && (bitFn r.bits p || (decide (r.size ≤ p) && bitFn x (p - r.size)))) := by
  rw [bitFn_orAt, bitFn_grow, grow_length _ _ (by rw [h.rlen]; omega)]

theorem orGrow_length {b : Builder} {r : Raw} (h : RInv b r) (n : Nat) (hn : r.size ≤ n) (x : List Bool) :
    (orAt r.size x (growTo n r.bits)).length = 64 * ((n + 63) / 64) := by
  rw [orAt_length, grow_length _ _ (by rw [h.rlen]; omega)]

theorem pushBack_raw {b : Builder} {r : Raw} (h : RInv b r) (x : Bool) :
    ∃ b', b.pushBack x = some b' ∧ RInv b' ⟨r.size + 1, orAt r.size [x] (growTo (r.size + 1) r.bits)⟩ := by
  have hl := h.len
  have hb := h.bit
  have hrl := h.rlen
  unfold Builder.pushBack
  simp only []
  rw [shl_eq _ _ (by omega), h.size]
  simp only [Option.bind_eq_bind, Option.bind_some]
  have bitv : ∀ q, ((if x = true then (1 : Word) else 0) <<< (r.size % 64)).getLsbD (q % 64) = (decide (q % 64 = r.size % 64) && x) := by
    intro q
    cases x
    · simp
    · exact (getLsbD_one_shl _ _ (by omega)).trans (by simp)
  have hz : ∀ p, 64 * ((r.size + 63) / 64) ≤ p → bitFn r.bits p = false := fun p hp => bitFn_of_ge _ _ (by omega)
  by_cases h0 : r.size % 64 = 0
  · rw [if_pos h0, back_eq _ (by simp)]
    simp only [List.length_append, List.length_singleton, Nat.add_sub_cancel, Option.bind_some]
    rw [orCur_eq _ _ _ (by simp)]
    simp only [Option.bind_some]
    refine ⟨_, rfl, rfl, ?_, orGrow_length h _ (by omega) _, ?_, ?_⟩
    · simp; omega
    · intro p
      rw [wbit_set _ _ _ (by simp), wbit_append, hb, bitFn_orGrow h _ (by omega), BitVec.getLsbD_or, bitv, bitFn_singleton]
      simp only [List.getElem_append_right (Nat.le_refl _), Nat.sub_self, List.getElem_cons_zero]
      by_cases h1 : p / 64 = b.bits.length
      · rw [if_pos h1, hz p (by omega)]
        have e1 : p < 64 * ((r.size + 1 + 63) / 64) := by omega
        have e2 : r.size ≤ p := by omega
        simp only [BitVec.ofNat_eq_ofNat, BitVec.getLsbD_zero, Bool.false_or, e1, e2, decide_true, Bool.true_and]
        congr 1; rw [decide_eq_decide]; omega
      · rw [if_neg h1]
        by_cases h2 : p / 64 < b.bits.length
        · have e1 : p < 64 * ((r.size + 1 + 63) / 64) := by omega
          have e2 : ¬ r.size ≤ p := by omega
          rw [if_pos h2]; simp [e1, e2]
        · have e1 : ¬ p < 64 * ((r.size + 1 + 63) / 64) := by omega
          rw [if_neg h2, wbit_singleton]; simp [e1]
    · intro _; simp
  · rw [if_neg h0, h.cur h0, orCur_eq _ _ _ (by omega)]
    simp only [Option.bind_some]
    refine ⟨_, rfl, rfl, ?_, orGrow_length h _ (by omega) _, ?_, ?_⟩
    · simp; omega
    · intro p
      rw [wbit_set _ _ _ (by omega), bitFn_orGrow h _ (by omega), BitVec.getLsbD_or, bitv, bitFn_singleton,
        getElem_getLsbD _ _ _ (by omega) (by omega), hb, hb]
      by_cases h1 : p / 64 = b.bits.length - 1
      · rw [if_pos h1, show 64 * (b.bits.length - 1) + p % 64 = p by omega]
        have e1 : p < 64 * ((r.size + 1 + 63) / 64) := by omega
        simp only [e1, decide_true, Bool.true_and]
        congr 1
        by_cases h2 : r.size ≤ p
        · simp only [h2, decide_true, Bool.true_and]
          congr 1; rw [decide_eq_decide]; omega
        · have : p % 64 ≠ r.size % 64 := by omega
          simp [h2, this]
      · rw [if_neg h1]
        by_cases h2 : r.size ≤ p
        · rw [hz p (by omega)]
          have : ¬ p - r.size = 0 := by omega
          simp [this]
        · have e1 : p < 64 * ((r.size + 1 + 63) / 64) := by omega
          simp [h2, e1]
    · intro _; simp

theorem set_raw {b : Builder} {r : Raw} (h : RInv b r) (pos : Nat) (x : Bool) :
    (pos < r.bits.length → ∃ b', b.set pos x = some b' ∧ RInv b' ⟨r.size, r.bits.set pos x⟩) ∧ (r.bits.length ≤ pos → b.set pos x = none) := by
  have hl := h.len
  have hb := h.bit
  have hrl := h.rlen
  constructor
  · intro hp
    have hw : pos / 64 < b.bits.length := by omega
    unfold Builder.set
    simp only []
    rw [shl_eq _ _ (by omega), shl_eq _ _ (by omega), rd_eq _ _ hw]
    simp only [Option.bind_eq_bind, Option.bind_some]
    rw [wr_eq _ _ _ hw]
    simp only [Option.bind_some]
    rw [rd_eq _ _ (by simpa using hw)]
    simp only [Option.bind_some, List.getElem_set_self]
    rw [wr_eq _ _ _ (by simpa using hw)]
    simp only [Option.bind_some, List.set_set]
    have bitv : ∀ q, ((if x = true then (1 : Word) else 0) <<< (pos % 64)).getLsbD (q % 64) = (decide (q % 64 = pos % 64) && x) := by
      intro q
      cases x
      · simp
      · exact (getLsbD_one_shl _ _ (by omega)).trans (by simp)
    refine ⟨_, rfl, h.size, by simpa using hl, by simpa using hrl, ?_, ?_⟩
    · intro p
      rw [wbit_set _ _ _ hw, bitFn_set _ _ _ hp, BitVec.getLsbD_or, BitVec.getLsbD_and, BitVec.getLsbD_not, bitv]
      have e : ((1 : Word) <<< (pos % 64)).getLsbD (p % 64) = decide (p % 64 = pos % 64) := getLsbD_one_shl _ _ (by omega)
      rw [e, getElem_getLsbD _ _ _ hw (by omega), hb, hb]
      by_cases h1 : p / 64 = pos / 64
      · rw [if_pos h1, show 64 * (pos/64) + p % 64 = p by omega]
        by_cases h2 : p = pos
        · subst h2; simp
        · have : p % 64 ≠ pos % 64 := by omega
          simp [this, h2]; omega
      · rw [if_neg h1, if_neg (by omega)]
    · intro hc
      simp only [List.length_set]
      exact h.cur hc
  · intro hp
    unfold Builder.set
    simp only []
    rw [shl_eq _ _ (by omega)]
    have : rd b.bits (pos / 64) = none := List.getElem?_eq_none (by omega)
    rw [this]; rfl

theorem lenMask_bits (len : Nat) (h : len ≤ 64) : ∃ mask : Word, Builder.lenMask len = some mask ∧ ∀ i, mask.getLsbD i = decide (i < len) := by
  unfold Builder.lenMask
  by_cases h64 : len = 64
  · exact ⟨_, by rw [if_pos h64], fun i => by rw [BitVec.getLsbD_allOnes, h64]⟩
  · exact ⟨_, by rw [if_neg h64, shl_eq _ _ (by omega)]; rfl, fun i => mask_bit len (by omega) i⟩

theorem setBits_raw {b : Builder} {r : Raw} (h : RInv b r) (pos : Nat) (x : Word) (len : Nat) (hlen : len ≤ 64) (h0 : len ≠ 0) :
    (roundUp (pos + len) ≤ r.bits.length → ∃ b', bSetBits b pos x len = some b' ∧ RInv b' ⟨r.size, overwrite pos (wordBits x) len r.bits⟩) ∧
    (r.bits.length < roundUp (pos + len) → bSetBits b pos x len = none) := by
  have hl := h.len
  have hb := h.bit
  have hrl := h.rlen
  obtain ⟨mask, hm1, hm2⟩ := lenMask_bits len hlen
  have hru : roundUp (pos + len) = 64 * ((pos + len + 63) / 64) := rfl
  rw [hru]
  by_cases hw : pos / 64 < b.bits.length
  swap
  · refine ⟨fun hp => by omega, fun _ => ?_⟩
    unfold bSetBits
    rw [if_neg h0, hm1]
    simp only [Option.bind_eq_bind, Option.bind_some]
    rw [shl_eq _ _ (by omega)]
    have : rd b.bits (pos / 64) = none := List.getElem?_eq_none (by omega)
    rw [this]; rfl
  have hbit : ∀ p, bitFn (overwrite pos (wordBits x) len r.bits) p = (decide (p < r.bits.length) && if pos ≤ p ∧ p < pos + len then x.getLsbD (p - pos)
      else bitFn r.bits p || (decide (pos ≤ p ∧ p < 64 * ((pos + len + 63) / 64)) && x.getLsbD (p - pos))) := by
    intro p
    rw [bitFn_overwrite, bitFn_wordBits]; rfl
  unfold bSetBits
  rw [if_neg h0, hm1]
  simp only [Option.bind_eq_bind, Option.bind_some]
  rw [shl_eq _ _ (by omega), rd_eq _ _ hw, shl_eq _ _ (by omega)]
  simp only [Option.bind_some]
  rw [wr_eq _ _ _ hw]
  simp only [Option.bind_some]
  rw [rd_eq _ _ (by simpa using hw)]
  simp only [Option.bind_some, List.getElem_set_self]
  rw [wr_eq _ _ _ (by simpa using hw)]
  simp only [Option.bind_some, List.set_set]
  by_cases hst : 64 - pos % 64 < len
  · rw [if_pos hst]
    rw [shr_eq _ _ (by omega), shr_eq _ _ (by omega)]
    simp only [Option.bind_some]
    by_cases hw1 : pos / 64 + 1 < b.bits.length
    swap
    · refine ⟨fun hp => by omega, fun _ => ?_⟩
      have : ∀ v, rd (b.bits.set (pos / 64) v) (pos / 64 + 1) = none := fun v => List.getElem?_eq_none (by simp; omega)
      rw [this]; rfl
    refine ⟨fun _ => ?_, fun hp => by omega⟩
    rw [rd_eq _ _ (by simpa using hw1)]
    simp only [Option.bind_some]
    rw [wr_eq _ _ _ (by simpa using hw1)]
    simp only [Option.bind_some]
    rw [rd_eq _ _ (by simpa using hw1)]
    simp only [Option.bind_some, List.getElem_set_self]
    rw [wr_eq _ _ _ (by simpa using hw1)]
    simp only [Option.bind_some, List.set_set]
    refine ⟨_, rfl, h.size, by simpa using hl, by rw [overwrite_length]; exact hrl, ?_, ?_⟩
    · intro p
      rw [hbit, wbit_set _ _ _ (by simpa using hw1), wbit_set _ _ _ hw]
      simp only [BitVec.getLsbD_or, BitVec.getLsbD_and, BitVec.getLsbD_not, BitVec.getLsbD_ushiftRight,
        BitVec.getLsbD_shiftLeft, hm2]
      rw [List.getElem_set_ne (by omega), getElem_getLsbD _ _ _ hw1 (by omega),
        getElem_getLsbD _ _ _ hw (by omega), hb, hb, hb]
      have hpm : p % 64 < 64 := by omega
      by_cases h1 : p / 64 = pos/64 + 1
      · have e0 : p < r.bits.length := by omega
        have e1 : pos ≤ p := by omega
        have e3 : p < 64 * ((pos + len + 63) / 64) := by omega
        rw [if_pos h1, show 64 * (pos/64+1) + p % 64 = p by omega, show 64 - pos % 64 + p % 64 = p - pos by omega]
        by_cases h2 : p < pos + len
        · have : p - pos < len := by omega
          simp [this, e0, e1, h2]
        · have : ¬ (p - pos < len) := by omega
          simp [this, hpm, e0, e1, h2, e3]
      · rw [if_neg h1]
        by_cases h3 : p / 64 = pos / 64
        · have e0 : p < r.bits.length := by omega
          rw [if_pos h3, show 64 * (pos/64) + p % 64 = p by omega]
          by_cases h4 : p < pos
          · have : p % 64 < pos % 64 := by omega
            have e4 : ¬ pos ≤ p := by omega
            simp [this, hpm, e0, e4]
          · have e : ¬ (p % 64 < pos % 64) := by omega
            have e2 : p % 64 - pos % 64 = p - pos := by omega
            have e3 : p < pos + len := by omega
            have e4 : p - pos < len := by omega
            have e5 : pos ≤ p := by omega
            simp [e, e2, e4, hpm, e0, e3, e5]
        · rw [if_neg h3]
          have e4 : ¬ (pos ≤ p ∧ p < pos + len) := by omega
          have e5 : ¬ (pos ≤ p ∧ p < 64 * ((pos + len + 63) / 64)) := by omega
          rw [if_neg e4, decide_eq_false e5]
          by_cases e0 : p < r.bits.length
          · simp [e0]
          · rw [bitFn_of_ge _ _ (by omega)]; simp
    · intro hc
      simp only [List.length_set]
      exact h.cur hc
  · rw [if_neg hst]
    refine ⟨fun _ => ?_, fun hp => by omega⟩
    refine ⟨_, rfl, h.size, by simpa using hl, by rw [overwrite_length]; exact hrl, ?_, ?_⟩
    · intro p
      rw [hbit, wbit_set _ _ _ hw]
      simp only [BitVec.getLsbD_or, BitVec.getLsbD_and, BitVec.getLsbD_not, BitVec.getLsbD_shiftLeft, hm2]
      rw [getElem_getLsbD _ _ _ hw (by omega), hb, hb]
      have hpm : p % 64 < 64 := by omega
      by_cases h3 : p / 64 = pos / 64
      · have e0 : p < r.bits.length := by omega
        rw [if_pos h3, show 64 * (pos/64) + p % 64 = p by omega]
        by_cases h4 : p < pos
        · have : p % 64 < pos % 64 := by omega
          have e4 : ¬ pos ≤ p := by omega
          simp [this, hpm, e0, e4]
        · have e : ¬ (p % 64 < pos % 64) := by omega
          have e2 : p % 64 - pos % 64 = p - pos := by omega
          have e5 : pos ≤ p := by omega
          have e3 : p < 64 * ((pos + len + 63) / 64) := by omega
          by_cases h2 : p < pos + len
          · have e4 : p - pos < len := by omega
            simp [e, e2, e4, hpm, e0, h2, e5]
          · have e4 : ¬ (p - pos < len) := by omega
            simp [e, e2, e4, hpm, e0, h2, e5, e3]
      · rw [if_neg h3]
        have e4 : ¬ (pos ≤ p ∧ p < pos + len) := by omega
        have e5 : ¬ (pos ≤ p ∧ p < 64 * ((pos + len + 63) / 64)) := by omega
        rw [if_neg e4, decide_eq_false e5]
        by_cases e0 : p < r.bits.length
        · simp [e0]
        · rw [bitFn_of_ge _ _ (by omega)]; simp
    · intro hc
      simp only [List.length_set]
      exact h.cur hc

theorem appendBits_raw {b : Builder} {r : Raw} (h : RInv b r) (x : Word) (len : Nat) (hlen : len ≤ 64) (h0 : len ≠ 0) :
    ∃ b', bAppendBits b x len = some b' ∧ RInv b' ⟨r.size + len, orAt r.size (wordBits x) (growTo (r.size + len) r.bits)⟩ := by
  have hl := h.len
  have hb := h.bit
  have hrl := h.rlen
  have hz : ∀ p, 64 * ((r.size + 63) / 64) ≤ p → bitFn r.bits p = false := fun p hp => bitFn_of_ge _ _ (by omega)
  have hbl := bitFn_orGrow h (r.size + len) (by omega) (wordBits x)
  simp only [bitFn_wordBits] at hbl
  unfold bAppendBits
  rw [if_neg h0, h.size]
  dsimp only
  by_cases h1 : r.size % 64 = 0
  · rw [if_pos h1, back_eq _ (by simp)]
    simp only [Option.bind_eq_bind, Option.bind_some]
    refine ⟨_, rfl, rfl, by simp; omega, orGrow_length h _ (by omega) _, ?_, ?_⟩
    · intro p
      dsimp only
      rw [wbit_append, hbl, hb, wbit_singleton]
      by_cases h2 : p < r.size
      · have e1 : ¬ r.size ≤ p := by omega
        have e2 : p < 64 * ((r.size + len + 63) / 64) := by omega
        rw [if_pos (by omega)]; simp [e1, e2]
      · have e1 : r.size ≤ p := by omega
        rw [if_neg (by omega), hz p (by omega), show p - 64 * b.bits.length = p - r.size by omega]
        by_cases e2 : p < 64 * ((r.size + len + 63) / 64)
        · simp [e1, e2]
        · rw [BitVec.getLsbD_of_ge _ _ (by omega)]; simp
    · intro _; simp
  · rw [if_neg h1, shl_eq _ _ (by omega), h.cur h1]
    simp only [Option.bind_eq_bind, Option.bind_some]
    rw [orCur_eq _ _ _ (by omega)]
    simp only [Option.bind_some]
    have hbs : ∀ p, p / 64 = b.bits.length - 1 →
        (b.bits[b.bits.length - 1]'(by omega) ||| x <<< (r.size % 64)).getLsbD (p % 64) =
        bitFn (orAt r.size (wordBits x) (growTo (r.size + len) r.bits)) p := by
      intro p h2
      rw [hbl, BitVec.getLsbD_or, getElem_getLsbD _ _ _ (by omega) (by omega), hb, BitVec.getLsbD_shiftLeft,
        show 64 * (b.bits.length - 1) + p % 64 = p by omega]
      have hpm : p % 64 < 64 := by omega
      have e0 : p < 64 * ((r.size + len + 63) / 64) := by omega
      by_cases h3 : p < r.size
      · have : p % 64 < r.size % 64 := by omega
        have e1 : ¬ r.size ≤ p := by omega
        simp [this, e1, e0]
      · have e1 : ¬ (p % 64 < r.size % 64) := by omega
        have e2 : p % 64 - r.size % 64 = p - r.size := by omega
        have e3 : r.size ≤ p := by omega
        simp [e1, e2, hpm, e3, e0]
    have hlo : ∀ p, p / 64 < b.bits.length - 1 → bitFn r.bits p = bitFn (orAt r.size (wordBits x) (growTo (r.size + len) r.bits)) p := by
      intro p h2
      have e0 : p < 64 * ((r.size + len + 63) / 64) := by omega
      have e1 : ¬ r.size ≤ p := by omega
      rw [hbl]; simp [e0, e1]
    by_cases h2 : len > 64 - r.size % 64
    · rw [if_pos h2, shr_eq _ _ (by omega)]
      simp only [Option.bind_some]
      rw [back_eq _ (by simp)]
      simp only [Option.bind_some]
      refine ⟨_, rfl, rfl, by simp; omega, orGrow_length h _ (by omega) _, ?_, ?_⟩
      · intro p
        dsimp only
        rw [wbit_append, wbit_set _ _ _ (by omega), wbit_singleton, BitVec.getLsbD_ushiftRight]
        simp only [List.length_set]
        by_cases h3 : p / 64 < b.bits.length
        · rw [if_pos h3]
          by_cases h4 : p / 64 = b.bits.length - 1
          · rw [if_pos h4, hbs p h4]
          · rw [if_neg h4, hb, hlo p (by omega)]
        · rw [if_neg h3, hbl, hz p (by omega)]
          have e1 : r.size ≤ p := by omega
          rw [show 64 - r.size % 64 + (p - 64 * b.bits.length) = p - r.size by omega]
          by_cases e2 : p < 64 * ((r.size + len + 63) / 64)
          · simp [e1, e2]
          · rw [BitVec.getLsbD_of_ge _ _ (by omega)]; simp
      · intro _; simp
    · rw [if_neg h2]
      rw [back_eq _ (by simp; omega)]
      simp only [Option.bind_some, List.length_set]
      refine ⟨_, rfl, rfl, by simp; omega, orGrow_length h _ (by omega) _, ?_, ?_⟩
      · intro p
        dsimp only
        rw [wbit_set _ _ _ (by omega)]
        by_cases h4 : p / 64 = b.bits.length - 1
        · rw [if_pos h4, hbs p h4]
        · rw [if_neg h4, hb]
          by_cases h5 : p / 64 < b.bits.length - 1
          · rw [hlo p h5]
          · have e2 : ¬ p < 64 * ((r.size + len + 63) / 64) := by omega
            rw [hz p (by omega), hbl]; simp [e2]
      · intro _; simp

theorem zeroExtend_raw {b : Builder} {r : Raw} (h : RInv b r) (n : Nat) :
    ∃ b', b.zeroExtend n = some b' ∧ RInv b' ⟨r.size + n, growTo (r.size + n) r.bits⟩ := by
  have hl := h.len
  have hb := h.bit
  have hrl := h.rlen
  have hgl := grow_length (r.size + n) r.bits (by omega)
  unfold Builder.zeroExtend
  simp only []
  rw [h.size, subU_eq _ _ (by rw [hl, wordsFor_eq]; omega)]
  simp only [Option.bind_eq_bind, Option.bind_some]
  by_cases h1 : wordsFor (r.size + n) - b.bits.length ≠ 0
  · rw [if_pos h1, back_eq _ (by simp; omega)]
    simp only [Option.bind_some]
    refine ⟨_, rfl, rfl, by rw [wordsFor_eq] at *; simp; omega, hgl, ?_, ?_⟩
    · intro p
      dsimp only
      rw [wbit_append, bitFn_grow, hb, wbit_replicate_zero]
      split
      · rfl
      · rw [bitFn_of_ge]; omega
    · intro _; simp
  · rw [if_neg h1]
    rw [wordsFor_eq] at h1
    refine ⟨_, rfl, rfl, by dsimp only; omega, hgl, ?_, ?_⟩
    · intro p; dsimp only; rw [hb, bitFn_grow]
    · intro hc
      dsimp only at hc ⊢
      apply h.cur
      omega

theorem orAt_orAt {b : Builder} {r : Raw} (h : RInv b r) (m n : Nat) (x : Word) (hx : ∀ i, i < m → x.getLsbD i = true) (hm : m ≤ 64) (hx' : ∀ i, m ≤ i → x.getLsbD i = false) :
    orAt (r.size + m) (List.replicate n true) (growTo (r.size + m + n) (orAt r.size (wordBits x) (growTo (r.size + m) r.bits))) =
      orAt r.size (List.replicate (m + n) true) (growTo (r.size + (m + n)) r.bits) := by
  have hrl := h.rlen
  have l1 := orGrow_length h (r.size + m) (by omega) (wordBits x)
  apply bitFn_ext
  · rw [orAt_length, grow_length _ _ (by omega), orGrow_length h _ (by omega)]
    congr 2; omega
  · intro p
    rw [bitFn_orAt, bitFn_grow, grow_length _ _ (by omega), bitFn_orGrow h _ (by omega), bitFn_orGrow h _ (by omega), bitFn_wordBits,
      bitFn_replicate, bitFn_replicate]
    by_cases h1 : p < 64 * ((r.size + (m + n) + 63) / 64)
    · have h1' : p < 64 * ((r.size + m + n + 63) / 64) := by omega
      by_cases h2 : r.size ≤ p
      · by_cases h3 : p - r.size < m
        · have e1 : p < 64 * ((r.size + m + 63) / 64) := by omega
          have e2 : p - r.size < m + n := by omega
          rw [hx _ h3]; simp [h1, h1', h2, e1, e2]
        · have e1 : r.size + m ≤ p := by omega
          have e2 : (p - (r.size + m) < n) ↔ (p - r.size < m + n) := by omega
          rw [hx' _ (by omega)]
          by_cases e3 : p < 64 * ((r.size + m + 63) / 64)
          · simp [h1, h1', h2, e1, e2, e3]
          · rw [bitFn_of_ge r.bits _ (by omega)]; simp [h1, h1', h2, e1, e2]
      · have e1 : ¬ r.size + m ≤ p := by omega
        have e3 : p < 64 * ((r.size + m + 63) / 64) := by omega
        simp [h1, h1', h2, e1, e3]
    · have h1' : ¬ p < 64 * ((r.size + m + n + 63) / 64) := by omega
      simp [h1, h1']

theorem ones_bit (n : Nat) (hn : n ≤ 64) (i : Nat) : (BitVec.allOnes 64 >>> (64 - n)).getLsbD i = decide (i < n) := by
  rw [BitVec.getLsbD_ushiftRight, BitVec.getLsbD_allOnes, decide_eq_decide]; omega

theorem oneExtendLoop_raw (fuel : Nat) : ∀ {b : Builder} {r : Raw} (n : Nat), RInv b r → n ≤ 64 * fuel + 63 →
    ∃ b', bOneExtendLoop fuel b n = some b' ∧ RInv b' ⟨r.size + n, orAt r.size (List.replicate n true) (growTo (r.size + n) r.bits)⟩ := by
  have small : ∀ {b : Builder} {r : Raw} (n : Nat), RInv b r → n < 64 →
      ∃ b', (if n ≠ 0 then (do let v ← shr (BitVec.allOnes 64) (64 - n); bAppendBits b v n) else some b) = some b' ∧
        RInv b' ⟨r.size + n, orAt r.size (List.replicate n true) (growTo (r.size + n) r.bits)⟩ := by
    intro b r n h hn
    by_cases h0 : n ≠ 0
    · rw [if_pos h0, shr_eq _ _ (by omega)]
      simp only [Option.bind_eq_bind, Option.bind_some]
      obtain ⟨b', e, hi⟩ := appendBits_raw h (BitVec.allOnes 64 >>> (64 - n)) n (by omega) h0
      refine ⟨b', e, ?_⟩
      have := orAt_orAt h n 0 (BitVec.allOnes 64 >>> (64 - n)) (fun i hi => by rw [ones_bit n (by omega)]; simp [hi]) (by omega)
        (fun i hi => by rw [ones_bit n (by omega)]; simp; omega)
      have h2 : orAt (r.size + n) (List.replicate 0 true) (growTo (r.size + n + 0) (orAt r.size (wordBits (BitVec.allOnes 64 >>> (64 - n))) (growTo (r.size + n) r.bits)))
          = orAt r.size (wordBits (BitVec.allOnes 64 >>> (64 - n))) (growTo (r.size + n) r.bits) := by
        apply bitFn_ext
        · rw [orAt_length, grow_length _ _ (by rw [orGrow_length h _ (by omega)]), orGrow_length h _ (by omega)]
        · intro p
          rw [bitFn_orAt, bitFn_grow, grow_length _ _ (by rw [orGrow_length h _ (by omega)]), bitFn_replicate]
          by_cases hp : p < 64 * ((r.size + n + 0 + 63) / 64)
          · simp [hp]
          · rw [bitFn_of_ge (orAt _ _ _) _ (by rw [orGrow_length h _ (by omega)]; omega)]; simp
      rw [h2, Nat.add_zero] at this
      rw [← this]; exact hi
    · rw [if_neg h0]
      simp at h0; subst h0
      refine ⟨b, rfl, ?_⟩
      have : orAt r.size (List.replicate 0 true) (growTo (r.size + 0) r.bits) = r.bits := by
        apply bitFn_ext
        · rw [orGrow_length h _ (by omega), h.rlen]
        · intro p
          rw [bitFn_orGrow h _ (by omega), bitFn_replicate]
          by_cases hp : p < 64 * ((r.size + 0 + 63) / 64)
          · simp [hp]
          · rw [bitFn_of_ge r.bits _ (by rw [h.rlen]; omega)]; simp
      rw [this]; exact h
  induction fuel with
  | zero =>
    intro b r n h hn
    unfold bOneExtendLoop
    rw [if_neg (by omega)]
    exact small n h (by omega)
  | succ fuel ih =>
    intro b r n h hn
    unfold bOneExtendLoop
    by_cases h64 : n ≥ 64
    · rw [if_pos h64]
      simp only [Option.bind_eq_bind]
      obtain ⟨b1, e1, i1⟩ := appendBits_raw h (BitVec.allOnes 64) 64 (by omega) (by omega)
      rw [e1]
      simp only [Option.bind_some]
      obtain ⟨b2, e2, i2⟩ := ih (n - 64) i1 (by omega)
      refine ⟨b2, e2, ?_⟩
      have := orAt_orAt h 64 (n - 64) (BitVec.allOnes 64) (fun i hi => by rw [BitVec.getLsbD_allOnes]; simp [hi]) (by omega)
        (fun i hi => BitVec.getLsbD_of_ge _ _ hi)
      rw [show 64 + (n - 64) = n by omega] at this
      rw [← this]
      have h3 : r.size + 64 + (n - 64) = r.size + n := by omega
      rw [h3]
      rw [h3] at i2
      exact i2
    · rw [if_neg h64]
      exact small n h (by omega)

theorem appendLoop_raw (shift : Nat) (h0 : 0 < shift) (h64 : shift < 64) (rest : List Word) : ∀ (ws : List Word) (c : Nat),
    c + rest.length < ws.length → (∀ p, 64*(c+1) ≤ p → wbit ws p = false) →
    ∃ ws', Builder.appendLoop shift rest ws c = some (ws', c + rest.length) ∧ ws'.length = ws.length ∧
      ∀ p, wbit ws' p = (wbit ws p || (decide (64*c + shift ≤ p) && wbit rest (p - (64*c+shift)))) := by
  induction rest with
  | nil => intro ws c _ _; exact ⟨ws, rfl, rfl, fun p => by rw [wbit_nil]; simp⟩
  | cons w rest ih =>
    intro ws c hc hz
    simp only [List.length_cons] at hc ⊢
    unfold Builder.appendLoop
    rw [shl_eq _ _ h64, shr_eq _ _ (by omega)]
    simp only [Option.bind_eq_bind, Option.bind_some]
    rw [orCur_eq _ _ _ (by omega)]
    simp only [Option.bind_some]
    rw [wr_eq _ _ _ (by simp; omega)]
    simp only [Option.bind_some]
    have hw : ∀ p, wbit ((ws.set c (ws[c] ||| w <<< shift)).set (c+1) (w >>> (64 - shift))) p =
        (wbit ws p || (decide (64*c + shift ≤ p) && w.getLsbD (p - (64*c+shift)))) := by
      intro p
      rw [wbit_set _ _ _ (by simp; omega), wbit_set _ _ _ (by omega), BitVec.getLsbD_ushiftRight, BitVec.getLsbD_or,
        BitVec.getLsbD_shiftLeft, getElem_getLsbD _ _ _ (by omega) (by omega)]
      have hpm : p % 64 < 64 := by omega
      by_cases h1 : p / 64 = c + 1
      · have e1 : 64*c + shift ≤ p := by omega
        rw [if_pos h1, hz p (by omega), show 64 - shift + p % 64 = p - (64*c+shift) by omega]; simp [e1]
      · rw [if_neg h1]
        by_cases h2 : p / 64 = c
        · rw [if_pos h2, show 64*c + p % 64 = p by omega]
          by_cases h3 : shift ≤ p % 64
          · have e1 : ¬ (p % 64 < shift) := by omega
            have e2 : 64*c + shift ≤ p := by omega
            rw [show p % 64 - shift = p - (64*c+shift) by omega]; simp [hpm, e1, e2]
          · have e1 : p % 64 < shift := by omega
            have e2 : ¬ 64*c + shift ≤ p := by omega
            simp [e1, e2]
        · rw [if_neg h2]
          by_cases e2 : 64*c + shift ≤ p
          · rw [BitVec.getLsbD_of_ge _ _ (by omega)]; simp
          · simp [e2]
    obtain ⟨ws', e1, e2, e3⟩ := ih ((ws.set c (ws[c] ||| w <<< shift)).set (c+1) (w >>> (64 - shift))) (c+1)
      (by simp; omega) (by
        intro p h1
        rw [hw, hz p (by omega), BitVec.getLsbD_of_ge _ _ (by omega)]; simp)
    refine ⟨ws', ?_, ?_, ?_⟩
    · rw [e1]; congr 2; omega
    · simpa using e2
    · intro p
      rw [e3, hw, wbit_cons]
      by_cases h1 : 64*c + shift ≤ p
      · by_cases h2 : 64*(c+1) + shift ≤ p
        · rw [BitVec.getLsbD_of_ge _ _ (by omega), if_neg (by omega), show p - (64*(c+1)+shift) = p - (64*c+shift) - 64 by omega]
          simp [h1, h2]
        · rw [if_pos (by omega)]; simp [h1, h2]
      · have h2 : ¬ 64*(c+1) + shift ≤ p := by omega
        simp [h1, h2]

theorem append_raw {b c : Builder} {r s : Raw} (h : RInv b r) (hc : RInv c s) :
    ∃ b', b.append c = some b' ∧ RInv b' ⟨r.size + s.size, orAt r.size s.bits (growTo (r.size + s.size) r.bits)⟩ := by
  have hl := h.len
  have hb := h.bit
  have hrl := h.rlen
  have hcl := hc.len
  have hcb := hc.bit
  have hsl := hc.rlen
  have hz : ∀ p, 64 * ((r.size + 63) / 64) ≤ p → bitFn r.bits p = false := fun p hp => bitFn_of_ge _ _ (by omega)
  have hz2 : ∀ p, 64 * ((s.size + 63) / 64) ≤ p → bitFn s.bits p = false := fun p hp => bitFn_of_ge _ _ (by omega)
  have hbl := bitFn_orGrow h (r.size + s.size) (by omega) s.bits
  have hgl := orGrow_length h (r.size + s.size) (by omega) s.bits
  unfold Builder.append
  by_cases h0 : s.size = 0
  · rw [if_pos (by rw [hc.size, h0])]
    refine ⟨_, rfl, ?_⟩
    have : orAt r.size s.bits (growTo (r.size + s.size) r.bits) = r.bits := by
      apply bitFn_ext (by rw [hgl, hrl, h0])
      intro p
      rw [hbl, hz2 (p - r.size) (by omega)]
      by_cases hp : p < 64 * ((r.size + s.size + 63) / 64)
      · simp [hp]
      · rw [hz p (by omega)]; simp
    rw [this, h0]; exact h
  rw [if_neg (by rw [hc.size]; exact h0), h.size, hc.size]
  simp only []
  rw [subU_eq (wordsFor (r.size + s.size)) b.bits.length (by rw [hl, wordsFor_eq]; omega)]
  simp only [Option.bind_eq_bind, Option.bind_some]
  by_cases h1 : r.size % 64 = 0
  · rw [if_pos h1]
    rw [assertP_eq _ (by simp [wordsFor_eq]; omega)]
    simp only [Option.bind_some]
    have e1 : (b.bits ++ List.replicate (wordsFor (r.size + s.size) - b.bits.length) (0:Word)).take b.bits.length = b.bits := by simp
    have e2 : (b.bits ++ List.replicate (wordsFor (r.size + s.size) - b.bits.length) (0:Word)).drop (b.bits.length + c.bits.length) = [] := by
      apply List.drop_eq_nil_of_le
      simp [wordsFor_eq]; omega
    rw [e1, e2, List.append_nil, back_eq _ (by simp; omega)]
    simp only [Option.bind_some]
    refine ⟨_, rfl, rfl, by simp; omega, hgl, ?_, ?_⟩
    · intro p
      dsimp only
      rw [wbit_append, hbl, hb, hcb]
      by_cases h2 : p < r.size
      · have e1 : ¬ r.size ≤ p := by omega
        have e2 : p < 64 * ((r.size + s.size + 63) / 64) := by omega
        rw [if_pos (by omega)]; simp [e1, e2]
      · have e1 : r.size ≤ p := by omega
        rw [if_neg (by omega), hz p (by omega), show p - 64 * b.bits.length = p - r.size by omega]
        by_cases e2 : p < 64 * ((r.size + s.size + 63) / 64)
        · simp [e1, e2]
        · rw [hz2 _ (by omega)]; simp
    · intro _; simp
  · rw [if_neg h1, subU_eq _ _ (by omega), subU_eq _ _ (by omega)]
    simp only [Option.bind_some]
    obtain ⟨last, hlast⟩ : ∃ x, c.bits.getLast? = some x := by
      cases hq : c.bits.getLast? with
      | none => rw [List.getLast?_eq_none_iff] at hq; rw [hq] at hcl; simp at hcl; omega
      | some x => exact ⟨x, rfl⟩
    have hsplit : c.bits = c.bits.dropLast ++ [last] := by
      have hne : c.bits ≠ [] := by intro hq; rw [hq] at hlast; simp at hlast
      rw [List.getLast?_eq_some_getLast hne] at hlast
      have := List.dropLast_concat_getLast hne
      simp only [Option.some.injEq] at hlast
      rw [hlast] at this; exact this.symm
    have hdl : c.bits.dropLast.length = c.bits.length - 1 := by simp
    have hg : ∀ p, wbit (b.bits ++ List.replicate (wordsFor (r.size + s.size) - b.bits.length) (0:Word)) p = bitFn r.bits p := by
      intro p
      rw [wbit_append, hb, wbit_replicate_zero]
      split
      · rfl
      · rw [bitFn_of_ge]; omega
    obtain ⟨ws, e1, e2, e3⟩ := appendLoop_raw (r.size % 64) (by omega) (by omega) c.bits.dropLast
      (b.bits ++ List.replicate (wordsFor (r.size + s.size) - b.bits.length) (0:Word)) (b.bits.length - 1)
      (by simp [wordsFor_eq]; omega)
      (by intro p h2; rw [hg, hz]; omega)
    rw [e1, hlast]
    simp only [Option.bind_some]
    have hwl : ws.length = wordsFor (r.size + s.size) := by rw [e2]; simp [wordsFor_eq]; omega
    rw [wordsFor_eq] at hwl
    rw [shl_eq _ _ (by omega)]
    simp only [Option.bind_some]
    rw [orCur_eq _ _ _ (by omega)]
    simp only [Option.bind_some]
    rw [back_eq _ (by simp; omega)]
    simp only [Option.bind_some, List.length_set]
    have hoff : 64 * (b.bits.length - 1) + r.size % 64 = r.size := by omega
    have hm : ∀ q, bitFn s.bits q = if q/64 < c.bits.length - 1 then wbit c.bits.dropLast q else last.getLsbD (q - 64*(c.bits.length-1)) := by
      intro q
      rw [← hcb]
      conv_lhs => rw [hsplit]
      rw [wbit_append, wbit_singleton, hdl]
    have key : ∀ p, p / 64 ≤ b.bits.length - 1 + c.bits.dropLast.length →
        wbit (ws.set (b.bits.length - 1 + c.bits.dropLast.length)
          (ws[b.bits.length - 1 + c.bits.dropLast.length]'(by omega) ||| last <<< (r.size % 64))) p =
        bitFn (orAt r.size s.bits (growTo (r.size + s.size) r.bits)) p := by
      intro p hp
      rw [wbit_set _ _ _ (by omega), BitVec.getLsbD_or, getElem_getLsbD _ _ _ (by omega) (by omega), e3, hg, BitVec.getLsbD_shiftLeft,
        e3, hg, hbl, hm, hoff]
      have hpm : p % 64 < 64 := by omega
      have e0 : p < 64 * ((r.size + s.size + 63) / 64) := by omega
      by_cases h2 : p / 64 = b.bits.length - 1 + c.bits.dropLast.length
      · rw [if_pos h2, show 64 * (b.bits.length - 1 + c.bits.dropLast.length) + p % 64 = p by omega]
        by_cases h4 : (p - r.size)/64 < c.bits.length - 1
        · have : p % 64 < r.size % 64 := by omega
          rw [if_pos h4]; simp [this, e0]
        · by_cases e6 : r.size ≤ p
          swap
          · have e7 : p % 64 < r.size % 64 := by omega
            simp [e6, e7, e0]
          have e5 : ¬ (p % 64 < r.size % 64) := by omega
          rw [if_neg h4, wbit_of_ge _ _ (by omega), show p % 64 - r.size % 64 = p - r.size - 64 * (c.bits.length - 1) by omega]
          simp [hpm, e5, e6, e0]
      · rw [if_neg h2]
        by_cases h4 : r.size ≤ p
        · rw [if_pos (by omega)]; simp [h4, e0]
        · simp [h4, e0]
    by_cases h5 : b.bits.length - 1 + c.bits.dropLast.length < ws.length - 1
    · rw [if_pos h5, shr_eq _ _ (by omega)]
      simp only [Option.bind_some]
      rw [wr_eq _ _ _ (by simp; omega)]
      simp only [Option.bind_some]
      refine ⟨_, rfl, rfl, by simp; omega, hgl, ?_, ?_⟩
      · intro p
        dsimp only
        rw [wbit_set _ _ _ (by simp; omega)]
        by_cases h6 : p / 64 = b.bits.length - 1 + c.bits.dropLast.length + 1
        · have e0 : p < 64 * ((r.size + s.size + 63) / 64) := by omega
          have e6 : r.size ≤ p := by omega
          rw [if_pos h6, BitVec.getLsbD_ushiftRight, hbl, hz p (by omega), hm, if_neg (by omega),
            show 64 - r.size % 64 + p % 64 = p - r.size - 64 * (c.bits.length - 1) by omega]
          simp [e0, e6]
        · rw [if_neg h6]
          by_cases h7 : p / 64 ≤ b.bits.length - 1 + c.bits.dropLast.length
          · exact key p h7
          · have e0 : ¬ p < 64 * ((r.size + s.size + 63) / 64) := by omega
            rw [wbit_of_ge _ _ (by simp; omega), hbl]; simp [e0]
      · intro _; simp
    · rw [if_neg h5]
      refine ⟨_, rfl, rfl, by simp; omega, hgl, ?_, ?_⟩
      · intro p
        dsimp only
        by_cases h7 : p / 64 ≤ b.bits.length - 1 + c.bits.dropLast.length
        · exact key p h7
        · have e0 : ¬ p < 64 * ((r.size + s.size + 63) / 64) := by omega
          rw [wbit_of_ge _ _ (by simp; omega), hbl]; simp [e0]
      · intro _; simp

theorem reverse_raw {b : Builder} {r : Raw} (h : RInv b r) :
    ∃ b', bReverse b = some b' ∧ RInv b' ⟨r.size, growTo r.size (r.bits.take r.size).reverse⟩ := by
  have hl := h.len
  have hb := h.bit
  have hrl := h.rlen
  have htl : (r.bits.take r.size).length = r.size := by rw [List.length_take]; omega
  have hbl : ∀ p, bitFn (growTo r.size (r.bits.take r.size).reverse) p = (decide (p < r.size) && bitFn r.bits (r.size - 1 - p)) := by
    intro p
    rw [bitFn_grow, bitFn_reverse, htl, bitFn_take]
    by_cases hp : p < r.size
    · have : r.size - 1 - p < r.size := by omega
      simp [hp, this]
    · simp [hp]
  have hgl := grow_length r.size (r.bits.take r.size).reverse (by rw [List.length_reverse, htl]; omega)
  unfold bReverse
  rw [h.size]
  by_cases h0 : r.size % 64 = 0
  · rw [h0]
    obtain ⟨ws', e1, e2, e3⟩ := reverseLoop_spec64 b.bits 0
    rw [show 64 - 0 = 64 from rfl, e1]
    simp only [Option.bind_eq_bind, Option.bind_some]
    refine ⟨_, rfl, rfl, ?_, hgl, ?_, ?_⟩
    · simp only [List.length_reverse]; rw [e2]; exact hl
    · intro p
      dsimp only
      rw [hbl]
      by_cases hp : p < r.size
      · rw [wbit_reverse _ _ (by omega), e3 _ _ (by omega) (by omega), hb]
        simp only [hp, decide_true, Bool.true_and]
        congr 1; omega
      · rw [wbit_of_ge _ _ (by simp; omega)]; simp [hp]
    · intro hc; dsimp only at hc; omega
  · obtain ⟨ws', rem, e1, e2, e3, e4⟩ := reverseLoop_spec (64 - r.size % 64) (by omega) (by omega) b.bits 0 (by simp)
    rw [e1]
    simp only [Option.bind_eq_bind, Option.bind_some]
    refine ⟨_, rfl, rfl, ?_, hgl, ?_, ?_⟩
    · simp only [List.length_reverse]; rw [e2]; exact hl
    · intro p
      dsimp only
      rw [hbl]
      by_cases hp : p < r.size
      · rw [wbit_reverse _ _ (by omega), e3 _ _ (by omega) (by omega), hb, if_neg (by omega)]
        simp only [hp, decide_true, Bool.true_and]
        congr 1; omega
      · by_cases hp2 : p / 64 < ws'.length
        · rw [wbit_reverse _ _ hp2, e3 _ _ (by omega) (by omega), hb, if_pos (by omega)]; simp [hp]
        · rw [wbit_of_ge _ _ (by simp; omega)]; simp [hp]
    · intro hc
      simp only [List.length_reverse]
      rw [e2]; exact h.cur hc

/-- the whole history -/
theorem bRun_raw (p : Prog) (ht : p.Tame) : (∀ r, p.raw = some r → ∃ b, bRun p = some b ∧ RInv b r) ∧ (p.raw = none → bRun p = none) := by
  induction p with
  | new n x =>
    refine ⟨fun r hr => ?_, fun hr => by cases hr⟩
    obtain ⟨b, e, hi⟩ := Builder.new_inv n x
    have := RInv.of hi
    rw [List.length_replicate] at this
    cases hr
    exact ⟨b, e, this⟩
  | pushBack p x ih =>
    cases hp : p.raw with
    | none =>
      have := (ih ht).2 hp
      refine ⟨fun r hr => ?_, fun _ => ?_⟩
      · simp only [Prog.raw, hp] at hr; cases hr
      · simp only [bRun, this]; rfl
    | some r0 =>
      obtain ⟨b0, e0, h0⟩ := (ih ht).1 r0 hp
      obtain ⟨b, e, hi⟩ := pushBack_raw h0 x
      simp only [Prog.raw, hp, bRun, e0]
      exact ⟨fun r hr => by cases hr; exact ⟨b, e, hi⟩, fun hr => by cases hr⟩
  | set p pos x ih =>
    cases hp : p.raw with
    | none =>
      have := (ih ht).2 hp
      refine ⟨fun r hr => ?_, fun _ => ?_⟩
      · simp only [Prog.raw, hp] at hr; cases hr
      · simp only [bRun, this]; rfl
    | some r0 =>
      obtain ⟨b0, e0, h0⟩ := (ih ht).1 r0 hp
      simp only [Prog.raw, hp, bRun, e0, Option.bind_eq_bind, Option.bind_some]
      by_cases hc : pos < r0.bits.length
      · obtain ⟨b, e, hi⟩ := (set_raw h0 pos x).1 hc
        rw [if_pos hc]
        exact ⟨fun r hr => by cases hr; exact ⟨b, e, hi⟩, fun hr => by cases hr⟩
      · rw [if_neg hc]
        exact ⟨fun r hr => by (cases hr), fun _ => (set_raw h0 pos x).2 (by omega)⟩
  | setBits p pos x len ih =>
    cases hp : p.raw with
    | none =>
      have := (ih ht.1).2 hp
      refine ⟨fun r hr => ?_, fun _ => ?_⟩
      · simp only [Prog.raw, hp] at hr; cases hr
      · simp only [bRun, this]; rfl
    | some r0 =>
      obtain ⟨b0, e0, h0⟩ := (ih ht.1).1 r0 hp
      simp only [Prog.raw, hp, bRun, e0, Option.bind_eq_bind, Option.bind_some]
      by_cases hl0 : len = 0
      · rw [if_pos hl0]
        refine ⟨fun r hr => ⟨b0, ?_, by cases hr; exact h0⟩, fun hr => by cases hr⟩
        unfold bSetBits; rw [if_pos hl0]; rfl
      rw [if_neg hl0]
      by_cases hc : roundUp (pos + len) ≤ r0.bits.length
      · obtain ⟨b, e, hi⟩ := (setBits_raw h0 pos x len ht.2 hl0).1 hc
        rw [if_pos hc]
        exact ⟨fun r hr => by cases hr; exact ⟨b, e, hi⟩, fun hr => by cases hr⟩
      · rw [if_neg hc]
        exact ⟨fun r hr => by (cases hr), fun _ => (setBits_raw h0 pos x len ht.2 hl0).2 (by omega)⟩
  | appendBits p x len ih =>
    cases hp : p.raw with
    | none =>
      have := (ih ht.1).2 hp
      refine ⟨fun r hr => ?_, fun _ => ?_⟩
      · simp only [Prog.raw, hp] at hr; cases hr
      · simp only [bRun, this]; rfl
    | some r0 =>
      obtain ⟨b0, e0, h0⟩ := (ih ht.1).1 r0 hp
      simp only [Prog.raw, hp, bRun, e0, Option.bind_eq_bind, Option.bind_some]
      by_cases hl0 : len = 0
      · rw [if_pos hl0]
        refine ⟨fun r hr => ⟨b0, ?_, by cases hr; exact h0⟩, fun hr => by cases hr⟩
        unfold bAppendBits; rw [if_pos hl0]; rfl
      rw [if_neg hl0]
      obtain ⟨b, e, hi⟩ := appendBits_raw h0 x len ht.2 hl0
      exact ⟨fun r hr => by cases hr; exact ⟨b, e, hi⟩, fun hr => by cases hr⟩
  | zeroExtend p n ih =>
    cases hp : p.raw with
    | none =>
      have := (ih ht).2 hp
      refine ⟨fun r hr => ?_, fun _ => ?_⟩
      · simp only [Prog.raw, hp] at hr; cases hr
      · simp only [bRun, this]; rfl
    | some r0 =>
      obtain ⟨b0, e0, h0⟩ := (ih ht).1 r0 hp
      obtain ⟨b, e, hi⟩ := zeroExtend_raw h0 n
      simp only [Prog.raw, hp, bRun, e0]
      exact ⟨fun r hr => by cases hr; exact ⟨b, e, hi⟩, fun hr => by cases hr⟩
  | oneExtend p n ih =>
    cases hp : p.raw with
    | none =>
      have := (ih ht).2 hp
      refine ⟨fun r hr => ?_, fun _ => ?_⟩
      · simp only [Prog.raw, hp] at hr; cases hr
      · simp only [bRun, this]; rfl
    | some r0 =>
      obtain ⟨b0, e0, h0⟩ := (ih ht).1 r0 hp
      obtain ⟨b, e, hi⟩ := oneExtendLoop_raw n n h0 (by omega)
      simp only [Prog.raw, hp, bRun, e0]
      exact ⟨fun r hr => by cases hr; exact ⟨b, e, hi⟩, fun hr => by cases hr⟩
  | append p q ihp ihq =>
    cases hp : p.raw with
    | none =>
      have := (ihp ht.1).2 hp
      refine ⟨fun r hr => ?_, fun _ => ?_⟩
      · simp only [Prog.raw, hp] at hr; cases hr
      · simp only [bRun, this]; rfl
    | some r0 =>
      obtain ⟨b0, e0, h0⟩ := (ihp ht.1).1 r0 hp
      cases hq : q.raw with
      | none =>
        have := (ihq ht.2).2 hq
        refine ⟨fun r hr => ?_, fun _ => ?_⟩
        · simp only [Prog.raw, hp, hq] at hr; cases hr
        · simp only [bRun, this, e0]; rfl
      | some s0 =>
        obtain ⟨c0, f0, g0⟩ := (ihq ht.2).1 s0 hq
        obtain ⟨b, e, hi⟩ := append_raw h0 g0
        simp only [Prog.raw, hp, hq, bRun, e0, f0]
        exact ⟨fun r hr => by cases hr; exact ⟨b, e, hi⟩, fun hr => by cases hr⟩
  | reverse p ih =>
    cases hp : p.raw with
    | none =>
      have := (ih ht).2 hp
      refine ⟨fun r hr => ?_, fun _ => ?_⟩
      · simp only [Prog.raw, hp] at hr; cases hr
      · simp only [bRun, this]; rfl
    | some r0 =>
      obtain ⟨b0, e0, h0⟩ := (ih ht).1 r0 hp
      obtain ⟨b, e, hi⟩ := reverse_raw h0
      simp only [Prog.raw, hp, bRun, e0]
      exact ⟨fun r hr => by cases hr; exact ⟨b, e, hi⟩, fun hr => by cases hr⟩
  | reserve p re ih =>
    cases hp : p.raw with
    | none =>
      have := (ih ht.1).2 hp
      refine ⟨fun r hr => ?_, fun _ => ?_⟩
      · simp only [Prog.raw, hp] at hr; cases hr
      · simp only [bRun, this]; rfl
    | some r0 =>
      obtain ⟨b0, e0, h0⟩ := (ih ht.1).1 r0 hp
      simp only [Prog.raw, hp, bRun, e0, Option.bind_eq_bind, Option.bind_some]
      refine ⟨fun r hr => ?_, fun hr => by cases hr⟩
      cases hr
      unfold Builder.reserve
      cases re with
      | false => exact ⟨b0, rfl, h0⟩
      | true => exact ⟨_, rfl, h0.size, h0.len, h0.rlen, h0.bit, fun hm => absurd (ht.2 rfl r0 hp) hm⟩

end Release
end Succinct
