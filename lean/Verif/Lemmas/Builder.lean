import Verif.Lemmas.Words
import Verif.Lemmas.MsbLsb
import Verif.Spec.Builder

/-! Every builder operation preserves the representation invariant. -/
namespace Succinct
open Spec Broadword

structure Inv (b : Builder) (l : List Bool) : Prop where
  size : b.size = l.length
  repr : Repr b.bits l
  cur : l.length % 64 ≠ 0 → b.cur = some (b.bits.length - 1)

theorem Inv.len {b : Builder} {l : List Bool} (h : Inv b l) : b.bits.length = (l.length + 63)/64 := h.repr.len

namespace Builder

theorem back_eq (bits : List Word) (h : 0 < bits.length) : back bits = some (bits.length - 1) := by
  unfold back; rw [subU_eq _ _ h]

theorem orCur_eq (bits : List Word) (c : Nat) (v : Word) (h : c < bits.length) :
    orCur bits (some c) v = some (bits.set c (bits[c] ||| v)) := by
  unfold orCur
  simp only [Option.bind_eq_bind, Option.bind_some]
  rw [rd_eq _ _ h]
  simp only [Option.bind_some]
  rw [wr_eq _ _ _ h]

theorem negBool_bit (b : Bool) (i : Nat) (h : i < 64) : (negBool b).getLsbD i = b := by
  unfold negBool
  cases b
  · simp
  · rw [if_pos rfl, BitVec.getLsbD_allOnes]; simp [h]

theorem wbit_replicate (n : Nat) (b : Bool) (p : Nat) :
    wbit (List.replicate n (negBool b)) p = (decide (p/64 < n) && b) := by
  unfold wbit
  rw [List.getD_eq_getElem?_getD, List.getElem?_replicate]
  by_cases h : p/64 < n
  · simp only [h, if_true, Option.getD_some, decide_true, Bool.true_and]
    exact negBool_bit b _ (by omega)
  · simp [h]

theorem new_inv (n : Nat) (b : Bool) :
    ∃ s, new n b = some s ∧ Inv s (List.replicate n b) := by
  unfold new
  simp only []
  by_cases hn : n = 0
  · subst hn
    refine ⟨_, rfl, ?_, ?_, ?_⟩
    · simp
    · constructor
      · simp [wordsFor]
      · intro p; simp [wordsFor, wbit_nil, bitFn_nil]
    · simp
  · have hw : 0 < wordsFor n := by rw [wordsFor_eq]; omega
    rw [if_pos hn, back_eq _ (by simpa using hw)]
    simp only [List.length_replicate, Option.bind_eq_bind, Option.bind_some]
    by_cases hb : b = true ∧ n % 64 ≠ 0
    · rw [if_pos hb, rd_eq _ _ (by simp; omega)]
      simp only [Option.bind_some, List.getElem_replicate]
      rw [shr_eq _ _ (by omega)]
      simp only [Option.bind_some]
      rw [wr_eq _ _ _ (by simp; omega)]
      simp only [Option.bind_some]
      refine ⟨_, rfl, ?_, ?_, ?_⟩
      · simp
      · constructor
        · simp
        · intro p
          rw [wbit_set _ _ _ (by simp; omega), wbit_replicate, bitFn_replicate, BitVec.getLsbD_ushiftRight, hb.1]
          rw [wordsFor_eq] at *
          split
          · rename_i h
            by_cases h2 : 64 - n % 64 + p % 64 < 64
            · rw [negBool_bit _ _ h2]; simp; omega
            · rw [BitVec.getLsbD_of_ge _ _ (by omega)]; simp; omega
          · rename_i h
            congr 1
            rw [decide_eq_decide]; omega
      · intro _; simp
    · rw [if_neg hb]
      refine ⟨_, rfl, ?_, ?_, ?_⟩
      · simp
      · constructor
        · simp
        · intro p
          rw [wbit_replicate, bitFn_replicate]
          cases b
          · simp
          · have : n % 64 = 0 := by simpa using hb
            congr 1; rw [decide_eq_decide, wordsFor_eq]; omega
      · intro _; simp

theorem pushBack_inv (s : Builder) (l : List Bool) (h : Inv s l) (x : Bool) :
    ∃ s', pushBack s x = some s' ∧ Inv s' (l ++ [x]) := by
  have hl := h.len
  have hb := h.repr.bit
  unfold pushBack
  simp only []
  rw [shl_eq _ _ (by omega), h.size]
  simp only [Option.bind_eq_bind, Option.bind_some]
  have bitv : ∀ q, ((if x = true then (1 : Word) else 0) <<< (l.length % 64)).getLsbD (q % 64) =
      (decide (q % 64 = l.length % 64) && x) := by
    intro q
    cases x
    · simp
    · exact (getLsbD_one_shl _ _ (by omega)).trans (by simp)
  by_cases h0 : l.length % 64 = 0
  · rw [if_pos h0, back_eq _ (by simp)]
    simp only [List.length_append, List.length_singleton, Nat.add_sub_cancel, Option.bind_some]
    rw [orCur_eq _ _ _ (by simp)]
    simp only [Option.bind_some]
    refine ⟨_, rfl, ?_, ?_, ?_⟩
    · simp
    · constructor
      · simp [wordsFor_eq]; omega
      · intro p
        rw [wbit_set _ _ _ (by simp), wbit_append, hb, bitFn_append, BitVec.getLsbD_or, bitv, bitFn_singleton]
        simp only [List.getElem_append_right (Nat.le_refl _), Nat.sub_self, List.getElem_cons_zero]
        by_cases h1 : p / 64 = s.bits.length
        · rw [if_pos h1, if_neg (by omega)]
          simp only [BitVec.ofNat_eq_ofNat, BitVec.getLsbD_zero, Bool.false_or]
          congr 1; rw [decide_eq_decide]; omega
        · rw [if_neg h1]
          by_cases h2 : p < l.length
          · rw [if_pos (by omega), if_pos h2]
          · rw [if_neg (by omega), if_neg h2, wbit_singleton]
            have : ¬ (p - l.length = 0) := by omega
            simp [this]
    · intro _; simp
  · rw [if_neg h0, h.cur h0, orCur_eq _ _ _ (by omega)]
    simp only [Option.bind_some]
    refine ⟨_, rfl, ?_, ?_, ?_⟩
    · simp
    · constructor
      · simp [wordsFor_eq]; omega
      · intro p
        rw [wbit_set _ _ _ (by omega), bitFn_append, BitVec.getLsbD_or, bitv, bitFn_singleton,
          getElem_getLsbD _ _ _ (by omega) (by omega), hb, hb]
        by_cases h1 : p / 64 = s.bits.length - 1
        · rw [if_pos h1, show 64 * (s.bits.length - 1) + p % 64 = p by omega]
          by_cases h2 : p < l.length
          · rw [if_pos h2]
            have : p % 64 ≠ l.length % 64 := by omega
            simp [this]
          · rw [if_neg h2, bitFn_of_ge _ _ (by omega), Bool.false_or]
            congr 1; rw [decide_eq_decide]; omega
        · rw [if_neg h1]
          by_cases h2 : p < l.length
          · rw [if_pos h2]
          · rw [if_neg h2, bitFn_of_ge _ _ (by omega)]
            have : ¬ (p - l.length = 0) := by omega
            simp [this]
    · intro _; simp

theorem set_inv (s : Builder) (l : List Bool) (h : Inv s l) (pos : Nat) (x : Bool) (hp : pos < l.length) :
    ∃ s', set s pos x = some s' ∧ Inv s' (l.set pos x) := by
  have hl := h.len
  have hb := h.repr.bit
  have hw : pos / 64 < s.bits.length := by omega
  unfold set
  simp only []
  rw [shl_eq _ _ (by omega), shl_eq _ _ (by omega), rd_eq _ _ hw]
  simp only [Option.bind_eq_bind, Option.bind_some]
  rw [wr_eq _ _ _ hw]
  simp only [Option.bind_some]
  rw [rd_eq _ _ (by simpa using hw)]
  simp only [Option.bind_some, List.getElem_set_self]
  rw [wr_eq _ _ _ (by simpa using hw)]
  simp only [Option.bind_some, List.set_set]
  have bitv : ∀ q, ((if x = true then (1 : Word) else 0) <<< (pos % 64)).getLsbD (q % 64) =
      (decide (q % 64 = pos % 64) && x) := by
    intro q
    cases x
    · simp
    · exact (getLsbD_one_shl _ _ (by omega)).trans (by simp)
  refine ⟨_, rfl, ?_, ?_, ?_⟩
  · simpa using h.size
  · constructor
    · simpa using h.repr.len
    · intro p
      rw [wbit_set _ _ _ hw, bitFn_set _ _ _ hp, BitVec.getLsbD_or, BitVec.getLsbD_and, BitVec.getLsbD_not, bitv]
      have e : ((1 : Word) <<< (pos % 64)).getLsbD (p % 64) = decide (p % 64 = pos % 64) :=
        getLsbD_one_shl _ _ (by omega)
      rw [e, getElem_getLsbD _ _ _ hw (by omega), hb, hb]
      by_cases h1 : p / 64 = pos / 64
      · rw [if_pos h1, show 64 * (pos/64) + p % 64 = p by omega]
        by_cases h2 : p = pos
        · subst h2; simp
        · have : p % 64 ≠ pos % 64 := by omega
          simp [this, h2]; omega
      · rw [if_neg h1, if_neg (by omega)]
  · intro hc
    simp only [List.length_set] at hc ⊢
    exact h.cur hc

theorem fits_bits {bits : Word} {len : Nat} (h : Fits bits len) : ∀ i, len ≤ i → bits.getLsbD i = false := by
  intro i hi
  rw [← BitVec.testBit_toNat]
  exact Nat.testBit_lt_two_pow (Nat.lt_of_lt_of_le h.2 (Nat.pow_le_pow_right (by omega) hi))

theorem noSpurious_eq {bits : Word} {len : Nat} (h : Fits bits len) : noSpurious bits len = some () := by
  unfold noSpurious
  split
  · rfl
  · have := h.1
    rw [shr_eq _ _ (by omega)]
    simp only [Option.bind_eq_bind, Option.bind_some]
    exact assertP_eq _ ((shr_eq_zero_iff _ _).mpr (fits_bits h))

theorem mask_bit (len : Nat) (h : len < 64) (i : Nat) : ((1#64 <<< len) - 1).getLsbD i = decide (i < len) := by
  have e : ((1#64 <<< len) - 1).toNat = 2^len - 1 := by
    have h1 : (1#64 <<< len).toNat = 2^len := by
      rw [BitVec.toNat_shiftLeft, Nat.shiftLeft_eq]
      simp only [BitVec.toNat_ofNat]
      rw [show 1 % 2^64 = 1 from rfl, Nat.one_mul, Nat.mod_eq_of_lt (Nat.pow_lt_pow_right (by omega) h)]
    rw [BitVec.toNat_sub_of_le, h1]
    · rfl
    · rw [BitVec.le_def, h1]; exact Nat.two_pow_pos len
  rw [← BitVec.testBit_toNat, e, Nat.testBit_two_pow_sub_one]

theorem setBits_inv (s : Builder) (l : List Bool) (h : Inv s l) (pos : Nat) (bits : Word) (len : Nat)
    (hp : pos + len ≤ l.length) (hf : Fits bits len) :
    ∃ s', setBits s pos bits len = some s' ∧
      Inv s' (l.take pos ++ lowBits bits len ++ l.drop (pos + len)) := by
  have hl := h.len
  have hb := h.repr.bit
  have hlen : (l.take pos ++ lowBits bits len ++ l.drop (pos + len)).length = l.length := by
    simp; omega
  have hbit : ∀ p, bitFn (l.take pos ++ lowBits bits len ++ l.drop (pos + len)) p =
      if p < pos then bitFn l p else if p < pos + len then bits.getLsbD (p - pos) else bitFn l p := by
    intro p
    rw [bitFn_append, bitFn_append, bitFn_take, bitFn_lowBits, bitFn_drop]
    simp only [List.length_append, List.length_take, lowBits_length]
    rw [Nat.min_eq_left (by omega : pos ≤ l.length)]
    by_cases h1 : p < pos
    · simp only [h1, if_true, show p < pos + len by omega]; simp
    · by_cases h2 : p < pos + len
      · have : p - pos < len := by omega
        simp [h1, h2, this]
      · simp only [h1, h2, if_false]
        congr 1; omega
  unfold setBits
  rw [assertP_eq _ (by rw [h.size]; exact hp), noSpurious_eq hf]
  simp only [Option.bind_eq_bind, Option.bind_some]
  by_cases h0 : len = 0
  · rw [if_pos h0]
    refine ⟨_, rfl, ?_⟩
    subst h0
    have : l.take pos ++ lowBits bits 0 ++ l.drop (pos + 0) = l := by simp [lowBits]
    rw [this]; exact h
  rw [if_neg h0]
  have hm : ∃ mask : Word, lenMask len = some mask
      ∧ ∀ i, mask.getLsbD i = decide (i < len) := by
    unfold lenMask
    by_cases h64 : len = 64
    · exact ⟨_, by rw [if_pos h64], fun i => by rw [BitVec.getLsbD_allOnes, h64]⟩
    · have := hf.1
      exact ⟨_, by rw [if_neg h64, shl_eq _ _ (by omega)]; rfl, fun i => mask_bit len (by omega) i⟩
  obtain ⟨mask, hm1, hm2⟩ := hm
  rw [hm1]
  simp only [Option.bind_some]
  have hw : pos / 64 < s.bits.length := by omega
  rw [shl_eq _ _ (by omega), rd_eq _ _ hw, shl_eq _ _ (by omega)]
  simp only [Option.bind_some]
  rw [wr_eq _ _ _ hw]
  simp only [Option.bind_some]
  rw [rd_eq _ _ (by simpa using hw)]
  simp only [Option.bind_some, List.getElem_set_self]
  rw [wr_eq _ _ _ (by simpa using hw)]
  simp only [Option.bind_some, List.set_set]
  have hsp := fits_bits hf
  by_cases hst : 64 - pos % 64 < len
  · rw [if_pos hst]
    have := hf.1
    have hw1 : pos / 64 + 1 < s.bits.length := by omega
    rw [shr_eq _ _ (by omega), shr_eq _ _ (by omega), rd_eq _ _ (by simpa using hw1)]
    simp only [Option.bind_some]
    rw [wr_eq _ _ _ (by simpa using hw1)]
    simp only [Option.bind_some]
    rw [rd_eq _ _ (by simpa using hw1)]
    simp only [Option.bind_some, List.getElem_set_self]
    rw [wr_eq _ _ _ (by simpa using hw1)]
    simp only [Option.bind_some, List.set_set]
    refine ⟨_, rfl, ?_, ?_, ?_⟩
    · rw [hlen]; exact h.size
    · constructor
      · rw [hlen]; simpa using h.repr.len
      · intro p
        rw [hbit, wbit_set _ _ _ (by simpa using hw1), wbit_set _ _ _ hw]
        simp only [BitVec.getLsbD_or, BitVec.getLsbD_and, BitVec.getLsbD_not, BitVec.getLsbD_ushiftRight,
          BitVec.getLsbD_shiftLeft, hm2]
        rw [List.getElem_set_ne (by omega), getElem_getLsbD _ _ _ hw1 (by omega),
          getElem_getLsbD _ _ _ hw (by omega), hb, hb, hb]
        have hpm : p % 64 < 64 := by omega
        by_cases h1 : p / 64 = pos/64 + 1
        · rw [if_pos h1, show 64 * (pos/64+1) + p % 64 = p by omega, show 64 - pos % 64 + p % 64 = p - pos by omega,
            if_neg (by omega)]
          by_cases h2 : p < pos + len
          · have : p - pos < len := by omega
            rw [if_pos h2]; simp [this]
          · have : ¬ (p - pos < len) := by omega
            rw [if_neg h2, hsp _ (by omega)]; simp [this, hpm]
        · rw [if_neg h1]
          by_cases h3 : p / 64 = pos / 64
          · rw [if_pos h3, show 64 * (pos/64) + p % 64 = p by omega]
            by_cases h4 : p < pos
            · have : p % 64 < pos % 64 := by omega
              rw [if_pos h4]; simp [this, hpm]
            · have e : ¬ (p % 64 < pos % 64) := by omega
              have e2 : p % 64 - pos % 64 = p - pos := by omega
              have e3 : p < pos + len := by omega
              have e4 : p - pos < len := by omega
              rw [if_neg h4, if_pos e3]; simp [e, e2, e4, hpm]
          · rw [if_neg h3]
            by_cases h4 : p < pos
            · rw [if_pos h4]
            · rw [if_neg h4, if_neg (by omega)]
    · intro hc
      rw [hlen] at hc
      simp only [List.length_set]
      exact h.cur hc
  · rw [if_neg hst]
    refine ⟨_, rfl, ?_, ?_, ?_⟩
    · rw [hlen]; exact h.size
    · constructor
      · rw [hlen]; simpa using h.repr.len
      · intro p
        rw [hbit, wbit_set _ _ _ hw]
        simp only [BitVec.getLsbD_or, BitVec.getLsbD_and, BitVec.getLsbD_not,
          BitVec.getLsbD_shiftLeft, hm2]
        rw [getElem_getLsbD _ _ _ hw (by omega), hb, hb]
        have hpm : p % 64 < 64 := by omega
        by_cases h3 : p / 64 = pos / 64
        · rw [if_pos h3, show 64 * (pos/64) + p % 64 = p by omega]
          by_cases h4 : p < pos
          · have : p % 64 < pos % 64 := by omega
            rw [if_pos h4]; simp [this, hpm]
          · have e : ¬ (p % 64 < pos % 64) := by omega
            have e2 : p % 64 - pos % 64 = p - pos := by omega
            rw [if_neg h4]
            by_cases h2 : p < pos + len
            · have e4 : p - pos < len := by omega
              rw [if_pos h2]; simp [e, e2, e4, hpm]
            · have e4 : ¬ (p - pos < len) := by omega
              rw [if_neg h2]; simp [e, e2, e4, hpm, hsp _ (show len ≤ p - pos by omega)]
        · rw [if_neg h3]
          by_cases h4 : p < pos
          · rw [if_pos h4]
          · rw [if_neg h4, if_neg (by omega)]
    · intro hc
      rw [hlen] at hc
      simp only [List.length_set]
      exact h.cur hc

theorem appendBits_inv (s : Builder) (l : List Bool) (h : Inv s l) (bits : Word) (len : Nat)
    (hf : Fits bits len) :
    ∃ s', appendBits s bits len = some s' ∧ Inv s' (l ++ lowBits bits len) := by
  have hl := h.len
  have hb := h.repr.bit
  have hsp := fits_bits hf
  have hf1 := hf.1
  unfold appendBits
  rw [noSpurious_eq hf]
  simp only [Option.bind_eq_bind, Option.bind_some]
  by_cases h0 : len = 0
  · rw [if_pos h0]
    refine ⟨_, rfl, ?_⟩
    subst h0
    rw [show l ++ lowBits bits 0 = l by simp [lowBits]]; exact h
  rw [if_neg h0, h.size]
  have hbl : ∀ p, bitFn (l ++ lowBits bits len) p = if p < l.length then bitFn l p else bits.getLsbD (p - l.length) := by
    intro p
    rw [bitFn_append, bitFn_lowBits]
    split
    · rfl
    · by_cases h2 : p - l.length < len
      · simp [h2]
      · rw [hsp _ (by omega)]; simp
  by_cases h1 : l.length % 64 = 0
  · rw [if_pos h1, back_eq _ (by simp)]
    simp only [Option.bind_some]
    refine ⟨_, rfl, ?_, ?_, ?_⟩
    · simp
    · constructor
      · simp [wordsFor_eq]; omega
      · intro p
        rw [wbit_append, hbl, hb, wbit_singleton]
        by_cases h2 : p < l.length
        · rw [if_pos h2, if_pos (by omega)]
        · rw [if_neg h2, if_neg (by omega)]
          congr 1; omega
    · intro _; simp
  · rw [if_neg h1, shl_eq _ _ (by omega), h.cur h1]
    simp only [Option.bind_some]
    rw [orCur_eq _ _ _ (by omega)]
    simp only [Option.bind_some]
    have hbs : ∀ p, p / 64 = s.bits.length - 1 →
        (s.bits[s.bits.length - 1]'(by omega) ||| bits <<< (l.length % 64)).getLsbD (p % 64) =
        bitFn (l ++ lowBits bits len) p := by
      intro p h2
      rw [hbl, BitVec.getLsbD_or, getElem_getLsbD _ _ _ (by omega) (by omega), hb, BitVec.getLsbD_shiftLeft,
        show 64 * (s.bits.length - 1) + p % 64 = p by omega]
      have hpm : p % 64 < 64 := by omega
      by_cases h3 : p < l.length
      · have : p % 64 < l.length % 64 := by omega
        rw [if_pos h3]; simp [this]
      · have e1 : ¬ (p % 64 < l.length % 64) := by omega
        have e2 : p % 64 - l.length % 64 = p - l.length := by omega
        rw [if_neg h3, bitFn_of_ge _ _ (by omega)]; simp [e1, e2, hpm]
    have hlo : ∀ p, p / 64 < s.bits.length - 1 → bitFn l p = bitFn (l ++ lowBits bits len) p := by
      intro p h2
      rw [hbl, if_pos (by omega)]
    by_cases h2 : len > 64 - l.length % 64
    · rw [if_pos h2, shr_eq _ _ (by omega)]
      simp only [Option.bind_some]
      rw [back_eq _ (by simp)]
      simp only [Option.bind_some]
      refine ⟨_, rfl, ?_, ?_, ?_⟩
      · simp
      · constructor
        · simp [wordsFor_eq]; omega
        · intro p
          rw [wbit_append, wbit_set _ _ _ (by omega), wbit_singleton, BitVec.getLsbD_ushiftRight]
          simp only [List.length_set]
          by_cases h3 : p / 64 < s.bits.length
          · rw [if_pos h3]
            by_cases h4 : p / 64 = s.bits.length - 1
            · rw [if_pos h4, hbs p h4]
            · rw [if_neg h4, hb, hlo p (by omega)]
          · rw [if_neg h3, hbl, if_neg (by omega)]
            congr 1; omega
      · intro _; simp
    · rw [if_neg h2]
      rw [back_eq _ (by simp; omega)]
      simp only [Option.bind_some, List.length_set]
      refine ⟨_, rfl, ?_, ?_, ?_⟩
      · simp
      · constructor
        · simp [wordsFor_eq]; omega
        · intro p
          rw [wbit_set _ _ _ (by omega)]
          by_cases h4 : p / 64 = s.bits.length - 1
          · rw [if_pos h4, hbs p h4]
          · rw [if_neg h4, hb]
            by_cases h5 : p / 64 < s.bits.length - 1
            · rw [hlo p h5]
            · rw [bitFn_of_ge _ _ (by omega), bitFn_of_ge]
              simp; omega
      · intro _; simp

theorem zeroExtend_inv (s : Builder) (l : List Bool) (h : Inv s l) (n : Nat) :
    ∃ s', zeroExtend s n = some s' ∧ Inv s' (l ++ List.replicate n false) := by
  have hl := h.len
  have hb := h.repr.bit
  have hbl : ∀ p, bitFn (l ++ List.replicate n false) p = bitFn l p := by
    intro p
    rw [bitFn_append, bitFn_replicate]
    split
    · rfl
    · rw [bitFn_of_ge l p (by omega)]; simp
  unfold zeroExtend
  simp only []
  rw [h.size, subU_eq _ _ (by rw [hl, wordsFor_eq]; omega)]
  simp only [Option.bind_eq_bind, Option.bind_some]
  by_cases h1 : wordsFor (l.length + n) - s.bits.length ≠ 0
  · rw [if_pos h1, back_eq _ (by simp; omega)]
    simp only [Option.bind_some]
    refine ⟨_, rfl, ?_, ?_, ?_⟩
    · simp
    · constructor
      · simp only [List.length_append, List.length_replicate]; omega
      · intro p
        rw [wbit_append, hbl, hb, wbit_replicate_zero]
        split
        · rfl
        · rw [bitFn_of_ge]; omega
    · intro _; simp
  · rw [if_neg h1]
    refine ⟨_, rfl, ?_, ?_, ?_⟩
    · simp
    · rw [wordsFor_eq] at h1
      constructor
      · simp only [List.length_append, List.length_replicate]; rw [wordsFor_eq]; omega
      · intro p; rw [hb, hbl]
    · intro hc
      rw [wordsFor_eq] at h1
      simp only [List.length_append, List.length_replicate] at hc
      apply h.cur
      omega

theorem lowBits_ones (n : Nat) (h : n ≤ 64) (x : Word) (hx : ∀ i, i < n → x.getLsbD i = true) :
    lowBits x n = List.replicate n true := by
  apply bitFn_ext (by simp)
  intro p
  rw [bitFn_lowBits, bitFn_replicate]
  by_cases hp : p < n
  · simp [hp, hx p hp]
  · simp [hp]

theorem oneExtendLoop_inv (fuel : Nat) (s : Builder) (l : List Bool) (h : Inv s l) (n : Nat) (hfuel : n ≤ 64 * fuel + 63) :
    ∃ s', oneExtendLoop fuel s n = some s' ∧ Inv s' (l ++ List.replicate n true) := by
  induction fuel generalizing s l n with
  | zero =>
    unfold oneExtendLoop
    rw [if_neg (by omega)]
    by_cases h0 : n ≠ 0
    · rw [if_pos h0, shr_eq _ _ (by omega)]
      simp only [Option.bind_eq_bind, Option.bind_some]
      have hx : ∀ i, (BitVec.allOnes 64 >>> (64 - n)).getLsbD i = decide (i < n) := by
        intro i
        rw [BitVec.getLsbD_ushiftRight, BitVec.getLsbD_allOnes, decide_eq_decide]; omega
      have hf : Fits (BitVec.allOnes 64 >>> (64 - n)) n := by
        refine ⟨by omega, ?_⟩
        apply Nat.lt_pow_two_of_testBit
        intro i hi
        rw [BitVec.testBit_toNat, hx]; simp; omega
      have := appendBits_inv s l h _ n hf
      rwa [lowBits_ones n (by omega) _ (fun i hi => by rw [hx]; simp [hi])] at this
    · rw [if_neg h0]
      simp at h0; subst h0
      exact ⟨s, rfl, by simpa using h⟩
  | succ fuel ih =>
    unfold oneExtendLoop
    by_cases h64 : n ≥ 64
    · rw [if_pos h64]
      simp only [Option.bind_eq_bind]
      obtain ⟨s1, e1, i1⟩ := appendBits_inv s l h (BitVec.allOnes 64) 64 ⟨by omega, BitVec.isLt _⟩
      rw [e1]
      simp only [Option.bind_some]
      obtain ⟨s2, e2, i2⟩ := ih s1 _ i1 (n - 64) (by omega)
      refine ⟨s2, e2, ?_⟩
      rw [lowBits_ones 64 (by omega) _ (fun i hi => by rw [BitVec.getLsbD_allOnes]; simp [hi]),
        List.append_assoc, List.replicate_append_replicate] at i2
      rwa [show 64 + (n - 64) = n by omega] at i2
    · rw [if_neg h64]
      by_cases h0 : n ≠ 0
      · rw [if_pos h0, shr_eq _ _ (by omega)]
        simp only [Option.bind_eq_bind, Option.bind_some]
        have hx : ∀ i, (BitVec.allOnes 64 >>> (64 - n)).getLsbD i = decide (i < n) := by
          intro i
          rw [BitVec.getLsbD_ushiftRight, BitVec.getLsbD_allOnes, decide_eq_decide]; omega
        have hf : Fits (BitVec.allOnes 64 >>> (64 - n)) n := by
          refine ⟨by omega, ?_⟩
          apply Nat.lt_pow_two_of_testBit
          intro i hi
          rw [BitVec.testBit_toNat, hx]; simp; omega
        have := appendBits_inv s l h _ n hf
        rwa [lowBits_ones n (by omega) _ (fun i hi => by rw [hx]; simp [hi])] at this
      · rw [if_neg h0]
        simp at h0; subst h0
        exact ⟨s, rfl, by simpa using h⟩

theorem oneExtend_inv (s : Builder) (l : List Bool) (h : Inv s l) (n : Nat) :
    ∃ s', oneExtend s n = some s' ∧ Inv s' (l ++ List.replicate n true) :=
  oneExtendLoop_inv n s l h n (by omega)

theorem appendLoop_spec (shift : Nat) (h0 : 0 < shift) (h64 : shift < 64) (rest ws : List Word) (c : Nat)
    (hc : c + rest.length < ws.length)
    (hz : ∀ p, 64*c + shift ≤ p → p < 64*(c+1) → wbit ws p = false) :
    ∃ ws', appendLoop shift rest ws c = some (ws', c + rest.length) ∧ ws'.length = ws.length ∧
      ∀ p, wbit ws' p = if p < 64*c + shift then wbit ws p
        else if p / 64 ≤ c + rest.length then wbit rest (p - (64*c+shift)) else wbit ws p := by
  induction rest generalizing ws c with
  | nil =>
    refine ⟨ws, rfl, rfl, ?_⟩
    intro p
    split
    · rfl
    · split
      · rename_i h1 h2
        simp only [List.length_nil] at h2
        rw [wbit_nil]; exact hz p (by omega) (by omega)
      · rfl
  | cons w rest ih =>
    simp only [List.length_cons] at hc ⊢
    unfold appendLoop
    rw [shl_eq _ _ h64, shr_eq _ _ (by omega)]
    simp only [Option.bind_eq_bind, Option.bind_some]
    rw [orCur_eq _ _ _ (by omega)]
    simp only [Option.bind_some]
    rw [wr_eq _ _ _ (by simp; omega)]
    simp only [Option.bind_some]
    have hw : ∀ p, wbit ((ws.set c (ws[c] ||| w <<< shift)).set (c+1) (w >>> (64 - shift))) p =
        if p / 64 = c + 1 then w.getLsbD (64 - shift + p % 64)
        else if p / 64 = c then (wbit ws p || (decide (shift ≤ p % 64) && w.getLsbD (p % 64 - shift))) else wbit ws p := by
      intro p
      rw [wbit_set _ _ _ (by simp; omega), wbit_set _ _ _ (by omega), BitVec.getLsbD_ushiftRight, BitVec.getLsbD_or,
        BitVec.getLsbD_shiftLeft, getElem_getLsbD _ _ _ (by omega) (by omega)]
      have hpm : p % 64 < 64 := by omega
      by_cases h1 : p / 64 = c + 1
      · rw [if_pos h1, if_pos h1]
      · rw [if_neg h1, if_neg h1]
        by_cases h2 : p / 64 = c
        · rw [if_pos h2, if_pos h2, show 64*c + p % 64 = p by omega]
          by_cases h3 : shift ≤ p % 64
          · have : ¬ (p % 64 < shift) := by omega
            simp [h3, hpm, this]
          · have : p % 64 < shift := by omega
            simp [h3, this]
        · rw [if_neg h2, if_neg h2]
    obtain ⟨ws', e1, e2, e3⟩ := ih ((ws.set c (ws[c] ||| w <<< shift)).set (c+1) (w >>> (64 - shift))) (c+1)
      (by simp; omega) (by
        intro p h1 h2
        rw [hw, if_pos (by omega), BitVec.getLsbD_of_ge _ _ (by omega)])
    refine ⟨ws', ?_, ?_, ?_⟩
    · rw [e1]; congr 2; omega
    · simpa using e2
    · intro p
      rw [e3, hw, wbit_cons]
      by_cases h1 : p < 64*c + shift
      · rw [if_pos (by omega), if_neg (by omega), if_pos h1]
        by_cases h2 : p / 64 = c
        · have : ¬ (shift ≤ p % 64) := by omega
          rw [if_pos h2]; simp [this]
        · rw [if_neg h2]
      · rw [if_neg h1]
        by_cases h2 : p < 64*(c+1) + shift
        · rw [if_pos h2, if_pos (show p / 64 ≤ c + (rest.length + 1) by omega),
            if_pos (show p - (64*c+shift) < 64 by omega)]
          by_cases h3 : p / 64 = c + 1
          · rw [if_pos h3]; congr 1; omega
          · have h4 : p / 64 = c := by omega
            have h5 : shift ≤ p % 64 := by omega
            rw [if_neg h3, if_pos h4, hz p (by omega) (by omega)]
            simp only [h5, decide_true, Bool.true_and, Bool.false_or]
            congr 1; omega
        · rw [if_neg h2]
          by_cases h3 : p / 64 ≤ c + 1 + rest.length
          · rw [if_pos h3, if_pos (by omega), if_neg (by omega)]
            congr 1; omega
          · rw [if_neg h3, if_neg (by omega), if_neg (by omega), if_neg (by omega)]

theorem append_inv (s t : Builder) (l m : List Bool) (h : Inv s l) (ht : Inv t m) :
    ∃ s', append s t = some s' ∧ Inv s' (l ++ m) := by
  have hl := h.len
  have hb := h.repr.bit
  have htl := ht.len
  have htb := ht.repr.bit
  unfold append
  by_cases h0 : m.length = 0
  · rw [if_pos (by rw [ht.size, h0])]
    refine ⟨_, rfl, ?_⟩
    have : m = [] := List.length_eq_zero_iff.mp h0
    subst this
    simpa using h
  rw [if_neg (by rw [ht.size]; exact h0), h.size, ht.size]
  simp only []
  rw [subU_eq (wordsFor (l.length + m.length)) s.bits.length (by rw [hl, wordsFor_eq]; omega)]
  simp only [Option.bind_eq_bind, Option.bind_some]
  by_cases h1 : l.length % 64 = 0
  · rw [if_pos h1]
    rw [assertP_eq _ (by simp [wordsFor_eq]; omega)]
    simp only [Option.bind_some]
    have e1 : (s.bits ++ List.replicate (wordsFor (l.length + m.length) - s.bits.length) (0:Word)).take s.bits.length = s.bits := by simp
    have e2 : (s.bits ++ List.replicate (wordsFor (l.length + m.length) - s.bits.length) (0:Word)).drop (s.bits.length + t.bits.length) = [] := by
      apply List.drop_eq_nil_of_le
      simp [wordsFor_eq]; omega
    rw [e1, e2, List.append_nil, back_eq _ (by simp; omega)]
    simp only [Option.bind_some]
    refine ⟨_, rfl, ?_, ?_, ?_⟩
    · simp
    · constructor
      · simp [wordsFor_eq]; omega
      · intro p
        rw [wbit_append, bitFn_append, hb, htb]
        by_cases h2 : p < l.length
        · rw [if_pos h2, if_pos (by omega)]
        · rw [if_neg h2, if_neg (by omega)]; congr 1; omega
    · intro _; simp
  · rw [if_neg h1, subU_eq _ _ (by omega), subU_eq _ _ (by omega)]
    simp only [Option.bind_some]
    obtain ⟨last, hlast⟩ : ∃ x, t.bits.getLast? = some x := by
      cases hq : t.bits.getLast? with
      | none => rw [List.getLast?_eq_none_iff] at hq; rw [hq] at htl; simp at htl; omega
      | some x => exact ⟨x, rfl⟩
    have hsplit : t.bits = t.bits.dropLast ++ [last] := by
      have hne : t.bits ≠ [] := by intro hq; rw [hq] at hlast; simp at hlast
      rw [List.getLast?_eq_some_getLast hne] at hlast
      have := List.dropLast_concat_getLast hne
      simp only [Option.some.injEq] at hlast
      rw [hlast] at this; exact this.symm
    have hdl : t.bits.dropLast.length = t.bits.length - 1 := by simp
    have hg : ∀ p, wbit (s.bits ++ List.replicate (wordsFor (l.length + m.length) - s.bits.length) (0:Word)) p = bitFn l p := by
      intro p
      rw [wbit_append, hb, wbit_replicate_zero]
      split
      · rfl
      · rw [bitFn_of_ge]; omega
    obtain ⟨ws, e1, e2, e3⟩ := appendLoop_spec (l.length % 64) (by omega) (by omega) t.bits.dropLast
      (s.bits ++ List.replicate (wordsFor (l.length + m.length) - s.bits.length) (0:Word)) (s.bits.length - 1)
      (by simp [wordsFor_eq]; omega)
      (by intro p h2 h3; rw [hg, bitFn_of_ge]; omega)
    rw [e1, hlast]
    simp only [Option.bind_some]
    have hwl : ws.length = wordsFor (l.length + m.length) := by rw [e2]; simp [wordsFor_eq]; omega
    have hwl' := hwl
    rw [wordsFor_eq] at hwl'
    rw [shl_eq _ _ (by omega)]
    simp only [Option.bind_some]
    rw [orCur_eq _ _ _ (by omega)]
    simp only [Option.bind_some]
    rw [back_eq _ (by simp; omega)]
    simp only [Option.bind_some, List.length_set]
    have hm : ∀ q, bitFn m q = if q/64 < t.bits.length - 1 then wbit t.bits.dropLast q else last.getLsbD (q - 64*(t.bits.length-1)) := by
      intro q
      rw [← htb]
      conv_lhs => rw [hsplit]
      rw [wbit_append, wbit_singleton, hdl]
    have hfin : ∀ p, (l.length + m.length) ≤ p → bitFn (l ++ m) p = false := by
      intro p hp; rw [bitFn_of_ge]; simp; omega
    -- bits of the word at `c` and below, after or-ing the last word
    have key : ∀ p, p / 64 ≤ s.bits.length - 1 + t.bits.dropLast.length →
        wbit (ws.set (s.bits.length - 1 + t.bits.dropLast.length)
          (ws[s.bits.length - 1 + t.bits.dropLast.length]'(by omega) ||| last <<< (l.length % 64))) p = bitFn (l ++ m) p := by
      intro p hp
      rw [wbit_set _ _ _ (by omega), BitVec.getLsbD_or, getElem_getLsbD _ _ _ (by omega) (by omega), e3, hg, BitVec.getLsbD_shiftLeft,
        e3, hg, bitFn_append, hm]
      have hpm : p % 64 < 64 := by omega
      by_cases h2 : p / 64 = s.bits.length - 1 + t.bits.dropLast.length
      · rw [if_pos h2, show 64 * (s.bits.length - 1 + t.bits.dropLast.length) + p % 64 = p by omega]
        by_cases h3 : p < l.length
        · have : p % 64 < l.length % 64 := by omega
          rw [if_pos h3, if_pos (by omega)]; simp [this]
        · rw [if_neg h3, if_neg (by omega), if_pos (by omega)]
          by_cases h4 : (p - l.length)/64 < t.bits.length - 1
          · have : p % 64 < l.length % 64 := by omega
            rw [if_pos h4]
            simp only [this, decide_true, Bool.not_true, Bool.and_false, Bool.false_and, Bool.or_false]
            congr 1; omega
          · have e5 : ¬ (p % 64 < l.length % 64) := by omega
            rw [if_neg h4, wbit_of_ge _ _ (by omega)]
            simp only [hpm, e5, decide_true, decide_false, Bool.not_false, Bool.true_and, Bool.false_or]
            congr 1; omega
      · rw [if_neg h2]
        by_cases h3 : p < l.length
        · rw [if_pos h3, if_pos (by omega)]
        · rw [if_neg h3, if_neg (by omega), if_pos hp, if_pos (by omega)]; congr 1; omega
    by_cases h5 : s.bits.length - 1 + t.bits.dropLast.length < ws.length - 1
    · rw [if_pos h5, shr_eq _ _ (by omega)]
      simp only [Option.bind_some]
      rw [wr_eq _ _ _ (by simp; omega)]
      simp only [Option.bind_some]
      refine ⟨_, rfl, ?_, ?_, ?_⟩
      · simp
      · constructor
        · simpa using hwl
        · intro p
          rw [wbit_set _ _ _ (by simp; omega)]
          by_cases h6 : p / 64 = s.bits.length - 1 + t.bits.dropLast.length + 1
          · rw [if_pos h6, BitVec.getLsbD_ushiftRight, bitFn_append, if_neg (by omega), hm, if_neg (by omega)]
            congr 1; omega
          · rw [if_neg h6]
            by_cases h7 : p / 64 ≤ s.bits.length - 1 + t.bits.dropLast.length
            · exact key p h7
            · rw [wbit_of_ge _ _ (by simp; omega), hfin _ (by omega)]
      · intro _; simp
    · rw [if_neg h5]
      refine ⟨_, rfl, ?_, ?_, ?_⟩
      · simp
      · constructor
        · simpa using hwl
        · intro p
          by_cases h7 : p / 64 ≤ s.bits.length - 1 + t.bits.dropLast.length
          · exact key p h7
          · rw [wbit_of_ge _ _ (by simp; omega), hfin _ (by omega)]
      · intro _; simp

theorem reverseLoop_spec (shift : Nat) (h0 : 0 < shift) (h64 : shift < 64) (ws : List Word) (rem : Word)
    (hr : ∀ i, shift ≤ i → rem.getLsbD i = false) :
    ∃ ws' r, reverseLoop shift ws rem = some (ws', r) ∧ ws'.length = ws.length ∧
      (∀ i t, i < ws.length → t < 64 → wbit ws' (64*i+t) =
        if 64*i + 63 - t < shift then rem.getLsbD (64*i+63-t) else wbit ws (64*i+63-t-shift)) ∧
      (∀ t, t < 64 → r.getLsbD t = if 64*ws.length + t < shift then rem.getLsbD (64*ws.length+t) else
        wbit ws (64*ws.length + t - shift)) := by
  induction ws generalizing rem with
  | nil =>
    refine ⟨[], rem, rfl, rfl, by simp, ?_⟩
    intro t _
    simp only [List.length_nil, Nat.mul_zero, Nat.zero_add, wbit_nil]
    split
    · rfl
    · exact hr t (by omega)
  | cons w ws ih =>
    unfold reverseLoop
    rw [if_pos (by omega), shl_eq _ _ h64, shr_eq _ _ (by omega)]
    simp only [Option.bind_eq_bind, Option.bind_some]
    obtain ⟨ws', r, e1, e2, e3, e4⟩ := ih (w >>> (64 - shift)) (by
      intro i hi; rw [BitVec.getLsbD_ushiftRight, BitVec.getLsbD_of_ge _ _ (by omega)])
    rw [e1]
    refine ⟨_, _, rfl, by simp [e2], ?_, ?_⟩
    · intro i t hi ht
      rw [wbit_cons, wbit_cons]
      cases i with
      | zero =>
        rw [if_pos (by omega), Nat.mul_zero, Nat.zero_add, Nat.zero_add, reverseBits_bit _ _ ht, BitVec.getLsbD_or, BitVec.getLsbD_shiftLeft]
        by_cases h1 : 63 - t < shift
        · rw [if_pos h1]; simp [h1]
        · have : 63 - t < 64 := by omega
          rw [if_neg h1, hr _ (by omega), if_pos (by omega)]; simp [h1, this]
      | succ i =>
        simp only [List.length_cons] at hi
        rw [if_neg (by omega), show 64*(i+1)+t-64 = 64*i+t by omega, e3 i t (by omega) ht, BitVec.getLsbD_ushiftRight]
        rw [if_neg (show ¬ (64*(i+1)+63-t < shift) by omega)]
        by_cases h1 : 64*i+63-t < shift
        · rw [if_pos h1, if_pos (by omega)]; congr 1; omega
        · rw [if_neg h1, if_neg (by omega)]; congr 1; omega
    · intro t ht
      rw [e4 t ht, BitVec.getLsbD_ushiftRight, wbit_cons, List.length_cons, if_neg (show ¬ (64*(ws.length+1)+t < shift) by omega)]
      by_cases h1 : 64*ws.length+t < shift
      · rw [if_pos h1, if_pos (by omega)]; congr 1; omega
      · rw [if_neg h1, if_neg (by omega)]; congr 1; omega

theorem reverseLoop_spec64 (ws : List Word) (rem : Word) :
    ∃ ws', reverseLoop 64 ws rem = some (ws', rem) ∧ ws'.length = ws.length ∧
      (∀ i t, i < ws.length → t < 64 → wbit ws' (64*i+t) = wbit ws (64*i+63-t)) := by
  induction ws with
  | nil => exact ⟨[], rfl, rfl, by simp⟩
  | cons w ws ih =>
    unfold reverseLoop
    rw [if_neg (by simp)]
    obtain ⟨ws', e1, e2, e3⟩ := ih
    rw [e1]
    refine ⟨_, rfl, by simp [e2], ?_⟩
    intro i t hi ht
    rw [wbit_cons, wbit_cons]
    cases i with
    | zero =>
      rw [if_pos (by omega), Nat.mul_zero, Nat.zero_add, Nat.zero_add, reverseBits_bit _ _ ht, if_pos (by omega)]
    | succ i =>
      simp only [List.length_cons] at hi
      rw [if_neg (by omega), show 64*(i+1)+t-64 = 64*i+t by omega, e3 i t (by omega) ht, if_neg (by omega)]
      congr 1; omega

theorem wbit_reverse (ws : List Word) (p : Nat) (h : p/64 < ws.length) :
    wbit ws.reverse p = wbit ws (64*(ws.length-1-p/64) + p % 64) := by
  unfold wbit
  rw [List.getD_eq_getElem?_getD, List.getD_eq_getElem?_getD, List.getElem?_reverse h,
    show (64*(ws.length-1-p/64) + p % 64)/64 = ws.length-1-p/64 by omega,
    show (64*(ws.length-1-p/64) + p % 64)%64 = p % 64 by omega]

theorem reverse_inv (s : Builder) (l : List Bool) (h : Inv s l) :
    ∃ s', reverse s = some s' ∧ Inv s' l.reverse := by
  have hl := h.len
  have hb := h.repr.bit
  unfold reverse
  simp only []
  rw [h.size]
  by_cases h0 : l.length % 64 = 0
  · rw [h0]
    obtain ⟨ws', e1, e2, e3⟩ := reverseLoop_spec64 s.bits 0
    rw [show 64 - 0 = 64 from rfl, e1]
    simp only [Option.bind_eq_bind, Option.bind_some]
    rw [assertP_eq _ trivial]
    refine ⟨_, rfl, ?_, ?_, ?_⟩
    · simpa using h.size
    · constructor
      · simp only [List.length_reverse]; rw [e2]; exact h.repr.len
      · intro p
        rw [bitFn_reverse]
        by_cases hp : p < l.length
        · rw [wbit_reverse _ _ (by omega), e3 _ _ (by omega) (by omega), hb]
          simp only [hp, decide_true, Bool.true_and]
          congr 1; omega
        · rw [wbit_of_ge _ _ (by simp; omega)]; simp [hp]
    · intro hc; simp at hc; omega
  · obtain ⟨ws', r, e1, e2, e3, e4⟩ := reverseLoop_spec (64 - l.length % 64) (by omega) (by omega) s.bits 0 (by simp)
    rw [e1]
    simp only [Option.bind_eq_bind, Option.bind_some]
    rw [assertP_eq _ (by
      apply BitVec.eq_of_getLsbD_eq
      intro t ht
      rw [e4 t ht, hb]
      split
      · simp
      · rw [bitFn_of_ge _ _ (by omega)]; simp)]
    refine ⟨_, rfl, ?_, ?_, ?_⟩
    · simpa using h.size
    · constructor
      · simp only [List.length_reverse]; rw [e2]; exact h.repr.len
      · intro p
        rw [bitFn_reverse]
        by_cases hp : p < l.length
        · rw [wbit_reverse _ _ (by omega), e3 _ _ (by omega) (by omega), hb, if_neg (by omega)]
          simp only [hp, decide_true, Bool.true_and]
          congr 1; omega
        · by_cases hp2 : p / 64 < ws'.length
          · rw [wbit_reverse _ _ hp2, e3 _ _ (by omega) (by omega), hb, if_pos (by omega)]; simp [hp]
          · rw [wbit_of_ge _ _ (by simp; omega)]; simp [hp]
    · intro hc
      simp only [List.length_reverse] at hc ⊢
      rw [e2]; exact h.cur hc

end Builder
end Succinct
