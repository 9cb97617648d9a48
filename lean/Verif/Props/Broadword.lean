import Verif.Lemmas.Select
import Verif.Lemmas.Fields
import Verif.Lemmas.MsbLsb
import Verif.Lemmas.SpecBits

/-! # Properties C09–C13: `broadword.hpp` -/
namespace Succinct
open Broadword Spec

/-! ## C09 -/

/-- C09: `popcount` (default, non-POPCNT code path) is the number of set bits of every word, equals
the POPCNT instruction, and `byte_counts` holds the per-byte counts. -/
theorem C09_popcount (x : Word) :
    popcount x = (wordBits x).count true ∧ popcount x = popcountIntrinsic x ∧
    ∀ i, i < 8 → (field 8 (byteCounts x) i).toNat = (((wordBits x).drop (8*i)).take 8).count true := by
  refine ⟨?_, ?_, ?_⟩
  · rw [popcount_eq, count_eq_cnt, bitFn_wordBits, wordBits_length]
  · rw [popcount_eq, popcountIntrinsic_eq]
  · intro i hi
    rw [field, toNat_field, byteCounts_toNat', fld_pack 8 8 _ (fun j _ => ?_) i hi, count_take_eq_cnt,
      bitFn_drop, bitFn_wordBits]
    have := cnt_le (fun t => x.getLsbD (8*j+t)) 8
    omega

example : popcount 0xF00000000000000F#64 = 8 ∧ (wordBits 0xF00000000000000F#64).count true = 8 := by
  decide +kernel

/-! ## C10 -/

/-- C10: `select_in_word(x, k)` is the position of the `k`-th set bit whenever `k < popcount(x)`,
on both code paths; in particular the table is never read out of bounds. -/
theorem C10_select_in_word (x : Word) (k : Nat) (hk : k < (wordBits x).count true) :
    ∃ p, selectInWord x k = some p ∧ selectInWordPopcnt x k = some p ∧ IsSelect1 (wordBits x) k p := by
  rw [count_eq_cnt, bitFn_wordBits, wordBits_length] at hk
  obtain ⟨e, h1, h2, h3, h4⟩ := selectInWord_spec x k hk
  obtain ⟨e', h1', h2', h3', h4'⟩ := selectInWordPopcnt_spec x k hk
  have : e = e' := sel_unique h3 h3' (by rw [h4, h4'])
  subst this
  exact ⟨e, h1, h1', by rw [isSelect1_iff, bitFn_wordBits]; exact ⟨h3, h4⟩⟩

/-- C10 (converse): outside the precondition the assertion fires. -/
theorem C10_select_in_word_pre (x : Word) (k : Nat) (hk : ¬ k < (wordBits x).count true) :
    selectInWord x k = none := by
  rw [count_eq_cnt, bitFn_wordBits, wordBits_length] at hk
  unfold selectInWord assertP
  rw [popcount_eq, if_neg hk]; rfl

/-- **C10.** The POPCNT configuration computes the same function, violated preconditions included. -/
theorem C10_select_in_word_config : selectInWordPopcnt = selectInWord := by
  funext x k
  by_cases hk : k < (wordBits x).count true
  · obtain ⟨p, h1, h2, _⟩ := C10_select_in_word x k hk
    rw [h1, h2]
  · rw [C10_select_in_word_pre x k hk]
    rw [count_eq_cnt, bitFn_wordBits, wordBits_length] at hk
    unfold selectInWordPopcnt assertP
    rw [popcountIntrinsic_eq, if_neg hk]; rfl

example : selectInWord 0x8000000000000101#64 2 = some 63 ∧
    2 < (wordBits 0x8000000000000101#64).count true := by decide +kernel

/-! ## C11 -/

/-- C11: the two-argument `msb`: flag false exactly for 0, otherwise the index of the top set bit;
the portable de Bruijn code never fails its assertion and agrees with the intrinsic. -/
theorem C11_msb (x : Word) :
    (msb x = none ↔ x = 0) ∧ (∀ i, msb x = some i ↔ IsMsb x i) ∧ msbPortable x = some (msb x) ∧
    (x ≠ 0 → ∃ i, msb1 x = some i ∧ IsMsb x i) := by
  have hiff : ∀ i, msb x = some i ↔ IsMsb x i := by
    intro i
    rw [msb_some]
    constructor
    · rintro ⟨h1, h2, h3⟩
      refine ⟨h1, h2, fun j hj => ?_⟩
      rcases Nat.lt_or_ge j 64 with h4 | h4
      · exact h3 j hj h4
      · exact BitVec.getLsbD_of_ge _ _ h4
    · rintro ⟨h1, h2, h3⟩; exact ⟨h1, h2, fun j hj _ => h3 j hj⟩
  refine ⟨msb_none x, hiff, msbPortable_eq x, fun h => ?_⟩
  obtain ⟨i, hi⟩ := msb_exists x h
  refine ⟨i, ?_, (hiff i).mp hi⟩
  unfold msb1 assertP
  rw [if_pos h]; exact hi

/-- C11: the same for `lsb`. -/
theorem C11_lsb (x : Word) :
    (lsb x = none ↔ x = 0) ∧ (∀ i, lsb x = some i ↔ IsLsb x i) ∧ lsbPortable x = some (lsb x) ∧
    (x ≠ 0 → ∃ i, lsb1 x = some i ∧ IsLsb x i) := by
  refine ⟨lsb_none x, lsb_some x, lsbPortable_eq x, fun h => ?_⟩
  obtain ⟨i, hi⟩ := lsb_exists x h
  refine ⟨i, ?_, (lsb_some x i).mp hi⟩
  unfold lsb1 assertP
  rw [if_pos h]; exact hi

example : msb 0x0000A00000000500#64 = some 47 ∧ lsb 0x0000A00000000500#64 = some 8 ∧
    msbPortable 0x0000A00000000500#64 = some (some 47) := by decide +kernel

/-! ## C12 -/

/-- C12: `reverse_bits` mirrors the bits of every word, on both code paths, and is an involution. -/
theorem C12_reverse_bits (x : Word) :
    wordBits (reverseBits x) = (wordBits x).reverse ∧ reverseBitsPortable x = reverseBits x ∧
    reverseBits (reverseBits x) = x := by
  refine ⟨?_, ?_, ?_⟩
  · apply List.ext_getElem (by simp)
    intro i h1 h2
    simp only [wordBits_length] at h1
    rw [List.getElem_reverse]
    simp only [wordBits, List.getElem_map, List.getElem_range, List.length_map, List.length_range]
    exact reverseBits_bit x i h1
  · unfold reverseBits reverseBitsPortable; rw [reverseBytes_eq_portable]
  · apply BitVec.eq_of_getLsbD_eq
    intro i hi
    rw [reverseBits_bit _ i hi, reverseBits_bit _ _ (by omega)]
    congr 1; omega

/-- C12: `reverse_bytes` mirrors the bytes of every word, on both code paths, and is an
involution. -/
theorem C12_reverse_bytes (x : Word) :
    (∀ i, i < 8 → field 8 (reverseBytes x) i = field 8 x (7 - i)) ∧
    reverseBytesPortable x = reverseBytes x ∧ reverseBytes (reverseBytes x) = x := by
  refine ⟨?_, (reverseBytes_eq_portable x).symm, ?_⟩
  · intro i hi
    apply BitVec.eq_of_getLsbD_eq
    intro t ht
    unfold field reverseBytes
    rw [BitVec.getLsbD_extractLsb', BitVec.getLsbD_extractLsb', byteswap64_bit _ _ (by omega)]
    congr 2; omega
  · apply BitVec.eq_of_getLsbD_eq
    intro i hi
    unfold reverseBytes
    rw [byteswap64_bit _ i hi, byteswap64_bit _ _ (by omega)]
    congr 1; omega

example : reverseBits 0x1#64 = 0x8000000000000000#64 ∧
    reverseBytes 0x0102030405060708#64 = 0x0807060504030201#64 := by decide +kernel

/-! ## C13 -/

/-- C13: `uleq_step_9` compares all seven 9-bit fields (bit 63 is ignored). -/
theorem C13_uleq_step_9 (x y : Word) (i : Nat) (hi : i < 7) :
    field 9 (uleqStep9 x y) i = if field 9 x i ≤ field 9 y i then 1 else 0 := by
  apply BitVec.eq_of_toNat_eq
  rw [field, toNat_field, uleqStep9_fld x y i hi]
  simp only [BitVec.le_def, field, toNat_field]
  split <;> rfl

/-- C13: `zcompare_step_8` tests each byte for being non-zero. -/
theorem C13_zcompare_step_8 (x : Word) (i : Nat) (hi : i < 8) :
    field 8 (zcompareStep8 x) i = if field 8 x i ≠ 0 then 1 else 0 := by
  apply BitVec.eq_of_toNat_eq
  rw [field, toNat_field, zcompareStep8_fld x i hi]
  have : field 8 x i ≠ 0 ↔ fld 8 i x.toNat ≠ 0 := by
    rw [← toNat_field, ne_eq, ne_eq, not_iff_not]
    constructor
    · intro h; unfold field at h; rw [h]; rfl
    · intro h; apply BitVec.eq_of_toNat_eq; exact h
  simp only [this]
  split <;> rfl

/-- C13: `same_msb` decides equality of the highest set bit. -/
theorem C13_same_msb (x y : Word) :
    sameMsb x y = true ↔ (x = 0 ∧ y = 0) ∨ ∃ i, IsMsb x i ∧ IsMsb y i := by
  rw [sameMsb_iff]
  constructor
  · intro h
    cases hx : msb x with
    | none => exact .inl ⟨(msb_none x).mp hx, (msb_none y).mp (by rw [← h, hx])⟩
    | some i => exact .inr ⟨i, ((C11_msb x).2.1 i).mp hx, ((C11_msb y).2.1 i).mp (by rw [← h, hx])⟩
  · rintro (⟨rfl, rfl⟩ | ⟨i, h1, h2⟩)
    · rfl
    · rw [((C11_msb x).2.1 i).mpr h1, ((C11_msb y).2.1 i).mpr h2]

theorem toInt8 (a : BitVec 8) : a.toInt = if a.toNat < 128 then (a.toNat : Int) else a.toNat - 256 := by
  rw [BitVec.toInt_eq_toNat_cond]; simp; split <;> split <;> omega

/-- C13, `leq_step_8`.  The English claim (signed comparison of all bytes) is **false** of the code
for bytes whose difference does not fit in a signed byte, see `C13_leq_step_8_false`.  Proved: each
field of the result is 1 exactly when the 8-bit difference `y - x` is non-negative; hence the
comparison is exact whenever the true difference fits in a signed byte. -/
theorem C13_leq_step_8_partial (x y : Word) (i : Nat) (hi : i < 8) :
    field 8 (leqStep8 x y) i = (if 0 ≤ (field 8 y i - field 8 x i).toInt then 1 else 0) ∧
    (-128 ≤ (field 8 y i).toInt - (field 8 x i).toInt → (field 8 y i).toInt - (field 8 x i).toInt < 128 →
      field 8 (leqStep8 x y) i = if (field 8 x i).toInt ≤ (field 8 y i).toInt then 1 else 0) := by
  have key : field 8 (leqStep8 x y) i = if 0 ≤ (field 8 y i - field 8 x i).toInt then 1 else 0 := by
    apply BitVec.eq_of_toNat_eq
    rw [field, toNat_field, leqStep8_fld x y i hi, toInt8, BitVec.toNat_sub, field, field, toNat_field,
      toNat_field]
    have ha := fld_lt 8 i x.toNat
    have hb := fld_lt 8 i y.toNat
    generalize fld 8 i x.toNat = a at *
    generalize fld 8 i y.toNat = b at *
    have e : (2^8 - a + b) % 2^8 = (b + 256 - a) % 256 := by omega
    rw [e]
    by_cases h : (b + 256 - a) % 256 < 128
    · simp only [h, if_true]
      rw [if_pos (by omega)]; rfl
    · simp only [h, if_false]
      rw [if_neg (by omega)]; rfl
  refine ⟨key, fun h1 h2 => ?_⟩
  rw [key]
  congr 1
  simp only [toInt8, BitVec.toNat_sub] at h1 h2 ⊢
  have ha := (field 8 x i).isLt
  have hb := (field 8 y i).isLt
  apply propext
  repeat' split
  all_goals (repeat' split at h1)
  all_goals (repeat' split at h2)
  all_goals omega

/-- C13: `leq_step_8` is not the signed byte comparison: `-128 ≤ 0` is answered with 0. -/
theorem C13_leq_step_8_false :
    ¬ ∀ (x y : Word) (i : Nat), i < 8 →
      field 8 (leqStep8 x y) i = if (field 8 x i).toInt ≤ (field 8 y i).toInt then 1 else 0 := by
  intro h
  have := h 0x80#64 0 0 (by omega)
  revert this
  decide +kernel

/-- C13, `uleq_step_8`.  The English claim (unsigned comparison) is **false** of the code, see
`C13_uleq_step_8_false`.  Proved: the comparison is exact if the top bits of the two bytes agree, or
the low seven bits of the left byte exceed those of the right byte. -/
theorem C13_uleq_step_8_partial (x y : Word) (i : Nat) (hi : i < 8)
    (h : (field 8 x i).msb = (field 8 y i).msb ∨
      (field 8 y i).toNat % 128 < (field 8 x i).toNat % 128) :
    field 8 (uleqStep8 x y) i = if field 8 x i ≤ field 8 y i then 1 else 0 := by
  apply BitVec.eq_of_toNat_eq
  rw [field, toNat_field, uleqStep8_fld x y i hi]
  simp only [BitVec.le_def, field, toNat_field]
  rw [BitVec.msb_eq_decide, BitVec.msb_eq_decide, decide_eq_decide, field, field, toNat_field,
    toNat_field] at h
  have ha := fld_lt 8 i x.toNat
  have hb := fld_lt 8 i y.toNat
  generalize fld 8 i x.toNat = a at *
  generalize fld 8 i y.toNat = b at *
  by_cases h1 : a ≤ b
  · rw [if_pos h1, if_pos (by simp only [h1, true_iff]; omega)]; rfl
  · rw [if_neg h1, if_neg (by simp only [h1, false_iff]; omega)]; rfl

/-- C13: `uleq_step_8` is not the unsigned byte comparison: `128 ≤ 0` is answered with 1. -/
theorem C13_uleq_step_8_false :
    ¬ ∀ (x y : Word) (i : Nat), i < 8 →
      field 8 (uleqStep8 x y) i = if field 8 x i ≤ field 8 y i then 1 else 0 := by
  intro h
  have := h 0x80#64 0 0 (by omega)
  revert this
  decide +kernel

/-- the hypotheses of the partial theorems are met by the values the library compares -/
example : -128 ≤ (field 8 0x08#64 0).toInt - (field 8 0xC0#64 0).toInt ∧
    (field 8 0x08#64 0).toInt - (field 8 0xC0#64 0).toInt < 128 ∧
    field 8 (leqStep8 0xC0#64 0x08#64) 0 = 1 ∧ (field 8 0x3#64 0).msb = (field 8 0x5#64 0).msb ∧
    field 8 (uleqStep8 0x3#64 0x5#64) 0 = 1 := by decide +kernel

end Succinct
