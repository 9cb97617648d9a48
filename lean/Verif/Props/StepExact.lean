import Verif.Props.Broadword

/-! # C13: exactly when `leq_step_8` and `uleq_step_8` are right -/
namespace Succinct
open Broadword Spec

/-- C13, `leq_step_8`: a field is the signed comparison of the bytes just if their difference fits in a signed byte. -/
theorem C13_leq_step_8_exact_partial (x y : Word) (i : Nat) (hi : i < 8) :
    (field 8 (leqStep8 x y) i = if (field 8 x i).toInt ≤ (field 8 y i).toInt then 1 else 0) ↔
      -128 ≤ (field 8 y i).toInt - (field 8 x i).toInt ∧ (field 8 y i).toInt - (field 8 x i).toInt < 128 := by
  constructor
  · intro h
    rw [(C13_leq_step_8_partial x y i hi).1] at h
    have h2 : (0 ≤ (field 8 y i - field 8 x i).toInt) ↔ (field 8 x i).toInt ≤ (field 8 y i).toInt := by
      by_cases a : 0 ≤ (field 8 y i - field 8 x i).toInt <;> by_cases b : (field 8 x i).toInt ≤ (field 8 y i).toInt <;> simp only [a, b, if_true, if_false] at h ⊢
      · exact absurd h (by decide)
      · exact absurd h (by decide)
    simp only [toInt8, BitVec.toNat_sub] at h2 ⊢
    have ha := (field 8 x i).isLt
    have hb := (field 8 y i).isLt
    generalize (field 8 x i).toNat = a at *
    generalize (field 8 y i).toNat = b at *
    by_cases h3 : a < 128 <;> by_cases h4 : b < 128 <;> by_cases h5 : (2^8 - a + b) % 2^8 < 128 <;> simp only [h3, h4, h5, if_true, if_false] at h2 ⊢ <;> omega
  · exact fun h => (C13_leq_step_8_partial x y i hi).2 h.1 h.2

/-- C13, `uleq_step_8`: a field is the unsigned comparison of the bytes just if their top bits agree or the low seven bits of the left byte exceed those of the right one. -/
theorem C13_uleq_step_8_exact_partial (x y : Word) (i : Nat) (hi : i < 8) :
    (field 8 (uleqStep8 x y) i = if field 8 x i ≤ field 8 y i then 1 else 0) ↔
      (field 8 x i).msb = (field 8 y i).msb ∨ (field 8 y i).toNat % 128 < (field 8 x i).toNat % 128 := by
  constructor
  · intro h
    have h := congrArg BitVec.toNat h
    rw [field, toNat_field, uleqStep8_fld x y i hi] at h
    simp only [BitVec.le_def, field, toNat_field] at h
    rw [BitVec.msb_eq_decide, BitVec.msb_eq_decide, decide_eq_decide, field, field, toNat_field, toNat_field]
    have ha := fld_lt 8 i x.toNat
    have hb := fld_lt 8 i y.toNat
    generalize fld 8 i x.toNat = a at *
    generalize fld 8 i y.toNat = b at *
    by_cases h1 : a ≤ b
    · rw [if_pos h1] at h
      by_cases h2 : a ≤ b ↔ ((a < 128 ↔ b < 128) ∨ b % 128 < a % 128)
      · have := h2.1 h1
        omega
      · rw [if_neg h2] at h
        exact absurd h (by decide)
    · rw [if_neg h1] at h
      by_cases h2 : a ≤ b ↔ ((a < 128 ↔ b < 128) ∨ b % 128 < a % 128)
      · rw [if_pos h2] at h
        exact absurd h (by decide)
      · omega
  · exact C13_uleq_step_8_partial x y i hi

/-- both sides of the first equivalence, and of the second, hold and fail -/
example : field 8 (leqStep8 0x80#64 0x00#64) 0 = 0 ∧ field 8 (leqStep8 0xC0#64 0x08#64) 0 = 1 ∧ field 8 (uleqStep8 0x80#64 0#64) 0 = 1 ∧
    field 8 (uleqStep8 0x83#64 0x01#64) 0 = 0 := by decide +kernel

end Succinct
