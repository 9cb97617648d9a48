import Verif.Model.RSBitVector
import Verif.Lemmas.BitVector
import Verif.Lemmas.Fields
import Verif.Lemmas.Select

/-! The 9-bit subranks of a block of `rs_bit_vector`. -/
namespace Succinct
namespace RSBitVector
open Broadword

private theorem ones9 : onesStep9.toNat = pack 9 (List.replicate 7 1) := by decide +kernel

theorem par_fld (m : Nat) (hm : m < 512) (i : Nat) (hi : i < 7) :
    fld 9 i (BitVec.ofNat 64 m * onesStep9).toNat = m := by
  have h1 : (BitVec.ofNat 64 m * onesStep9).toNat = pack 9 ((List.range 7).map fun _ => m) := by
    have e : (List.range 7).map (fun _ => m) = List.replicate 7 m := rfl
    have lt := pack_lt_range 9 7 (fun _ => m) (fun _ _ => hm)
    rw [e] at lt
    rw [BitVec.toNat_mul, BitVec.toNat_ofNat, Nat.mod_eq_of_lt (a := m) (by omega), ones9, ← pack_replicate, e,
      Nat.mod_eq_of_lt (by omega)]
  rw [h1, fld_pack 9 7 _ (fun _ _ => hm) i hi]

theorem cnt_rev7 (p : Nat → Bool) : cnt (fun i => p (7 - i)) 7 = cnt (fun j => p (j+1)) 7 := by
  simp only [cnt_succ, cnt_zero, Nat.zero_add, Nat.reduceAdd, Nat.reduceSub, Nat.sub_zero]; omega

theorem and7 (x : Nat) : x &&& 7 = x % 8 := Nat.and_two_pow_sub_one_eq_mod x 3
theorem and511 (x : Nat) : x &&& 511 = x % 512 := Nat.and_two_pow_sub_one_eq_mod x 9

theorem subBlockOffset_cnt (S : Word) (m : Nat) (hm : m < 512) :
    subBlockOffset S m = cnt (fun i => decide (fld 9 i S.toNat ≤ m)) 7 := by
  unfold subBlockOffset
  generalize hu : uleqStep9 S (BitVec.ofNat 64 m * onesStep9) = u
  have hul : u.toNat < 2^55 := hu ▸ uleqStep9_lt _ _
  have hf : ∀ i, i < 7 → fld 9 i u.toNat = (decide (fld 9 i S.toNat ≤ m)).toNat := by
    intro i hi
    rw [← hu, uleqStep9_fld _ _ _ hi, par_fld m hm i hi]
    by_cases h : fld 9 i S.toNat ≤ m <;> simp [h]
  have hup : u.toNat = pack 9 ((List.range 7).map fun i => (decide (fld 9 i S.toNat ≤ m)).toNat) := by
    rw [← pack_congr_range 9 7 _ _ hf, pack_fld, Nat.mod_eq_of_lt (by omega)]
  have hle : ∀ i, cnt (fun i => decide (fld 9 i S.toNat ≤ m)) i ≤ i := fun i => cnt_le _ i
  have hmul := mul_ones 9 7 (fun i => (decide (fld 9 i S.toNat ≤ m)).toNat)
    (fun i => cnt (fun i => decide (fld 9 i S.toNat ≤ m)) i) (by simp) (fun i _ => cnt_succ _ _)
    (fun i hi => by have := hle (i+1); omega)
  rw [← hup, ← ones9] at hmul
  have hd := pack_digit_range 9 7 (fun i => cnt (fun i => decide (fld 9 i S.toNat ≤ m)) (i+1))
    (fun i hi => by have := hle (i+1); omega) 6 (by omega)
  rw [← hmul] at hd
  rw [BitVec.toNat_and, BitVec.toNat_ushiftRight, BitVec.toNat_mul, Nat.shiftRight_eq_div_pow]
  rw [show (7#64).toNat = 7 from rfl, and7]
  have := hle 7
  generalize u.toNat * onesStep9.toNat = X at *
  generalize cnt (fun i => decide (fld 9 i S.toNat ≤ m)) 7 = Y at *
  simp only [Nat.reduceMul, Nat.reducePow, Nat.reduceAdd] at *
  omega

/-- the 9-bit subranks locate the word of a block -/
theorem subBlockOffset_spec (S : Word) (m : Nat) (hm : m < 512) (c : Nat → Nat) (h0 : c 0 = 0)
    (hmono : ∀ i j, i ≤ j → c i ≤ c j) (hS : ∀ i, i < 7 → fld 9 i S.toNat = c (7-i)) (h8 : m < c 8) :
    subBlockOffset S m < 8 ∧ c (subBlockOffset S m) ≤ m ∧ m < c (subBlockOffset S m + 1) := by
  have e : subBlockOffset S m = cnt (fun j => decide (c (j+1) ≤ m)) 7 := by
    rw [subBlockOffset_cnt S m hm, ← cnt_rev7 (fun j => decide (c j ≤ m))]
    apply cnt_congr
    intro i hi
    rw [hS i hi]
  have ht := cnt_threshold (c := fun j => decide (c (j+1) ≤ m)) (n := 7) (by
    intro i j hij _ hj
    have := hmono (i+1) (j+1) (by omega)
    simp only [decide_eq_true_eq] at *; omega)
  have hle := cnt_le (fun j => decide (c (j+1) ≤ m)) 7
  rw [← e] at ht hle
  generalize subBlockOffset S m = o at *
  refine ⟨by omega, ?_, ?_⟩
  · cases o with
    | zero => omega
    | succ o => have := (ht o (by omega)).2 (by omega); simpa using this
  · rcases Nat.lt_or_ge o 7 with h | h
    · have := (ht o h).not.2 (by omega); simpa using this
    · have : o = 7 := by omega
      subst this; exact h8

/-- reading one 9-bit subrank -/
theorem sub_read (S : Word) (o : Nat) (ho : o < 8) (c : Nat → Nat) (h0 : c 0 = 0) (hlt : S.toNat < 2^63)
    (hS : ∀ i, i < 7 → fld 9 i S.toNat = c (7-i)) :
    shr S ((7 - o) * 9) = some (S >>> ((7-o)*9)) ∧ (S >>> ((7-o)*9) &&& 0x1FF#64).toNat = c o := by
  refine ⟨shr_eq _ _ (by omega), ?_⟩
  rw [BitVec.toNat_and, BitVec.toNat_ushiftRight, Nat.shiftRight_eq_div_pow, show (0x1FF#64).toNat = 511 from rfl,
    and511]
  by_cases h : o = 0
  · subst h; rw [h0]; simp only [Nat.sub_zero, Nat.reduceMul]; rw [Nat.div_eq_of_lt hlt]
  · have := hS (7-o) (by omega)
    rw [show 7 - (7-o) = o by omega] at this
    unfold fld at this
    rw [Nat.mul_comm, ← this]; simp only [Nat.reducePow]

/-- the subranks of the zeros -/
theorem sub0_fld (S : Word) (c : Nat → Nat) (hlt : S.toNat < 2^63) (hc : ∀ j, c j ≤ 64*j)
    (hS : ∀ i, i < 7 → fld 9 i S.toNat = c (7-i)) :
    (64#64 * invCountStep9 - S).toNat < 2^63 ∧
      ∀ i, i < 7 → fld 9 i (64#64 * invCountStep9 - S).toNat = 64*(7-i) - c (7-i) := by
  have hi : ∀ i : Fin 7, fld 9 i.val (64#64 * invCountStep9).toNat = 64*(7-i.val) := by decide +kernel
  have hle : ∀ i, i < 7 → fld 9 i S.toNat ≤ fld 9 i (64#64 * invCountStep9).toNat := by
    intro i h
    rw [hS i h, hi ⟨i, h⟩]; exact hc _
  constructor
  · have hs := pack_sub_range 9 7 (fun i => fld 9 i (64#64 * invCountStep9).toNat) (fun i => fld 9 i S.toNat) hle
    rw [pack_fld, pack_fld, Nat.mod_eq_of_lt (a := S.toNat) (by omega)] at hs
    have h1 : (64#64 * invCountStep9).toNat < 2^63 := by decide +kernel
    rw [Nat.mod_eq_of_lt (by omega)] at hs
    rw [BitVec.toNat_sub_of_le (by rw [BitVec.le_def]; exact hs.1)]
    omega
  · intro i h
    rw [fld_sub 9 7 _ _ (by omega) hle i h, hS i h, hi ⟨i, h⟩]

end RSBitVector
end Succinct
