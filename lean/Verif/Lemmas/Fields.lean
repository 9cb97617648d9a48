import Verif.Model.Broadword
import Verif.Lemmas.Pack

/-! Parallel comparison of fields. -/
namespace Succinct
namespace Broadword

/-- `i`-th `w`-bit field -/
def fld (w i x : Nat) : Nat := x / 2^(w*i) % 2^w

theorem fld_lt (w i x : Nat) : fld w i x < 2^w := Nat.mod_lt _ (Nat.two_pow_pos w)

theorem fld_and (w i x y : Nat) : fld w i (x &&& y) = fld w i x &&& fld w i y := by
  unfold fld; rw [Nat.and_div_two_pow, Nat.and_mod_two_pow]
theorem fld_or (w i x y : Nat) : fld w i (x ||| y) = fld w i x ||| fld w i y := by
  unfold fld; rw [Nat.or_div_two_pow, Nat.or_mod_two_pow]
theorem fld_xor (w i x y : Nat) : fld w i (x ^^^ y) = fld w i x ^^^ fld w i y := by
  unfold fld; rw [Nat.xor_div_two_pow, Nat.xor_mod_two_pow]

theorem fld_testBit (w i x t : Nat) (ht : t < w) : (fld w i x).testBit t = x.testBit (w*i+t) := by
  unfold fld
  rw [Nat.testBit_mod_two_pow, Nat.testBit_div_two_pow]
  simp [ht, Nat.add_comm]

theorem pack_fld (w n x : Nat) : pack w ((List.range n).map fun i => fld w i x) = x % 2^(w*n) := by
  rw [← pack_digitsOf]
  congr 1
  apply List.ext_getElem?
  intro i
  by_cases hi : i < n
  · rw [getElem?_digitsOf w n x i hi]; simp [hi, fld]
  · rw [List.getElem?_eq_none (by simp; omega), List.getElem?_eq_none (by simp; omega)]

theorem fld_pack (w n : Nat) (f : Nat → Nat) (hf : ∀ i, i < n → f i < 2^w) (i : Nat) (hi : i < n) :
    fld w i (pack w ((List.range n).map f)) = f i := pack_digit_range w n f hf i hi

theorem fld_mod (w n i x : Nat) (hi : i < n) : fld w i (x % 2^(w*n)) = fld w i x := by
  rw [← pack_fld, fld_pack w n _ (fun i _ => fld_lt w i x) i hi]

/-- fields of a 64-bit difference when no field borrows -/
theorem fld_sub (w n : Nat) (A B : Word) (hn : w*n ≤ 64)
    (h : ∀ i, i < n → fld w i B.toNat ≤ fld w i A.toNat) (i : Nat) (hi : i < n) :
    fld w i (A - B).toNat = fld w i A.toNat - fld w i B.toNat := by
  have hs := pack_sub_range w n (fun i => fld w i A.toNat) (fun i => fld w i B.toNat) h
  rw [pack_fld, pack_fld] at hs
  have key : (A - B).toNat % 2^(w*n) = A.toNat % 2^(w*n) - B.toNat % 2^(w*n) := by
    rw [BitVec.toNat_sub]
    obtain ⟨c, hc⟩ : (2^(w*n)) ∣ 2^64 := Nat.pow_dvd_pow 2 hn
    have hA := A.isLt
    have hB := B.isLt
    rw [Nat.mod_mod_of_dvd _ ⟨c, hc⟩]
    have e1 := Nat.mod_add_div A.toNat (2^(w*n))
    have e2 := Nat.mod_add_div B.toNat (2^(w*n))
    have l1 := Nat.mod_lt A.toNat (Nat.two_pow_pos (w*n))
    generalize A.toNat % 2^(w*n) = a at *
    generalize B.toNat % 2^(w*n) = b at *
    generalize A.toNat / 2^(w*n) = a' at *
    generalize B.toNat / 2^(w*n) = b' at *
    have hb' : b' ≤ c := by
      rcases Nat.lt_or_ge c b' with h1 | h1
      · have := Nat.mul_le_mul_left (2^(w*n)) (Nat.le_of_lt h1)
        omega
      · exact h1
    have e3 : 2^64 - B.toNat + A.toNat = (a - b) + 2^(w*n) * (c - b' + a') := by
      rw [Nat.mul_add, Nat.mul_sub]
      have := Nat.mul_le_mul_left (2^(w*n)) hb'
      omega
    rw [e3, Nat.add_mul_mod_self_left, Nat.mod_eq_of_lt]
    omega
  rw [← fld_mod w n i _ hi, key, hs.2, fld_pack w n _ (fun i _ => ?_) i hi]
  have := fld_lt w i A.toNat
  omega

/-- masking with the top bits of all fields and shifting them down -/
theorem top_bits (w n : Nat) (hw : 0 < w) (z H i : Nat)
    (hH : H = pack w ((List.range n).map fun _ => 2^(w-1))) (hi : i < n) :
    fld w i ((z &&& H) / 2^(w-1)) = (z.testBit (w*i+(w-1))).toNat := by
  have h2 : (2:Nat)^(w-1) < 2^w := Nat.pow_lt_pow_right (by omega) (by omega)
  have hlt : H < 2^(w*n) := by rw [hH]; exact pack_lt_range w n _ (fun _ _ => h2)
  have e1 : z &&& H = (z % 2^(w*n)) &&& H := by
    have : z &&& H < 2^(w*n) := Nat.and_lt_two_pow _ hlt
    rw [← Nat.mod_eq_of_lt this, Nat.and_mod_two_pow, Nat.mod_eq_of_lt hlt]
  have e2 : ∀ j, fld w j z &&& 2^(w-1) = (z.testBit (w*j+(w-1))).toNat * 2^(w-1) := by
    intro j
    rw [← fld_testBit _ _ _ _ (show w-1 < w by omega)]
    apply Nat.eq_of_testBit_eq
    intro t
    rw [Nat.testBit_and, Nat.testBit_two_pow]
    by_cases ht : w - 1 = t
    · subst ht
      cases (fld w j z).testBit (w-1) <;> simp
    · cases (fld w j z).testBit (w-1) <;> simp [ht]
  rw [e1, hH, ← pack_fld, pack_land_range w n _ _ (fun j _ => fld_lt w j z) (fun _ _ => h2)]
  rw [pack_congr_range w n _ _ (fun j _ => e2 j), pack_div_range w n _ (Nat.two_pow_pos _)]
  · rw [fld_pack w n _ _ i hi]
    · rw [Nat.mul_div_cancel _ (Nat.two_pow_pos _)]
    · intro j _
      rw [Nat.mul_div_cancel _ (Nat.two_pow_pos _)]
      have := Bool.toNat_lt (z.testBit (w*j+(w-1)))
      have : (2:Nat)^1 ≤ 2^w := Nat.pow_le_pow_right (by omega) (by omega)
      omega
  · intro j _; exact Nat.dvd_mul_left _ _

theorem toNat_field (w i : Nat) (x : Word) : (x.extractLsb' (w*i) w).toNat = fld w i x.toNat := by
  rw [BitVec.extractLsb'_toNat, Nat.shiftRight_eq_div_pow]; rfl

theorem testBit_top (w a : Nat) (hw : 0 < w) (h : a < 2^w) : a.testBit (w-1) = decide (2^(w-1) ≤ a) := by
  have e : 2^w = 2 * 2^(w-1) := by
    rw [← Nat.pow_succ']; congr 1; omega
  rcases Nat.lt_or_ge a (2^(w-1)) with h1 | h1
  · rw [Nat.testBit_lt_two_pow h1]; simp; omega
  · rw [Nat.testBit_of_two_pow_le_and_two_pow_add_one_gt h1 (by rw [Nat.sub_add_cancel hw]; exact h)]
    simp [h1]

theorem or_top (w b : Nat) (hw : 0 < w) (hb : b < 2^w) : b ||| 2^(w-1) = 2^(w-1) + b % 2^(w-1) := by
  have e : 2^w = 2 * 2^(w-1) := by
    rw [← Nat.pow_succ']; congr 1; omega
  have hm := Nat.mod_lt b (Nat.two_pow_pos (w-1))
  apply Nat.eq_of_testBit_eq
  intro t
  have e2 := Nat.testBit_two_pow_mul_add 1 hm t
  rw [Nat.mul_one] at e2
  rw [Nat.testBit_or, Nat.testBit_two_pow, e2]
  split
  · rename_i h
    rw [Nat.testBit_mod_two_pow]
    simp [h]; omega
  · rename_i h
    rcases Nat.lt_or_ge (w-1) t with h1 | h1
    · have : b < 2^t := Nat.lt_of_lt_of_le hb (Nat.pow_le_pow_right (by omega) (by omega))
      rw [Nat.testBit_lt_two_pow this, Nat.testBit_lt_two_pow (x := 1)]
      · simp; omega
      · have : (2:Nat)^1 ≤ 2^(t-(w-1)) := Nat.pow_le_pow_right (by omega) (by omega)
        omega
    · have : t = w - 1 := by omega
      subst this; simp

/-- the common core of the comparisons: top bit of `(b | P) - (a & ~P)` -/
theorem cmp_core (w a b : Nat) (hw : 0 < w) (hb : b < 2^w) :
    (a &&& (2^(w-1) - 1)) ≤ (b ||| 2^(w-1)) ∧
    ((b ||| 2^(w-1)) - (a &&& (2^(w-1) - 1))).testBit (w-1) = decide (a % 2^(w-1) ≤ b % 2^(w-1)) := by
  have e : 2^w = 2 * 2^(w-1) := by
    rw [← Nat.pow_succ']; congr 1; omega
  have h1 := Nat.mod_lt a (Nat.two_pow_pos (w-1))
  have h2 := Nat.mod_lt b (Nat.two_pow_pos (w-1))
  rw [or_top w b hw hb, Nat.and_two_pow_sub_one_eq_mod]
  refine ⟨by omega, ?_⟩
  rw [testBit_top w _ hw (by omega)]
  congr 1
  apply propext
  omega

/-- the subtraction shared by the four comparisons, seen through the top bit of field `i` -/
theorem cmp_word (w n : Nat) (hw : 0 < w) (hn : w*n ≤ 64) (H : Word)
    (hH : ∀ i, i < n → fld w i H.toNat = 2^(w-1)) (hH' : ∀ i, i < n → fld w i (~~~H).toNat = 2^(w-1) - 1)
    (x y : Word) (i : Nat) (hi : i < n) :
    ((y ||| H) - (x &&& ~~~H)).toNat.testBit (w*i+(w-1))
      = decide (fld w i x.toNat % 2^(w-1) ≤ fld w i y.toNat % 2^(w-1)) := by
  have h1 := fun j (hj : j < n) => cmp_core w (fld w j x.toNat) (fld w j y.toNat) hw (fld_lt _ _ _)
  rw [← fld_testBit w i _ (w-1) (by omega), fld_sub w n _ _ hn _ i hi]
  · rw [BitVec.toNat_or, BitVec.toNat_and, fld_or, fld_and, hH i hi, hH' i hi]
    exact (h1 i hi).2
  · intro j hj
    rw [BitVec.toNat_or, BitVec.toNat_and, fld_or, fld_and, hH j hj, hH' j hj]
    exact (h1 j hj).1

theorem bool_ite (b : Bool) (p : Prop) [Decidable p] (h : b = true ↔ p) :
    b.toNat = if p then 1 else 0 := by
  by_cases hp : p
  · simp [h.mpr hp, hp]
  · cases hb : b
    · simp [hp]
    · exact absurd (h.mp hb) hp

private theorem hH8 : ∀ i : Fin 8, fld 8 i.val msbsStep8.toNat = 2^(8-1) ∧ fld 8 i.val (~~~msbsStep8).toNat = 2^(8-1) - 1 := by
  decide +kernel
private theorem hH9 : ∀ i : Fin 7, fld 9 i.val msbsStep9.toNat = 2^(9-1) ∧ fld 9 i.val (~~~msbsStep9).toNat = 2^(9-1) - 1 := by
  decide +kernel
private theorem hP8 : msbsStep8.toNat = pack 8 ((List.range 8).map fun _ => 2^(8-1)) := by decide
private theorem hP9 : msbsStep9.toNat = pack 9 ((List.range 7).map fun _ => 2^(9-1)) := by decide

theorem fld_top (w i x : Nat) (hw : 0 < w) : x.testBit (w*i+(w-1)) = decide (2^(w-1) ≤ fld w i x) := by
  rw [← fld_testBit w i x (w-1) (by omega), testBit_top w _ hw (fld_lt _ _ _)]

theorem not_testBit (x : Word) (i : Nat) (hi : i < 64) : (~~~x).toNat.testBit i = !(x.toNat.testBit i) := by
  rw [BitVec.testBit_toNat, BitVec.testBit_toNat, BitVec.getLsbD_not]; simp [hi]

theorem leqStep8_fld (x y : Word) (i : Nat) (hi : i < 8) :
    fld 8 i (leqStep8 x y).toNat =
      if (fld 8 i y.toNat + 256 - fld 8 i x.toNat) % 256 < 128 then 1 else 0 := by
  unfold leqStep8
  rw [BitVec.toNat_ushiftRight, Nat.shiftRight_eq_div_pow, BitVec.toNat_and,
    top_bits 8 8 (by omega) _ _ i hP8 hi, BitVec.toNat_xor, Nat.testBit_xor, BitVec.toNat_xor, Nat.testBit_xor,
    cmp_word 8 8 (by omega) (by omega) _ (fun i hi => (hH8 ⟨i, hi⟩).1) (fun i hi => (hH8 ⟨i, hi⟩).2) x y i hi,
    fld_top 8 i _ (by omega), fld_top 8 i _ (by omega)]
  have ha := fld_lt 8 i x.toNat
  have hb := fld_lt 8 i y.toNat
  apply bool_ite
  generalize fld 8 i x.toNat = a at *
  generalize fld 8 i y.toNat = b at *
  simp only [bne_iff_ne, ne_eq]
  by_cases h1 : 128 ≤ a <;> by_cases h2 : 128 ≤ b <;> by_cases h3 : a % 128 ≤ b % 128 <;> simp [h1, h2, h3] <;> omega

theorem uleqStep8_fld (x y : Word) (i : Nat) (hi : i < 8) :
    fld 8 i (uleqStep8 x y).toNat =
      if (fld 8 i x.toNat ≤ fld 8 i y.toNat ↔ ((fld 8 i x.toNat < 128 ↔ fld 8 i y.toNat < 128) ∨
        fld 8 i y.toNat % 128 < fld 8 i x.toNat % 128)) then 1 else 0 := by
  unfold uleqStep8
  rw [BitVec.toNat_ushiftRight, Nat.shiftRight_eq_div_pow, BitVec.toNat_and,
    top_bits 8 8 (by omega) _ _ i hP8 hi, BitVec.toNat_xor, Nat.testBit_xor, BitVec.toNat_xor, Nat.testBit_xor,
    BitVec.toNat_xor, Nat.testBit_xor, BitVec.toNat_and, Nat.testBit_and, not_testBit _ _ (by omega),
    cmp_word 8 8 (by omega) (by omega) _ (fun i hi => (hH8 ⟨i, hi⟩).1) (fun i hi => (hH8 ⟨i, hi⟩).2) x y i hi,
    fld_top 8 i _ (by omega), fld_top 8 i _ (by omega)]
  have ha := fld_lt 8 i x.toNat
  have hb := fld_lt 8 i y.toNat
  apply bool_ite
  generalize fld 8 i x.toNat = a at *
  generalize fld 8 i y.toNat = b at *
  by_cases h1 : 128 ≤ a <;> by_cases h2 : 128 ≤ b <;> by_cases h3 : a % 128 ≤ b % 128 <;> simp [h1, h2, h3] <;> omega

theorem uleqStep9_fld (x y : Word) (i : Nat) (hi : i < 7) :
    fld 9 i (uleqStep9 x y).toNat = if fld 9 i x.toNat ≤ fld 9 i y.toNat then 1 else 0 := by
  unfold uleqStep9
  rw [BitVec.toNat_ushiftRight, Nat.shiftRight_eq_div_pow, BitVec.toNat_and,
    top_bits 9 7 (by omega) _ _ i hP9 hi, BitVec.toNat_xor, Nat.testBit_xor, BitVec.toNat_or, Nat.testBit_or,
    BitVec.toNat_xor, Nat.testBit_xor, BitVec.toNat_and, Nat.testBit_and, not_testBit _ _ (by omega),
    cmp_word 9 7 (by omega) (by omega) _ (fun i hi => (hH9 ⟨i, hi⟩).1) (fun i hi => (hH9 ⟨i, hi⟩).2) x y i hi,
    fld_top 9 i _ (by omega), fld_top 9 i _ (by omega)]
  have ha := fld_lt 9 i x.toNat
  have hb := fld_lt 9 i y.toNat
  apply bool_ite
  generalize fld 9 i x.toNat = a at *
  generalize fld 9 i y.toNat = b at *
  by_cases h1 : 256 ≤ a <;> by_cases h2 : 256 ≤ b <;> by_cases h3 : a % 256 ≤ b % 256 <;> simp [h1, h2, h3] <;> omega

/-- bit 63 of the 9-bit comparison is 0 -/
theorem uleqStep9_lt (x y : Word) : (uleqStep9 x y).toNat < 2^55 := by
  unfold uleqStep9
  rw [BitVec.toNat_ushiftRight, Nat.shiftRight_eq_div_pow, BitVec.toNat_and]
  have : msbsStep9.toNat < 2^63 := by decide
  have := Nat.and_lt_two_pow (((y ||| msbsStep9) - (x &&& ~~~msbsStep9) ||| (x ^^^ y)) ^^^ (x &&& ~~~y)).toNat this
  omega

theorem zcompareStep8_fld (x : Word) (i : Nat) (hi : i < 8) :
    fld 8 i (zcompareStep8 x).toNat = if fld 8 i x.toNat ≠ 0 then 1 else 0 := by
  unfold zcompareStep8
  have h1 : ∀ j, j < 8 → fld 8 j onesStep8.toNat = 1 := by
    have : ∀ j : Fin 8, fld 8 j.val onesStep8.toNat = 1 := by decide +kernel
    exact fun j hj => this ⟨j, hj⟩
  have h2 : ∀ j, j < 8 → fld 8 j (x ||| msbsStep8).toNat = 128 + fld 8 j x.toNat % 128 := by
    intro j hj
    rw [BitVec.toNat_or, fld_or, (hH8 ⟨j, hj⟩).1, or_top 8 _ (by omega) (fld_lt _ _ _)]; rfl
  have h3 : fld 8 i ((x ||| msbsStep8) - onesStep8).toNat = 128 + fld 8 i x.toNat % 128 - 1 := by
    rw [fld_sub 8 8 _ _ (by omega) _ i hi, h1 i hi, h2 i hi]
    intro j hj; rw [h1 j hj, h2 j hj]; omega
  rw [BitVec.toNat_ushiftRight, Nat.shiftRight_eq_div_pow, BitVec.toNat_and,
    top_bits 8 8 (by omega) _ _ i hP8 hi, BitVec.toNat_or, Nat.testBit_or,
    fld_top 8 i _ (by omega), fld_top 8 i _ (by omega), h3]
  have ha := fld_lt 8 i x.toNat
  apply bool_ite
  generalize fld 8 i x.toNat = a at *
  simp only [Bool.or_eq_true, decide_eq_true_eq]
  omega

end Broadword
end Succinct
