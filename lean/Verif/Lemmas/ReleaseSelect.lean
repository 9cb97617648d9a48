import Verif.Lemmas.Select
import Verif.Model.ReleaseRank

/-! `select_in_word` without its assertion: asked for a one that is not there, it shifts by 64 or reads outside its table, as long as the rank is below `2^56`. -/
namespace Succinct
namespace Broadword

theorem kdigit128 : ∀ k : Fin 128, (k.val ||| 128) = k.val + 128 := by decide +kernel
private theorem and128' : ∀ k : Fin 256, k.val &&& 128 = if 128 ≤ k.val then 128 else 0 := by decide +kernel
theorem geqdigit128 (k : Fin 128) (s : Fin 65) :
    ((k.val ||| 128) - s.val) &&& 128 = if s.val ≤ k.val then 128 else 0 := by
  have := and128' ⟨(k.val + 128) - s.val, by omega⟩
  simp only [] at this
  rw [kdigit128, this]
  have := s.isLt
  split <;> split <;> omega

/-- `geqKStep8_toNat` for every rank below 128 -/
theorem geqKStep8_toNat128 (x : Word) (k : Nat) (hk : k < 128) :
    (geqKStep8 x k).toNat =
      pack 8 ((List.range 8).map fun i => if cnt x.getLsbD (8*(i+1)) ≤ k then 128 else 0) := by
  unfold geqKStep8
  have S : ∀ i, i < 8 → cnt x.getLsbD (8*(i+1)) ≤ 64 := fun i hi => by
    have := cnt_le x.getLsbD (8*(i+1)); omega
  have h1 : onesStep8.toNat = pack 8 ((List.range 8).map fun _ => 1) := by decide
  have h2 : msbsStep8.toNat = pack 8 ((List.range 8).map fun _ => 128) := by decide
  have h3 : (BitVec.ofNat 64 k * onesStep8).toNat = pack 8 ((List.range 8).map fun _ => k) := by
    rw [BitVec.toNat_mul, BitVec.toNat_ofNat, h1, Nat.mod_eq_of_lt (a := k) (by omega)]
    have e := pack_replicate 8 k 8
    rw [List.map_const', List.map_const', List.length_range, ← e, Nat.mod_eq_of_lt]
    have := pack_lt 8 (List.replicate 8 k) (by intro d hd; rw [List.eq_of_mem_replicate hd]; omega)
    simpa using this
  have h4 : ((BitVec.ofNat 64 k * onesStep8) ||| msbsStep8).toNat =
      pack 8 ((List.range 8).map fun _ => k ||| 128) := by
    rw [BitVec.toNat_or, h3, h2, pack_lor_range 8 8 _ _ (fun _ _ => by omega) (fun _ _ => by omega)]
  have hsub := pack_sub_range 8 8 (fun _ => k ||| 128) (fun i => cnt x.getLsbD (8*(i+1))) (fun i hi => by
    have := S i hi; have := kdigit128 ⟨k, hk⟩; simp only [] at this; omega)
  rw [BitVec.toNat_and, BitVec.toNat_sub_of_le, h4, byteSums_toNat, hsub.2, h2, pack_land_range]
  · apply pack_congr_range
    intro i hi
    exact geqdigit128 ⟨k, hk⟩ ⟨_, Nat.lt_succ_of_le (S i hi)⟩
  · intro i hi; have := kdigit128 ⟨k, hk⟩; simp only [] at this ⊢; omega
  · intro i hi; simp
  · rw [BitVec.le_def, h4, byteSums_toNat]; exact hsub.1

/-- all bytes are passed -/
theorem selectPlace_out (x : Word) (k : Nat) (hk : k < 128) (h : cnt x.getLsbD 64 ≤ k) : selectPlace x k = 64 := by
  have hall : geqKStep8 x k = msbsStep8 := by
    apply BitVec.eq_of_toNat_eq
    rw [geqKStep8_toNat128 x k hk]
    have : ∀ i ∈ List.range 8, (if cnt x.getLsbD (8*(i+1)) ≤ k then 128 else 0) = 128 := by
      intro i hi
      rw [List.mem_range] at hi
      rw [if_pos]
      have := cnt_mono x.getLsbD (show 8*(i+1) ≤ 64 by omega)
      omega
    rw [List.map_congr_left this]
    decide
  unfold selectPlace
  rw [hall]
  decide

theorem selectPlace_mod (x : Word) (k : Nat) : (selectPlace x k).toNat % 8 = 0 := by
  unfold selectPlace
  generalize ((((geqKStep8 x k) >>> 7) * onesStep8) >>> 53) = y
  rw [BitVec.toNat_and, show (8 : Nat) = 2^3 from rfl, Nat.and_mod_two_pow, show (~~~(0x7#64)).toNat % 2^3 = 0 by decide, Nat.and_zero]

theorem table_length : selectInByteTable.length = 2048 := by decide +kernel

end Broadword

namespace Release
open Broadword

theorem selectInWord_out (x : Word) (k : Nat) (hk : k < 2^56) (h : popcount x ≤ k) : selectInWord x k = none := by
  rw [popcount_eq] at h
  unfold selectInWord selectFinish
  by_cases h1 : k < 128
  · rw [selectPlace_out x k h1 h]
    generalize byteSums x <<< 8 = y
    rfl
  · have hm := selectPlace_mod x k
    generalize selectPlace x k = place at *
    by_cases h2 : place.toNat < 64
    · obtain ⟨m, hm'⟩ : ∃ m, place.toNat = 8 * m := ⟨place.toNat / 8, by omega⟩
      rw [hm']
      have hs := rank_before x m (by omega)
      have hc := cnt_le x.getLsbD (8*m)
      generalize byteSums x <<< 8 = y at *
      unfold shr
      simp only [show 8 * m < 64 by omega, if_true, Option.bind_eq_bind, Option.bind_some]
      have hr : (BitVec.ofNat 64 k - (y >>> (8*m) &&& 0xFF#64)).toNat = k - cnt x.getLsbD (8*m) := by
        rw [BitVec.toNat_sub_of_le, hs, BitVec.toNat_ofNat, Nat.mod_eq_of_lt (by omega)]
        rw [BitVec.le_def, hs, BitVec.toNat_ofNat, Nat.mod_eq_of_lt (by omega)]; omega
      generalize BitVec.ofNat 64 k - (y >>> (8*m) &&& 0xFF#64) = r at *
      have hidx : 2048 ≤ ((x >>> (8 * m) &&& 0xFF#64) ||| r <<< 8).toNat := by
        rw [BitVec.toNat_or]
        refine Nat.le_trans ?_ Nat.right_le_or
        rw [BitVec.toNat_shiftLeft, Nat.shiftLeft_eq, hr, Nat.mod_eq_of_lt (by omega)]
        omega
      generalize ((x >>> (8 * m) &&& 0xFF#64) ||| r <<< 8).toNat = j at *
      rw [List.getElem?_eq_none (by rw [table_length]; exact hidx)]
      rfl
    · generalize byteSums x <<< 8 = y
      unfold shr
      rw [if_neg h2]; rfl

end Release
end Succinct
