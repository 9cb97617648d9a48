import Verif.Model.ReleaseSeq
import Verif.Lemmas.Release

/-! `nibble_vector` without assertions. -/
namespace Succinct
namespace Release
open Machine (W at_)
open RSBitVector (bind_pure_some)

/-- the bytes the constructor stores -/
def nvBytes : List Word → List (BitVec 8)
  | [] => []
  | [a] => [a.setWidth 8]
  | a :: b :: t => (a.setWidth 8 ||| (b <<< 4).setWidth 8) :: nvBytes t

theorem nvStep_two (s : Word) (nb : List (BitVec 8)) (a b : Word) :
    nvStep (nvStep ⟨s, nb, false, 0⟩ a) b = ⟨s + 1 + 1, nb ++ [a.setWidth 8 ||| (b <<< 4).setWidth 8], false, 0⟩ := by
  simp [nvStep]

theorem nvStep_one (s : Word) (nb : List (BitVec 8)) (a : Word) : nvStep ⟨s, nb, false, 0⟩ a = ⟨s + 1, nb, true, a.setWidth 8⟩ := by
  simp [nvStep]

def nvClose (s : Machine.NibbleVector.St) : Machine.NibbleVector := if s.parity then ⟨s.size, s.nibbles ++ [s.cur]⟩ else ⟨s.size, s.nibbles⟩

theorem nvFold_eq : ∀ (v : List Word) (s : Word) (nb : List (BitVec 8)),
    nvClose (v.foldl nvStep ⟨s, nb, false, 0⟩) = ⟨s + W v.length, nb ++ nvBytes v⟩
  | [], s, nb => by simp [nvClose, nvBytes]
  | [a], s, nb => by
    rw [List.foldl_cons, nvStep_one]
    simp [nvClose, nvBytes]
  | a :: b :: t, s, nb => by
    rw [List.foldl_cons, List.foldl_cons, nvStep_two, nvFold_eq t]
    have : s + 1 + 1 + W t.length = s + W (t.length + 1 + 1) := by
      rw [Machine.W_add, Machine.W_add, show (W 1 : Word) = 1 from rfl, BitVec.add_assoc, BitVec.add_assoc, BitVec.add_comm (W t.length), BitVec.add_assoc]
      rw [BitVec.add_comm (W t.length)]
    rw [this]
    simp [nvBytes]

theorem nvBuild_eq (v : List Word) : nvBuild v = ⟨W v.length, nvBytes v⟩ := by
  show nvClose (v.foldl nvStep ⟨0, [], false, 0⟩) = _
  rw [nvFold_eq]; simp

theorem nv_low (x : BitVec 8) : ((x >>> 0) &&& 0x0F).toNat = x.toNat % 16 := by
  revert x; decide +kernel

theorem nv_high (x : BitVec 8) : ((x >>> 4) &&& 0x0F).toNat = x.toNat / 16 := by
  revert x; decide +kernel

theorem nv_pair (a b : Word) : ((a.setWidth 8 ||| (b <<< 4).setWidth 8) >>> 0 &&& 0x0F).toNat = a.toNat % 16 ∧
    ((a.setWidth 8 ||| (b <<< 4).setWidth 8) >>> 4 &&& 0x0F).toNat = (a.toNat / 16 % 16 ||| b.toNat % 16) := by
  constructor
  · rw [nv_low, show 16 = 2^4 from rfl]
    apply Nat.eq_of_testBit_eq
    intro i
    rw [Nat.testBit_mod_two_pow, Nat.testBit_mod_two_pow, BitVec.testBit_toNat]
    by_cases h : i < 4
    · simp [h, BitVec.getLsbD_or, BitVec.getLsbD_setWidth, BitVec.getLsbD_shiftLeft, show i < 8 by omega, BitVec.testBit_toNat]
    · simp [h]
  · rw [nv_high, show 16 = 2^4 from rfl]
    apply Nat.eq_of_testBit_eq
    intro i
    rw [Nat.testBit_div_two_pow, Nat.testBit_or, Nat.testBit_mod_two_pow, Nat.testBit_mod_two_pow, Nat.testBit_div_two_pow, BitVec.testBit_toNat,
      BitVec.testBit_toNat, BitVec.testBit_toNat]
    by_cases h : i < 4
    · simp [h, BitVec.getLsbD_or, BitVec.getLsbD_setWidth, BitVec.getLsbD_shiftLeft, show i + 4 < 8 by omega, show i + 4 < 64 by omega]
    · simp [h, BitVec.getLsbD_or, BitVec.getLsbD_setWidth, show ¬ i + 4 < 8 by omega]

end Release
end Succinct
