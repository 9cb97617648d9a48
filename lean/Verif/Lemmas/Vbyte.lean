import Verif.Model.Vbyte
import Verif.Lemmas.MsbLsb
import Verif.Lemmas.RSBitVector

namespace Succinct.Vbyte
open Broadword
open RSBitVector (bind_pure_some)

theorem vbyteSize_bounds (x : Word) : 1 ≤ vbyteSize x ∧ vbyteSize x ≤ 10 ∧ x.toNat < 2^(7 * vbyteSize x) ∧
    (vbyteSize x = 1 ∨ 2^(7 * (vbyteSize x - 1)) ≤ x.toNat) := by
  unfold vbyteSize ceilDiv
  cases h : msb x with
  | none =>
    have := (msb_none x).1 h
    subst this
    decide
  | some i =>
    obtain ⟨h1, h2⟩ := msb_lt_pow x i h
    have hi := ((msb_some x i).1 h).1
    simp only [Option.getD_some]
    refine ⟨by omega, by omega, Nat.lt_of_lt_of_le h2 (Nat.pow_le_pow_right (by omega) (by omega)), ?_⟩
    by_cases hk : (i + 1 + 7 - 1) / 7 = 1
    · exact Or.inl hk
    · right
      exact Nat.le_trans (Nat.pow_le_pow_right (by omega) (by omega)) h1

/-- the chunk pushed for `b` -/
def chunk (x : Word) (b : Nat) : BitVec 8 :=
  ((x >>> (b * 7)) &&& 0x7F).setWidth 8 ||| (if b ≠ 0 then 0x80 else 0)

/-- the chunks for `b` below the argument, highest first -/
def chunks (x : Word) : Nat → List (BitVec 8)
  | 0 => []
  | b + 1 => chunk x b :: chunks x b

theorem chunks_length (x : Word) (k : Nat) : (chunks x k).length = k := by
  induction k with
  | zero => rfl
  | succ k ih => simp [chunks, ih]

theorem appendLoop_eq (x : Word) (k : Nat) (hk : k ≤ 10) (v : List (BitVec 8)) : appendLoop x k v = some (v ++ chunks x k) := by
  induction k generalizing v with
  | zero => simp [appendLoop, chunks]
  | succ b ih =>
    rw [appendLoop, shr, if_pos (by omega), bind_pure_some, ih (by omega)]
    simp [chunks, chunk]

theorem byte_split : ∀ (c : BitVec 8) (t : Bool), c.getLsbD 7 = false →
    ((c ||| (if t then (0x80 : BitVec 8) else 0)) &&& (0x80 : BitVec 8) ≠ 0 ↔ t = true) ∧ (c ||| (if t then (0x80 : BitVec 8) else 0)) &&& (0x7F : BitVec 8) = c := by
  decide +kernel

theorem mask7 (i : Nat) : (0x7F#64).getLsbD i = decide (i < 7) := by
  by_cases h : i < 64
  · have : ∀ i : Fin 64, (0x7F#64).getLsbD i.val = decide (i.val < 7) := by decide
    exact this ⟨i, h⟩
  · rw [BitVec.getLsbD_of_ge _ _ (by omega)]; simp; omega

theorem step_eq (x : Word) (b : Nat) :
    ((x >>> ((b + 1) * 7)) <<< 7 ||| (chunk x b &&& 0x7F).setWidth 64 = x >>> (b * 7)) ∧ (chunk x b &&& 0x80 ≠ 0 ↔ b ≠ 0) := by
  have hc : ((((x >>> (b * 7)) &&& 0x7F).setWidth 8 : BitVec 8)).getLsbD 7 = false := by
    rw [BitVec.getLsbD_setWidth, BitVec.getLsbD_and]
    have := mask7 7
    simp at this ⊢
  have := byte_split _ (decide (b ≠ 0)) hc
  simp only [decide_eq_true_eq] at this
  refine ⟨?_, by unfold chunk; exact this.1⟩
  unfold chunk
  rw [this.2]
  apply BitVec.eq_of_getLsbD_eq
  intro i hi
  have hm := mask7 i
  have e : x >>> ((b+1) * 7) = (x >>> (b * 7)) >>> 7 := by
    rw [← BitVec.shiftRight_add]; congr 1; omega
  rw [e]
  simp only [BitVec.getLsbD_or, BitVec.getLsbD_shiftLeft, BitVec.getLsbD_ushiftRight, BitVec.getLsbD_setWidth, BitVec.getLsbD_and]
  rw [show ((127 : Word)) = 0x7F#64 from rfl, hm]
  by_cases h7 : i < 7
  · have h8 : i < 8 := by omega
    simp [h7, hi, h8]
  · have e2 : b * 7 + (7 + (i - 7)) = b * 7 + i := by omega
    simp [h7, hi, e2]

theorem decodeLoop_chunks (x : Word) (b : Nat) (pre post : List (BitVec 8)) (fuel : Nat) (hf : b + 1 ≤ fuel) :
    decodeLoop (pre ++ chunks x (b+1) ++ post) fuel pre.length (x >>> ((b + 1) * 7)) = some (x, pre.length + (b + 1)) := by
  induction b generalizing pre fuel with
  | zero =>
    obtain ⟨f, rfl⟩ : ∃ f, fuel = f + 1 := ⟨fuel - 1, by omega⟩
    rw [decodeLoop]
    have hr : rd (pre ++ chunks x (0+1) ++ post) pre.length = some (chunk x 0) := by simp [rd, chunks]
    rw [hr, bind_pure_some]
    obtain ⟨h1, h2⟩ := step_eq x 0
    simp only []
    rw [h1, if_neg (by rw [h2]; simp)]
    simp
  | succ b ih =>
    obtain ⟨f, rfl⟩ : ∃ f, fuel = f + 1 := ⟨fuel - 1, by omega⟩
    rw [decodeLoop]
    have hr : rd (pre ++ chunks x (b+1+1) ++ post) pre.length = some (chunk x (b+1)) := by simp [rd, chunks]
    rw [hr, bind_pure_some]
    obtain ⟨h1, h2⟩ := step_eq x (b+1)
    simp only []
    rw [h1, if_pos (by rw [h2]; omega)]
    have := ih (pre ++ [chunk x (b+1)]) f (by omega)
    rw [List.length_append, List.length_singleton] at this
    have e : pre ++ chunks x (b+1+1) ++ post = pre ++ [chunk x (b+1)] ++ chunks x (b+1) ++ post := by simp [chunks]
    rw [e, this]
    congr 2; omega

theorem shiftRight_size (x : Word) : x >>> (vbyteSize x * 7) = 0 := by
  apply BitVec.eq_of_toNat_eq
  rw [BitVec.toNat_ushiftRight, Nat.shiftRight_eq_div_pow, Nat.div_eq_of_lt]
  · rfl
  · rw [Nat.mul_comm]; exact (vbyteSize_bounds x).2.2.1

/-- the code of `x` -/
def code (x : Word) : List (BitVec 8) := chunks x (vbyteSize x)

theorem append_eq (v : List (BitVec 8)) (x : Word) : append v x = some (v ++ code x, vbyteSize x) := by
  unfold append
  simp only []
  rw [appendLoop_eq x _ (vbyteSize_bounds x).2.1, bind_pure_some]; rfl

theorem decode_eq (pre post : List (BitVec 8)) (x : Word) : decode (pre ++ code x ++ post) pre.length = some (x, vbyteSize x) := by
  unfold decode
  obtain ⟨k, hk⟩ : ∃ k, vbyteSize x = k + 1 := ⟨vbyteSize x - 1, by have := (vbyteSize_bounds x).1; omega⟩
  have hz := shiftRight_size x
  rw [hk] at hz
  have := decodeLoop_chunks x k pre post ((pre ++ code x ++ post).length - pre.length) (by
    simp only [List.length_append, code, chunks_length]; omega)
  rw [hz, ← hk] at this
  unfold code at this ⊢
  rw [this, bind_pure_some]
  simp

end Succinct.Vbyte
