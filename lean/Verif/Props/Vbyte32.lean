import Verif.Model.Vbyte32
import Verif.Props.VbyteAny
import Verif.Props.Contract

/-! # C122: `vbyte`, `nibble_vector` and `topk` where `size_t` has 32 bits -/
namespace Succinct
open Spec Broadword

namespace Vbyte

theorem vbyteSize32_eq (x : BitVec 32) : vbyteSize32 x = vbyteSize (x.setWidth 64) := rfl

theorem vbyteSize32_le (x : BitVec 32) : vbyteSize (x.setWidth 64) ≤ 5 := by
  obtain ⟨h1, h2, h3⟩ := C44_size (x.setWidth 64)
  have hx : (x.setWidth 64).toNat = x.toNat := by
    rw [BitVec.toNat_setWidth, Nat.mod_eq_of_lt (by omega)]
  rw [hx] at h3
  by_contra hn
  have h4 := h3 (by omega)
  have : 128^5 ≤ 128^(vbyteSize (x.setWidth 64) - 1) := Nat.pow_le_pow_right (by decide) (by omega)
  have := x.isLt
  omega

theorem appendLoop32_eq (x : BitVec 32) (n : Nat) (hn : n ≤ 5) (v : List (BitVec 8)) :
    appendLoop32 x n v = appendLoop (x.setWidth 64) n v := by
  induction n generalizing v with
  | zero => rfl
  | succ b ih =>
    unfold appendLoop32 appendLoop
    rw [assertP_eq _ (by omega : b * 7 < 32), shr_eq _ _ (by omega : b * 7 < 64)]
    have : ((x >>> (b * 7)) &&& 0x7F).setWidth 8 = ((x.setWidth 64 >>> (b * 7)) &&& 0x7F).setWidth 8 := by
      apply BitVec.eq_of_toNat_eq
      simp only [BitVec.toNat_setWidth, BitVec.toNat_and, BitVec.toNat_ushiftRight]
      rw [Nat.mod_eq_of_lt (a := x.toNat) (by omega)]
      rfl
    simp only [Option.bind_eq_bind, Option.bind_some, this]
    exact ih (by omega) _

theorem append32_eq (v : List (BitVec 8)) (x : BitVec 32) : append32 v x = append v (x.setWidth 64) := by
  show (appendLoop32 x (vbyteSize (x.setWidth 64)) v).bind (fun w => some (w, vbyteSize (x.setWidth 64))) = _
  rw [appendLoop32_eq _ _ (vbyteSize32_le x)]
  rfl

theorem decodeLoop32_eq (v : List (BitVec 8)) (hv : v.length < 2^32) (fuel pos : Nat) (val : Word) :
    decodeLoop32 v fuel pos (val.setWidth 32) = (decodeLoop v fuel pos val).map fun p => (p.1.setWidth 32, p.2) := by
  induction fuel generalizing pos val with
  | zero => rfl
  | succ fuel ih =>
    unfold decodeLoop32 decodeLoop rd
    cases hp : v[pos]? with
    | none => rfl
    | some c =>
      have hlt := (List.getElem?_eq_some_iff.1 hp).1
      have hval : (val.setWidth 32 <<< 7 ||| (c &&& 0x7F).setWidth 32) = (val <<< 7 ||| (c &&& 0x7F).setWidth 64).setWidth 32 := by
        apply BitVec.eq_of_getLsbD_eq
        intro i hi
        simp only [BitVec.getLsbD_or, BitVec.getLsbD_shiftLeft, BitVec.getLsbD_setWidth, hi, decide_true, Bool.true_and]
        by_cases h7 : i < 7
        · simp [h7, show i < 64 by omega]
        · simp [h7, show i < 64 by omega, show i - 7 < 32 by omega]
      simp only [Option.bind_eq_bind, Option.bind_some, hval]
      rw [Nat.mod_eq_of_lt (by omega)]
      split
      · exact ih _ _
      · rfl

theorem decode_pos (v : List (BitVec 8)) (fuel pos : Nat) (val x : Word) (p : Nat)
    (h : decodeLoop v fuel pos val = some (x, p)) : pos ≤ p ∧ p ≤ v.length := by
  induction fuel generalizing pos val with
  | zero => cases h
  | succ fuel ih =>
    unfold decodeLoop rd at h
    cases hp : v[pos]? with
    | none => rw [hp] at h; cases h
    | some c =>
      rw [hp] at h
      have hlt := (List.getElem?_eq_some_iff.1 hp).1
      simp only [Option.bind_eq_bind, Option.bind_some] at h
      split at h
      · have := ih _ _ h; omega
      · simp only [Option.pure_def, Option.some.injEq, Prod.mk.injEq] at h; omega

theorem decode32_eq (v : List (BitVec 8)) (hv : v.length < 2^32) (off : Nat) :
    decode32 v off = (decode v off).map fun p => (p.1.setWidth 32, p.2) := by
  unfold decode32 decode
  have h := decodeLoop32_eq v hv (v.length - off) off 0
  rw [show (0 : Word).setWidth 32 = 0 from rfl] at h
  rw [h]
  cases hd : decodeLoop v (v.length - off) off 0 with
  | none => rfl
  | some r =>
    obtain ⟨x, p⟩ := r
    have := decode_pos _ _ _ _ _ _ hd
    simp only [Option.map_some, Option.bind_eq_bind, Option.bind_some, Option.pure_def]
    rw [show (p + 2^32 - off) % 2^32 = p - off by omega]

end Vbyte
open Vbyte

/-- **C122** (`vbyte`): where `size_t` has 32 bits, a number is written as the same bytes as where it has 64, and read back by
both -/
theorem C122_roundtrip (v : List (BitVec 8)) (x : BitVec 32) :
    ∃ code, append32 v x = some (v ++ code, code.length) ∧ append v (x.setWidth 64) = some (v ++ code, code.length) ∧
      1 ≤ code.length ∧ code.length ≤ 5 ∧
      ∀ post, (v ++ code ++ post).length < 2^32 → decode32 (v ++ code ++ post) v.length = some (x, code.length) ∧
        decode (v ++ code ++ post) v.length = some (x.setWidth 64, code.length) := by
  obtain ⟨code, h1, h2, h3⟩ := C44_roundtrip v (x.setWidth 64)
  rw [← h2] at h1 h3
  refine ⟨code, by rw [append32_eq]; exact h1, h1, by rw [h2]; exact (C44_size _).1, by rw [h2]; exact vbyteSize32_le x, fun post hp => ⟨?_, h3 post⟩⟩
  rw [decode32_eq _ hp, h3 post]
  simp

/-- **C122** (reading): on any bytes the 32-bit reader takes as many bytes as the 64-bit reader and returns its number modulo
`2^32`; it reads outside the vector if and only if the 64-bit reader does -/
theorem C122_decode (v : List (BitVec 8)) (hv : v.length < 2^32) (off : Nat) :
    (decode v off = none ↔ decode32 v off = none) ∧
    ∀ x n, decode v off = some (x, n) → ∃ y, decode32 v off = some (y, n) ∧ y.toNat = x.toNat % 2^32 := by
  rw [decode32_eq v hv]
  refine ⟨by simp, ?_⟩
  intro x n h
  rw [h]
  exact ⟨x.setWidth 32, rfl, BitVec.toNat_setWidth ..⟩

/-- **C122** (files from elsewhere): a number written where `size_t` has 64 bits is read correctly where it has 32 exactly if it
is below `2^32`; otherwise a different number is read, without any sign of an error -/
theorem C122_foreign (v : List (BitVec 8)) (x : Word) :
    ∃ code, append v x = some (v ++ code, code.length) ∧
      ∀ post, (v ++ code ++ post).length < 2^32 →
        ∃ y, decode32 (v ++ code ++ post) v.length = some (y, code.length) ∧ (y.toNat = x.toNat ↔ x.toNat < 2^32) := by
  obtain ⟨code, h1, h2, h3⟩ := C44_roundtrip v x
  rw [← h2] at h1 h3
  refine ⟨code, h1, fun post hp => ?_⟩
  obtain ⟨y, hy, hm⟩ := (C122_decode _ hp v.length).2 _ _ (h3 post)
  refine ⟨y, hy, ?_⟩
  rw [hm]
  constructor
  · intro h; omega
  · intro h; exact Nat.mod_eq_of_lt h

namespace NibbleVector

theorem fold32 (l : List Nat) (s s' : St) (hs : s'.size = s.size % 2^32 ∧ s'.nibbles = s.nibbles ∧ s'.parity = s.parity ∧ s'.cur = s.cur) :
    (l.foldlM step32 s') = (l.foldlM step s).map fun t => ⟨t.size % 2^32, t.nibbles, t.parity, t.cur⟩ := by
  induction l generalizing s s' with
  | nil =>
    obtain ⟨h1, h2, h3, h4⟩ := hs
    cases s'; cases s
    simp_all
  | cons x l ih =>
    obtain ⟨h1, h2, h3, h4⟩ := hs
    rw [List.foldlM_cons, List.foldlM_cons]
    unfold step32 step
    by_cases hx : x < 16
    · rw [assertP_eq _ hx, h1, h2, h3, h4]
      simp only [Option.bind_eq_bind, Option.bind_some, Option.pure_def]
      cases s.parity
      · simp only [Bool.not_false, Bool.true_eq_false, if_false, Option.bind_some]
        exact ih _ _ ⟨by simp only []; omega, rfl, rfl, rfl⟩
      · simp only [Bool.not_true, if_true, Option.bind_some]
        exact ih _ _ ⟨by simp only []; omega, rfl, rfl, rfl⟩
    · rw [assertP_none hx]; rfl

theorem build32_eq (l : List Nat) : build32 l = (build l).map fun v => ⟨v.size % 2^32, v.nibbles⟩ := by
  unfold build32 build
  rw [fold32 l ⟨0, [], false, 0⟩ ⟨0, [], false, 0⟩ ⟨rfl, rfl, rfl, rfl⟩]
  cases l.foldlM step ⟨0, [], false, 0⟩ with
  | none => rfl
  | some s =>
    simp only [Option.map_some, Option.bind_eq_bind, Option.bind_some]
    split <;> rfl

end NibbleVector

/-- **C122** (`nibble_vector`): of `n` nibbles the vector reports `n mod 2^32` and gives access to that many from the front -/
theorem C122_nibble_vector (l : List Nat) (hl : ∀ a ∈ l, a < 16) :
    ∃ v, NibbleVector.build32 l = some v ∧ v.size = l.length % 2^32 ∧
      ∀ i, (v.get i).map BitVec.toNat = (l.take (l.length % 2^32))[i]? := by
  obtain ⟨v, e, h1, h2, h3⟩ := C45_nibble_vector l hl
  refine ⟨⟨v.size % 2^32, v.nibbles⟩, by rw [NibbleVector.build32_eq, e]; rfl, by show v.size % 2^32 = _; rw [h1], ?_⟩
  intro i
  rw [List.getElem?_take]
  by_cases hi : i < l.length % 2^32
  · have hlt : i < l.length := by have := Nat.mod_le l.length (2^32); omega
    obtain ⟨b, hb, hbn⟩ := h2 i hlt
    rw [if_pos hi, List.getElem?_eq_getElem hlt, ← hbn]
    unfold NibbleVector.get at hb ⊢
    rw [assertP_eq _ (by omega)] at hb
    rw [assertP_eq _ (by show i < v.size % 2^32; omega)]
    exact congrArg (Option.map BitVec.toNat) hb
  · rw [if_neg hi]
    unfold NibbleVector.get
    rw [assertP_none (by show ¬ i < v.size % 2^32; omega)]
    rfl

/-- **C122** (`topk_vector::topk`): cutting `b - a + 1` to 32 bits changes no answer, for any arguments -/
theorem C122_topk {α : Type} (o : Ops α) (ho : TotalOrder o.lt o.eq) (h : HeapOps (QElem α)) (hh : h.Valid (viComp o))
    (v : List α) (hv : v.length < 2^30 - 1) :
    ∃ t, TopK.build o v = some t ∧ ∀ a b k, a < 2^64 → b < 2^64 → t.topk32 h a b k = t.topk h a b k := by
  obtain ⟨_, t, e, h1, h2⟩ := C73_range_queries o ho h hh v hv
  refine ⟨t, e, fun a b k ha hb => ?_⟩
  by_cases hd : a ≤ b ∧ b < v.length
  · unfold TopK.topk32 TopK.topk subU
    rw [if_pos hd.1]
    simp only [Option.bind_eq_bind, Option.bind_some]
    rw [show (b + 2^64 - a + 1) % 2^64 % 2^32 = b - a + 1 by omega]
  · have e1 : t.topk h a b k = none := by
      have := mt (h1 a b k).1 hd
      simpa using this
    have e2 : t.getEnumerator a b TopKEnum.new = none := by
      have := mt (h2 a b TopKEnum.new).1 hd
      simpa using this
    rw [e1]
    unfold TopK.topk32
    rw [e2]; rfl

/-! ## Examples -/

/-- 300 has two bytes -/
example : append32 [7] 300 = some ([7, 0x82, 0x2c], 2) ∧ decode32 [7, 0x82, 0x2c, 9] 1 = some (300, 2) := by decide +kernel
/-- `2^32 + 300`, written elsewhere, is read as 300 -/
example : (append [] 0x10000012c).map (fun p => decode32 p.1 0) = some (some (300, 5)) := by decide +kernel
example : (NibbleVector.build32 [3, 15, 0]).bind (fun v => v.get 1) = some 15 := by decide +kernel
/-- without the 64-bit subtraction before the cut, a range from 5 to 3 would be refused all the same -/
example : (TopK.build ⟨fun a b => decide (a < b), fun a b => decide (a = b)⟩ [4, 9, 2, 9, 1, 7]).bind
    (fun t => t.getEnumerator 5 3 TopKEnum.new) = none := by decide +kernel

end Succinct
