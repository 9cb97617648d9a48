import Verif.Lemmas.BpWord
import Verif.Lemmas.BitVector

/-! Parentheses searches inside one block. -/
namespace Succinct
open Broadword Bp
open RSBitVector (bind_pure_some)

theorem toI32_eq (x : Int) (h1 : -2147483648 ≤ x) (h2 : x < 2147483648) : toI32 x = x := by
  unfold toI32
  rw [Int.bmod_def]
  have : ((2^32 : Nat) : Int) = 4294967296 := rfl
  rw [this]
  split <;> omega

theorem i32_eq (x : Int) (h1 : -2147483648 ≤ x) (h2 : x < 2147483648) : i32 x = some x := by
  unfold i32; rw [if_pos ⟨h1, h2⟩]

/-- excess within word `o` -/
theorem word_exc {bits : List Word} {w : Word} {o : Nat} (hw : bits[o]? = some w) (i : Nat) (hi : i ≤ 64) :
    excF w.getLsbD i = excF (wbit bits) (64*o+i) - excF (wbit bits) (64*o) := by
  rw [excF_add, excF_congr (g := fun t => wbit bits (64*o+t))]
  · omega
  · intro t ht
    obtain ⟨h, rfl⟩ := List.getElem?_eq_some_iff.mp hw
    rw [getElem_getLsbD bits o t h (by omega)]

theorem bytesSum_eq (w : Word) : ((bytesSum (byteCounts w)).toNat : Int) * 2 - 64 = excF w.getLsbD 64 := by
  have := popcount_eq w
  unfold popcount at this
  rw [this]; unfold excF; omega

namespace BpVector

variable {bits : List Word} {E : Nat → Int}

theorem closeLoop_spec (hE : E = excF (wbit bits)) (T : Int) (j : Nat) (hj : E (j+1) = T) (hjl : j < 64*bits.length) :
    ∀ (k o : Nat) (e : Int), e = E (64*o) - T → 64*o ≤ j → (∀ q, 64*o ≤ q → q ≤ j → T < E q) → e + 64*k < 2147483584 →
      closeLoop bits k o e = some (if j < 64*(o+k) then some j else none) := by
  intro k
  induction k with
  | zero =>
    intro o e he ho hq hb
    rw [if_neg (by omega)]; rfl
  | succ k ih =>
    intro o e he ho hq hb
    have hol : o < bits.length := by omega
    have hw : bits[o]? = some bits[o] := List.getElem?_eq_getElem hol
    have hx := word_exc hw
    rw [← hE] at hx
    have hpos := hq (64*o) (by omega) ho
    unfold closeLoop
    rw [rd, hw, bind_pure_some]
    simp only []
    rw [assertP_eq _ (show e > 0 by omega), bind_pure_some]
    have hrest : 64*(o+1) ≤ j → (do
        let excess ← i32 (e + toI32 (2 * ((bytesSum (byteCounts bits[o])).toNat : Int) - 64))
        closeLoop bits k (o + 1) excess) = some (if j < 64*(o+(k+1)) then some j else none) := by
      intro h
      have hb64 := bytesSum_eq bits[o]
      have hx64 := hx 64 (by omega)
      have r1 := excF_le (bits[o]).getLsbD 64
      have r2 := excF_ge (bits[o]).getLsbD 64
      have hq1 := hq (64*(o+1)) (by omega) h
      rw [show 64*(o+1) = 64*o+64 by omega] at hq1
      rw [show 2 * ((bytesSum (byteCounts bits[o])).toNat : Int) - 64 = excF (bits[o]).getLsbD 64 by omega,
        toI32_eq _ (by omega) (by omega), i32_eq _ (by omega) (by omega), bind_pure_some,
        ih (o+1) _ (by rw [show 64*(o+1) = 64*o+64 by omega]; omega) h (fun q h1 h2 => hq q (by omega) h2) (by omega),
        show o+1+k = o+(k+1) by omega]
    unfold closeWord
    by_cases he64 : e ≤ 64
    · rw [if_pos he64]
      rcases findCloseInWord_spec bits[o] e (by omega) he64 with ⟨hf, hno⟩ | ⟨r, hf, hr, hr1, hr2⟩
      · rw [hf, bind_pure_some]
        apply hrest
        rcases Nat.lt_or_ge j (64*(o+1)) with h | h
        · exfalso
          have := hno (j+1-64*o) (by omega)
          rw [hx _ (by omega), show 64*o+(j+1-64*o) = j+1 by omega] at this
          omega
        · exact h
      · rw [hf, bind_pure_some]
        rw [hx _ (by omega)] at hr1
        have : j = 64*o+r := by
          rcases Nat.lt_trichotomy j (64*o+r) with h | h | h
          · have := hr2 (j+1-64*o) (by omega)
            rw [hx _ (by omega), show 64*o+(j+1-64*o) = j+1 by omega] at this
            omega
          · exact h
          · have := hq (64*o+(r+1)) (by omega) (by omega)
            omega
        rw [if_pos (by omega), this]
        simp only []
        show some (some _) = _
        congr 2; omega
    · rw [if_neg he64, bind_pure_some]
      apply hrest
      have := (excF_diff (wbit bits) (show 64*o ≤ j+1 by omega)).2
      rw [← hE] at this
      push_cast at this
      omega

theorem findCloseInBlock_spec (hE : E = excF (wbit bits)) (T : Int) (j : Nat) (hj : E (j+1) = T) (hjl : j < 64*bits.length)
    (bo start : Nat) (e : Int) (hs : start ≤ 4) (he : e = E (64*(bo+start)) - T) (ho : 64*(bo+start) ≤ j)
    (hq : ∀ q, 64*(bo+start) ≤ q → q ≤ j → T < E q) :
    findCloseInBlock bits bo e start = some (if j < 64*(bo+4) then some j else none) := by
  have hpos := hq (64*(bo+start)) (by omega) ho
  unfold findCloseInBlock
  rw [subU_eq _ _ hs, bind_pure_some, toI32_eq _ (by omega) (by omega)]
  by_cases h : e > ((4 - start) * 64 : Nat)
  · rw [if_pos h, if_neg]
    · rfl
    · have := (excF_diff (wbit bits) (show 64*(bo+start) ≤ j+1 by omega)).2
      rw [← hE] at this
      push_cast at this
      omega
  · rw [if_neg h, assertP_eq _ (show e > 0 by omega), bind_pure_some,
      closeLoop_spec hE T j hj hjl _ _ e he ho hq (by omega), show bo+start+(4-start) = bo+4 by omega]

theorem openLoop_spec (hE : E = excF (wbit bits)) (T : Int) (j : Nat) (hj : E j = T) (bo : Nat) :
    ∀ (k : Nat) (e : Int), bo + k ≤ bits.length → e = E (64*(bo+k)) - T → j < 64*(bo+k) → (∀ q, j < q → q ≤ 64*(bo+k) → T < E q) →
      e + 64*k < 2147483584 →
      openLoop bits bo k e = some (if 64*bo ≤ j then some j else none) := by
  intro k
  induction k with
  | zero =>
    intro e hl he ho hq hb
    rw [if_neg (by omega)]; rfl
  | succ k ih =>
    intro e hl he ho hq hb
    have hol : bo + k < bits.length := by omega
    have hw : bits[bo+k]? = some bits[bo+k] := List.getElem?_eq_getElem hol
    have hx := word_exc hw
    rw [← hE] at hx
    have hpos := hq (64*(bo+(k+1))) (by omega) (by omega)
    unfold openLoop
    rw [assertP_eq _ (show e > 0 by omega), bind_pure_some]
    simp only []
    rw [rd, hw, bind_pure_some]
    have hx64 := hx 64 (by omega)
    rw [show 64*(bo+k)+64 = 64*(bo+(k+1)) by omega] at hx64
    have hrest : j < 64*(bo+k) → (do
        let excess ← i32 (e - toI32 (2 * ((bytesSum (byteCounts bits[bo+k])).toNat : Int) - 64))
        openLoop bits bo k excess) = some (if 64*bo ≤ j then some j else none) := by
      intro h
      have hb64 := bytesSum_eq bits[bo+k]
      have r1 := excF_le (bits[bo+k]).getLsbD 64
      have r2 := excF_ge (bits[bo+k]).getLsbD 64
      have hq1 := hq (64*(bo+k)) (by omega) (by omega)
      rw [show 2 * ((bytesSum (byteCounts bits[bo+k])).toNat : Int) - 64 = excF (bits[bo+k]).getLsbD 64 by omega,
        toI32_eq _ (by omega) (by omega), i32_eq _ (by omega) (by omega), bind_pure_some,
        ih _ (by omega) (by omega) h (fun q h1 h2 => hq q h1 (by omega)) (by omega)]
    unfold openWord
    by_cases he64 : e ≤ 64
    · rw [if_pos he64]
      rcases findOpenInWord_spec bits[bo+k] e (by omega) he64 with ⟨hf, hno⟩ | ⟨r, hf, hr, hr1, hr2⟩
      · rw [hf, bind_pure_some]
        apply hrest
        rcases Nat.lt_or_ge j (64*(bo+k)) with h | h
        · exact h
        · exfalso
          have := hno (j-64*(bo+k)) (by omega)
          rw [hx64, hx _ (by omega), show 64*(bo+k)+(j-64*(bo+k)) = j by omega] at this
          omega
      · rw [hf, bind_pure_some]
        rw [hx64, hx _ (by omega)] at hr1
        have : j = 64*(bo+k)+r := by
          rcases Nat.lt_trichotomy j (64*(bo+k)+r) with h | h | h
          · have := hq (64*(bo+k)+r) (by omega) (by omega)
            omega
          · exact h
          · have := hr2 (j-64*(bo+k)) (by omega) (by omega)
            rw [hx64, hx _ (by omega), show 64*(bo+k)+(j-64*(bo+k)) = j by omega] at this
            omega
        rw [if_pos (by omega), this]
        simp only []
        show some (some _) = _
        congr 2; omega
    · rw [if_neg he64, bind_pure_some]
      apply hrest
      have := (excF_diff (wbit bits) (show j ≤ 64*(bo+(k+1)) by omega)).1
      rw [← hE] at this
      push_cast at this
      omega

theorem findOpenInBlock_spec (hE : E = excF (wbit bits)) (T : Int) (j : Nat) (hj : E j = T)
    (bo start : Nat) (e : Int) (hs : start ≤ 4) (hl : bo + start ≤ bits.length) (he : e = E (64*(bo+start)) - T) (ho : j < 64*(bo+start))
    (hq : ∀ q, j < q → q ≤ 64*(bo+start) → T < E q) :
    findOpenInBlock bits bo e start = some (if 64*bo ≤ j then some j else none) := by
  have hpos := hq (64*(bo+start)) (by omega) (by omega)
  unfold findOpenInBlock
  rw [toI32_eq _ (by omega) (by omega)]
  by_cases h : e > (start * 64 : Nat)
  · rw [if_pos h, if_neg]
    have := (excF_diff (wbit bits) (show j ≤ 64*(bo+start) by omega)).1
    rw [← hE] at this
    push_cast at this
    omega
  · rw [if_neg h, assertP_eq _ (show e ≥ 0 by omega), bind_pure_some,
      openLoop_spec hE T j hj bo start e hl he ho hq (by omega)]

end BpVector
end Succinct
