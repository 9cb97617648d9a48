import Verif.Model.Alloc
import Verif.Lemmas.Builder
import Verif.Props.BitVector

/-! Builder calls in which memory runs out. -/
namespace Succinct
open Spec Broadword

/-- a builder is in the given state of the specification -/
def Held (b : Builder) : BState → Prop
  | .whole l => Inv b l
  | .short l n => b.size = l.length + n ∧ 0 < n ∧ Repr b.bits l ∧ l.length % 64 = 0

namespace Builder

theorem repr_take {ws : List Word} {l : List Bool} (h : Repr ws l) (k : Nat) (hk : 64 * k ≤ l.length) : Repr (ws.take k) (l.take (64 * k)) := by
  have hl := h.len
  rw [wordsFor_eq] at hl
  constructor
  · rw [wordsFor_eq, List.length_take, List.length_take]; omega
  · intro p
    rw [bitFn_take, ← h.bit]
    unfold wbit
    rw [List.getD_eq_getElem?_getD, List.getD_eq_getElem?_getD, List.getElem?_take]
    by_cases hp : p < 64 * k
    · rw [if_pos (by omega)]; simp [hp]
    · rw [if_neg (by omega)]; simp [hp]

theorem repr_fillUp {ws : List Word} {l : List Bool} (h : Repr ws l) : Repr ws (fillUp l) := by
  have hl := h.len
  rw [wordsFor_eq] at hl
  unfold fillUp wordCount
  constructor
  · rw [wordsFor_eq, List.length_append, List.length_replicate]; omega
  · intro p
    rw [h.bit, bitFn_append, bitFn_replicate]
    split
    · rfl
    · rw [bitFn_of_ge _ _ (by omega)]; simp

theorem fillUp_length (l : List Bool) : (fillUp l).length = 64 * wordCount l.length := by
  unfold fillUp wordCount
  rw [List.length_append, List.length_replicate]; omega

/-- the same call with enough memory -/
theorem appendBitsA_eq (s : Builder) (l : List Bool) (h : Inv s l) (bits : Word) (len : Nat) (hf : Fits bits len) (k : Nat) :
    ∃ s', appendBits s bits len = some s' ∧ appendBitsA k s bits len = some (
      if wordCount (l.length + len) ≠ wordCount l.length then
        (if k = 0 then ⟨⟨s'.bits.take s.bits.length, s'.size, s.cur⟩, true, 0⟩ else ⟨s', false, k - 1⟩) else ⟨s', false, k⟩) := by
  have hl := h.len
  have hf1 := hf.1
  unfold appendBits appendBitsA wordCount
  rw [noSpurious_eq hf]
  simp only [Option.bind_eq_bind, Option.bind_some]
  by_cases h0 : len = 0
  · subst h0
    simp
  rw [if_neg h0, if_neg h0, h.size]
  by_cases h1 : l.length % 64 = 0
  · rw [if_pos h1, if_pos h1, back_eq _ (by simp)]
    simp only [Option.bind_some]
    refine ⟨_, rfl, ?_⟩
    rw [if_pos (show (l.length + len + 63)/64 ≠ (l.length + 63)/64 by omega)]
    by_cases hk : k = 0
    · rw [if_pos hk, if_pos hk]; simp
    · rw [if_neg hk, if_neg hk]; rfl
  · rw [if_neg h1, if_neg h1, shl_eq _ _ (by omega), h.cur h1]
    simp only [Option.bind_some]
    rw [orCur_eq _ _ _ (by omega)]
    simp only [Option.bind_some]
    by_cases h2 : len > 64 - l.length % 64
    · rw [if_pos h2, if_pos h2, shr_eq _ _ (by omega)]
      simp only [Option.bind_some]
      rw [back_eq _ (by simp)]
      simp only [Option.bind_some]
      refine ⟨_, rfl, ?_⟩
      rw [if_pos (show (l.length + len + 63)/64 ≠ (l.length + 63)/64 by omega)]
      by_cases hk : k = 0
      · rw [if_pos hk, if_pos hk]
        dsimp only
        rw [List.take_left' (List.length_set ..)]; rfl
      · rw [if_neg hk, if_neg hk]; rfl
    · rw [if_neg h2, if_neg h2, back_eq _ (by simp; omega)]
      simp only [Option.bind_some, List.length_set]
      refine ⟨_, rfl, ?_⟩
      rw [if_neg (by omega)]; rfl

/-- what `append_bits` leaves behind -/
theorem appendBitsA_inv (s : Builder) (l : List Bool) (h : Inv s l) (bits : Word) (len : Nat) (hf : Fits bits len) (k : Nat) :
    ∃ o, appendBitsA k s bits len = some o ∧
      if wordCount (l.length + len) ≠ wordCount l.length ∧ k = 0 then
        o.threw = true ∧ Held o.b (.short ((l ++ lowBits bits len).take (64 * wordCount l.length)) (l.length + len - 64 * wordCount l.length))
      else o.threw = false ∧ Inv o.b (l ++ lowBits bits len) ∧
        o.left = if wordCount (l.length + len) ≠ wordCount l.length then k - 1 else k := by
  obtain ⟨s', e1, e2⟩ := appendBitsA_eq s l h bits len hf k
  obtain ⟨s'', e3, hi⟩ := appendBits_inv s l h bits len hf
  rw [e1] at e3
  cases e3
  refine ⟨_, e2, ?_⟩
  by_cases hg : wordCount (l.length + len) ≠ wordCount l.length
  · rw [if_pos hg]
    have hlen := h.len
    by_cases hk : k = 0
    · rw [if_pos hk, if_pos ⟨hg, hk⟩]
      refine ⟨rfl, ?_⟩
      unfold wordCount at *
      have hl2 : (l ++ lowBits bits len).length = l.length + len := by simp
      refine ⟨?_, by omega, ?_, ?_⟩
      · show s'.size = _
        rw [hi.size, List.length_take, hl2]; omega
      · show Repr (s'.bits.take s.bits.length) _
        rw [hlen]
        exact repr_take hi.repr _ (by omega)
      · rw [List.length_take, hl2]; omega
    · rw [if_neg hk, if_neg (by tauto), if_pos hg]
      exact ⟨rfl, hi, rfl⟩
  · rw [if_neg hg, if_neg (by tauto), if_neg hg]
    exact ⟨rfl, hi, rfl⟩

theorem reserveA_inv (s : Builder) (l : List Bool) (h : Inv s l) (r : Bool) (hr : r = true → l.length % 64 = 0) (k : Nat) :
    ∃ o, reserveA k s r = some o ∧ Inv o.b l ∧ o.threw = decide (k = 0) := by
  unfold reserveA
  by_cases hk : k = 0
  · rw [if_pos hk]; exact ⟨_, rfl, h, by simp [hk]⟩
  · rw [if_neg hk]
    unfold reserve
    cases r with
    | false => exact ⟨_, rfl, h, by simp [hk]⟩
    | true => exact ⟨_, rfl, ⟨h.size, h.repr, fun hc => absurd (hr rfl) hc⟩, by simp [hk]⟩

theorem pushBackA_inv (s : Builder) (l : List Bool) (h : Inv s l) (x : Bool) (k : Nat) :
    ∃ o, pushBackA k s x = some o ∧
      if l.length % 64 = 0 ∧ k = 0 then o = ⟨s, true, 0⟩ else o.threw = false ∧ Inv o.b (l ++ [x]) := by
  obtain ⟨s', e, hi⟩ := pushBack_inv s l h x
  unfold pushBack at e
  unfold pushBackA
  simp only [Option.bind_eq_bind, Option.bind_eq_some_iff] at e
  obtain ⟨v, ev, e⟩ := e
  simp only []
  rw [h.size] at *
  by_cases h0 : l.length % 64 = 0
  · rw [if_pos h0] at *
    by_cases hk : k = 0
    · rw [if_pos hk]
      exact ⟨_, rfl, by rw [if_pos ⟨h0, hk⟩]⟩
    · rw [if_neg hk]
      obtain ⟨c, ec, ws, ew, e⟩ := by simpa only [Option.bind_eq_bind, Option.bind_eq_some_iff] using e
      simp only [Option.bind_eq_bind, ec, Option.bind_some, ev, ew]
      cases e
      exact ⟨_, rfl, by rw [if_neg (fun hh => hk hh.2)]; exact ⟨rfl, hi⟩⟩
  · rw [if_neg h0] at *
    obtain ⟨ws, ew, e⟩ := by simpa only [Option.bind_eq_bind, Option.bind_eq_some_iff] using e
    simp only [Option.bind_eq_bind, ev, Option.bind_some, ew]
    cases e
    exact ⟨_, rfl, by rw [if_neg (fun hh => h0 hh.1)]; exact ⟨rfl, hi⟩⟩

theorem zeroExtendA_inv (s : Builder) (l : List Bool) (h : Inv s l) (n k : Nat) :
    ∃ o, zeroExtendA k s n = some o ∧ Held o.b (grow k l (List.replicate n false) (fillUp l)).1 ∧
      o.threw = (grow k l (List.replicate n false) (fillUp l)).2 := by
  obtain ⟨s', e, hi⟩ := zeroExtend_inv s l h n
  have hl := h.len
  unfold zeroExtend at e
  unfold zeroExtendA grow wordCount
  simp only [Option.bind_eq_bind, Option.bind_eq_some_iff] at e
  obtain ⟨g, eg, e⟩ := e
  rw [h.size] at *
  simp only [eg, Option.bind_eq_bind, Option.bind_some, List.length_replicate]
  have hg : g = (l.length + n + 63)/64 - (l.length + 63)/64 := by
    rw [subU_eq _ _ (by rw [hl, wordsFor_eq]; omega)] at eg
    rw [← Option.some.inj eg, wordsFor_eq, hl]
  by_cases h0 : g ≠ 0
  · rw [if_pos h0] at *
    by_cases hk : k = 0
    · rw [if_pos hk, if_pos ⟨by omega, hk⟩]
      refine ⟨_, rfl, ⟨?_, ?_, repr_fillUp h.repr, ?_⟩, rfl⟩
      all_goals rw [fillUp_length]; unfold wordCount
      · show l.length + n = _; omega
      · omega
      · omega
    · rw [if_neg hk, if_neg (by tauto)]
      obtain ⟨c, ec, e⟩ := by simpa only [Option.bind_eq_bind, Option.bind_eq_some_iff] using e
      simp only [ec, Option.bind_some]
      cases e
      exact ⟨_, rfl, hi, rfl⟩
  · rw [if_neg h0] at *
    rw [if_neg (by omega)]
    cases e
    exact ⟨_, rfl, hi, rfl⟩

/-- with memory at hand `zero_extend` restores a builder that is short of words -/
theorem zeroExtendA_short (s : Builder) (l : List Bool) (n : Nat) (h : Held s (.short l n)) (m k : Nat) :
    ∃ o, zeroExtendA k s m = some o ∧
      if k = 0 then Held o.b (.short l (n + m)) ∧ o.threw = true else Inv o.b (l ++ List.replicate (n + m) false) ∧ o.threw = false := by
  obtain ⟨h1, h2, h3, h4⟩ := h
  have hl := h3.len
  rw [wordsFor_eq] at hl
  unfold zeroExtendA
  simp only []
  rw [h1, subU_eq _ _ (by rw [hl, wordsFor_eq]; omega)]
  simp only [Option.bind_eq_bind, Option.bind_some]
  rw [if_pos (by rw [hl, wordsFor_eq]; omega)]
  by_cases hk : k = 0
  · rw [if_pos hk]
    refine ⟨_, rfl, ?_⟩
    rw [if_pos hk]
    exact ⟨⟨by simp only []; omega, by omega, h3, h4⟩, rfl⟩
  · rw [if_neg hk, back_eq _ (by simp [wordsFor_eq]; omega)]
    refine ⟨_, rfl, ?_⟩
    rw [if_neg hk]
    refine ⟨⟨?_, ?_, ?_⟩, rfl⟩
    · simp; omega
    · constructor
      · simp [wordsFor_eq]; omega
      · intro p
        simp only []
        rw [wbit_append, wbit_replicate_zero, h3.bit, bitFn_append, bitFn_replicate]
        by_cases hp : p < l.length
        · rw [if_pos (by omega), if_pos hp]
        · rw [if_neg (by omega), if_neg hp]; simp
    · intro _; simp

theorem appendA_inv (s t : Builder) (l m : List Bool) (h : Inv s l) (ht : Inv t m) (k : Nat) :
    ∃ o, appendA k s t = some o ∧ Held o.b (grow k l m (fillUp l)).1 ∧ o.threw = (grow k l m (fillUp l)).2 := by
  obtain ⟨s', e, hi⟩ := append_inv s t l m h ht
  have hl := h.len
  unfold appendA grow wordCount
  by_cases h0 : t.size = 0
  · rw [if_pos h0]
    have hm : m = [] := List.length_eq_zero_iff.1 (by rw [← ht.size]; exact h0)
    subst hm
    rw [if_neg (by simp)]
    exact ⟨_, rfl, by rw [List.append_nil]; exact h, rfl⟩
  · rw [if_neg h0]
    simp only []
    rw [h.size, ht.size, subU_eq _ _ (by rw [hl, wordsFor_eq]; omega)]
    simp only [Option.bind_eq_bind, Option.bind_some]
    have hg : wordsFor (l.length + m.length) - s.bits.length ≠ 0 ↔ (l.length + m.length + 63)/64 ≠ (l.length + 63)/64 := by
      rw [wordsFor_eq, hl]; omega
    by_cases hc : (l.length + m.length + 63)/64 ≠ (l.length + 63)/64 ∧ k = 0
    · rw [if_pos (by rw [hg]; exact hc), if_pos hc]
      refine ⟨_, rfl, ⟨?_, ?_, repr_fillUp h.repr, ?_⟩, rfl⟩
      all_goals rw [fillUp_length]; unfold wordCount
      · show l.length + m.length = _; omega
      · omega
      · omega
    · rw [if_neg (by rw [hg]; exact hc), if_neg hc, e]
      exact ⟨_, rfl, hi, rfl⟩

theorem ones_fits (n : Nat) (h0 : n ≠ 0) (h : n < 64) : Fits (BitVec.allOnes 64 >>> (64 - n)) n ∧ lowBits (BitVec.allOnes 64 >>> (64 - n)) n = List.replicate n true := by
  have hx : ∀ i, (BitVec.allOnes 64 >>> (64 - n)).getLsbD i = decide (i < n) := by
    intro i
    rw [BitVec.getLsbD_ushiftRight, BitVec.getLsbD_allOnes, decide_eq_decide]; omega
  refine ⟨⟨by omega, ?_⟩, lowBits_ones n (by omega) _ (fun i hi => by rw [hx]; simp [hi])⟩
  apply Nat.lt_pow_two_of_testBit
  intro i hi
  rw [BitVec.testBit_toNat, hx]; simp; omega

theorem oneExtendLoopA_inv (fuel : Nat) : ∀ (k : Nat) (s : Builder) (l : List Bool) (_ : Inv s l) (n : Nat) (_ : n ≤ 64 * fuel + 63),
    ∃ o r, oneExtendLoopA fuel k s n = some o ∧ BCall.spec k (.whole l) (.oneExtend n) = some r ∧ Held o.b r.1 ∧ o.threw = r.2 := by
  have small : ∀ (k : Nat) (s : Builder) (l : List Bool) (_ : Inv s l) (n : Nat) (_ : n < 64),
      ∃ o r, (if n ≠ 0 then (do let v ← shr (BitVec.allOnes 64) (64 - n); appendBitsA k s v n) else some ⟨s, false, k⟩) = some o ∧
        BCall.spec k (.whole l) (.oneExtend n) = some r ∧ Held o.b r.1 ∧ o.threw = r.2 := by
    intro k s l h n hn
    by_cases h0 : n ≠ 0
    · rw [if_pos h0, shr_eq _ _ (by omega)]
      simp only [Option.bind_eq_bind, Option.bind_some]
      obtain ⟨f1, f2⟩ := ones_fits n h0 hn
      obtain ⟨o, e, ho⟩ := appendBitsA_inv s l h _ n f1 k
      rw [f2] at ho
      refine ⟨o, ?_⟩
      unfold BCall.spec
      simp only [e, true_and]
      by_cases hc : wordCount (l.length + n) ≠ wordCount l.length ∧ k = 0
      · rw [if_pos hc] at ho
        unfold wordCount at *
        rw [if_pos (by omega)]
        refine ⟨_, rfl, ?_, ho.1⟩
        have hk := hc.2
        subst hk
        have e2 : l.length + min n (64 * (0 + 1)) - (List.take (64 * ((l.length + 63)/64 + 0)) (l ++ List.replicate n true)).length
            = l.length + n - 64 * ((l.length + 63)/64) := by
          rw [List.length_take, List.length_append, List.length_replicate]; omega
        simp only []
        rw [e2]
        exact ho.2
      · rw [if_neg hc] at ho
        unfold wordCount at *
        rw [if_neg (by omega)]
        exact ⟨_, rfl, ho.2.1, ho.1⟩
    · rw [if_neg h0]
      simp only [ne_eq, Decidable.not_not] at h0
      subst h0
      refine ⟨⟨s, false, k⟩, ?_⟩
      unfold BCall.spec
      simp only []
      rw [if_neg (by simp)]
      exact ⟨_, trivial, rfl, by simpa [Held] using h, rfl⟩
  induction fuel with
  | zero =>
    intro k s l h n hn
    unfold oneExtendLoopA
    rw [if_neg (by omega)]
    exact small k s l h n (by omega)
  | succ fuel ih =>
    intro k s l h n hn
    unfold oneExtendLoopA
    by_cases h64 : n ≥ 64
    · rw [if_pos h64]
      simp only [Option.bind_eq_bind]
      obtain ⟨o, e, ho⟩ := appendBitsA_inv s l h (BitVec.allOnes 64) 64 ⟨by omega, BitVec.isLt _⟩ k
      rw [lowBits_ones 64 (by omega) _ (fun i hi => by rw [BitVec.getLsbD_allOnes]; simp [hi])] at ho
      rw [e]
      simp only [Option.bind_some]
      have hw : wordCount (l.length + 64) ≠ wordCount l.length := by unfold wordCount; omega
      by_cases hk : k = 0
      · rw [if_pos ⟨hw, hk⟩] at ho
        rw [if_pos ho.1]
        refine ⟨o, ?_⟩
        unfold BCall.spec
        simp only []
        unfold wordCount at *
        rw [if_pos (by omega)]
        refine ⟨_, rfl, rfl, ?_, ho.1⟩
        subst hk
        have e2 : l.length + min n (64 * (0 + 1)) - (List.take (64 * ((l.length + 63)/64 + 0)) (l ++ List.replicate n true)).length
            = l.length + 64 - 64 * ((l.length + 63)/64) := by
          rw [List.length_take, List.length_append, List.length_replicate]; omega
        have e3 : List.take (64 * ((l.length + 63)/64 + 0)) (l ++ List.replicate n true) =
            List.take (64 * ((l.length + 63)/64)) (l ++ List.replicate 64 true) := by
          rw [List.take_append, List.take_append, List.take_replicate, List.take_replicate]
          congr 2
          omega
        simp only []
        rw [e2, e3]
        exact ho.2
      · rw [if_neg (by tauto)] at ho
        obtain ⟨h1, h2, h3⟩ := ho
        rw [if_pos hw] at h3
        rw [if_neg (by rw [h1]; simp), h3]
        obtain ⟨o', r', e', es, hh, ht⟩ := ih (k - 1) o.b _ h2 (n - 64) (by omega)
        refine ⟨o', r', e', ?_, hh, ht⟩
        rw [← es]
        unfold BCall.spec
        simp only []
        rw [List.append_assoc, List.replicate_append_replicate, show 64 + (n - 64) = n by omega, List.length_append, List.length_replicate]
        unfold wordCount
        have ec : k < (l.length + n + 63) / 64 - (l.length + 63) / 64 ↔
            k - 1 < (l.length + 64 + (n - 64) + 63) / 64 - (l.length + 64 + 63) / 64 := by omega
        have e4 : (l.length + 64 + 63)/64 + (k - 1) = (l.length + 63)/64 + k := by omega
        have e5 : l.length + 64 + min (n - 64) (64 * (k - 1 + 1)) = l.length + min n (64 * (k + 1)) := by omega
        simp only [ec, e4, e5]
    · rw [if_neg h64]
      exact small k s l h n (by omega)

theorem oneExtendA_inv (s : Builder) (l : List Bool) (h : Inv s l) (n k : Nat) :
    ∃ o r, oneExtendA k s n = some o ∧ BCall.spec k (.whole l) (.oneExtend n) = some r ∧ Held o.b r.1 ∧ o.threw = r.2 :=
  oneExtendLoopA_inv n k s l h n (by omega)

theorem callA_inv (s : Builder) (st : BState) (h : Held s st) (c : BCall) (hc : c.ok) (k : Nat) (r : BState × Bool) (hr : c.spec k st = some r) :
    ∃ o, callA k s c = some o ∧ Held o.b r.1 ∧ o.threw = r.2 := by
  cases st with
  | whole l =>
    cases c with
    | reserve re =>
      unfold BCall.spec at hr
      simp only [] at hr
      by_cases hal : re = true → l.length % 64 = 0
      · obtain ⟨o, e, h1, h2⟩ := reserveA_inv s l h re hal k
        by_cases hk : k = 0
        · rw [if_pos hk] at hr; cases hr
          exact ⟨o, e, h1, by rw [h2]; simp [hk]⟩
        · rw [if_neg hk, if_neg (by tauto)] at hr; cases hr
          exact ⟨o, e, h1, by rw [h2]; simp [hk]⟩
      · by_cases hk : k = 0
        · rw [if_pos hk] at hr; cases hr
          exact ⟨⟨s, true, 0⟩, by unfold callA reserveA; simp only []; rw [if_pos hk], h, rfl⟩
        · rw [if_neg hk, if_pos (by tauto)] at hr; cases hr
    | pushBack x =>
      obtain ⟨o, e, ho⟩ := pushBackA_inv s l h x k
      unfold BCall.spec at hr
      simp only [] at hr
      refine ⟨o, e, ?_⟩
      split at ho
      · rename_i hh; rw [if_pos hh] at hr; cases hr; subst ho; exact ⟨h, rfl⟩
      · rename_i hh; rw [if_neg hh] at hr; cases hr; exact ⟨ho.2, ho.1⟩
    | set pos x =>
      unfold BCall.spec at hr
      simp only [] at hr
      split at hr
      · rename_i hp; cases hr
        obtain ⟨s', e, hi⟩ := set_inv s l h pos x hp
        exact ⟨⟨s', false, k⟩, by unfold callA; simp only [e, Option.map_some], hi, rfl⟩
      · cases hr
    | setBits pos bits len =>
      unfold BCall.spec at hr
      simp only [] at hr
      split at hr
      · rename_i hp; cases hr
        obtain ⟨s', e, hi⟩ := setBits_inv s l h pos bits len hp.1 hp.2
        exact ⟨⟨s', false, k⟩, by unfold callA; simp only [e, Option.map_some], hi, rfl⟩
      · cases hr
    | appendBits bits len =>
      unfold BCall.spec at hr
      simp only [] at hr
      split at hr
      · rename_i hf; cases hr
        obtain ⟨o, e, ho⟩ := appendBitsA_inv s l h bits len hf k
        refine ⟨o, e, ?_⟩
        unfold grow
        rw [lowBits_length]
        split at ho
        · rename_i hh
          rw [if_pos hh]
          refine ⟨?_, ho.1⟩
          have e2 : (List.take (64 * wordCount l.length) (l ++ lowBits bits len)).length = 64 * wordCount l.length := by
            rw [List.length_take, List.length_append, lowBits_length]
            have := hf.1
            unfold wordCount at *
            omega
          simp only []
          rw [e2]
          exact ho.2
        · rename_i hh; rw [if_neg hh]; exact ⟨ho.2.1, ho.1⟩
      · cases hr
    | zeroExtend n =>
      unfold BCall.spec at hr
      cases hr
      exact zeroExtendA_inv s l h n k
    | oneExtend n =>
      obtain ⟨o, r', e, es, h1, h2⟩ := oneExtendA_inv s l h n k
      rw [es] at hr
      cases hr
      exact ⟨o, e, h1, h2⟩
    | append q =>
      unfold BCall.spec at hr
      simp only [Option.bind_eq_bind, Option.bind_eq_some_iff] at hr
      obtain ⟨m, em, hr⟩ := hr
      cases hr
      obtain ⟨t, et, ht⟩ := run_inv q m em hc
      obtain ⟨o, e, h1, h2⟩ := appendA_inv s t l m h ht k
      exact ⟨o, by unfold callA; simp only [Option.bind_eq_bind]; rw [et, Option.bind_some, e], h1, h2⟩
    | reverse =>
      unfold BCall.spec at hr
      cases hr
      obtain ⟨s', e, hi⟩ := reverse_inv s l h
      exact ⟨⟨s', false, k⟩, by unfold callA; simp only [e, Option.map_some], hi, rfl⟩
  | short l n =>
    cases c with
    | reserve re =>
      unfold BCall.spec at hr
      cases hr
      unfold callA reserveA
      by_cases hk : k = 0
      · simp only []
        rw [if_pos hk]; exact ⟨_, rfl, h, by simp [hk]⟩
      · simp only []
        rw [if_neg hk]
        unfold reserve
        cases re with
        | false => exact ⟨_, rfl, h, by simp [hk]⟩
        | true => exact ⟨_, rfl, h, by simp [hk]⟩
    | set pos x =>
      unfold BCall.spec at hr
      simp only [] at hr
      split at hr
      · rename_i hp; cases hr
        obtain ⟨h1, h2, h3, h4⟩ := h
        obtain ⟨s', e, hi⟩ := set_inv ⟨s.bits, l.length, s.cur⟩ l ⟨rfl, h3, fun hc => absurd h4 hc⟩ pos x hp
        unfold callA
        unfold set at e
        simp only [Option.bind_eq_bind, Option.bind_eq_some_iff, Option.pure_def, Option.some.injEq] at e
        obtain ⟨m, e1, w, e2, b1, e3, v, e4, w2, e5, b2, e6, rfl⟩ := e
        refine ⟨⟨{ s with bits := b2 }, false, k⟩, ?_, ⟨?_, h2, hi.repr, ?_⟩, rfl⟩
        · unfold set
          simp only [Option.bind_eq_bind, e1, Option.bind_some, e2, e3, e4, e5, e6]
          rfl
        · simp only [List.length_set]; exact h1
        · simp only [List.length_set]; exact h4
      · cases hr
    | zeroExtend m =>
      obtain ⟨o, e, ho⟩ := zeroExtendA_short s l n h m k
      unfold BCall.spec at hr
      simp only [] at hr
      refine ⟨o, e, ?_⟩
      split at ho
      · rename_i hk; rw [if_pos hk] at hr; cases hr; exact ho
      · rename_i hk; rw [if_neg hk] at hr; cases hr; exact ho
    | _ => unfold BCall.spec at hr; cases hr

theorem runA_inv (cs : List (BCall × Nat)) (hc : ∀ c ∈ cs, c.1.ok) : ∀ (s : Builder) (st : BState) (_ : Held s st) (r : BState × List Bool),
    runSpec st cs = some r → ∃ b, runA s cs = some (b, r.2) ∧ Held b r.1 := by
  induction cs with
  | nil => intro s st h r hr; cases hr; exact ⟨s, rfl, h⟩
  | cons c cs ih =>
    intro s st h r hr
    obtain ⟨c, k⟩ := c
    unfold runSpec at hr
    simp only [Option.bind_eq_bind, Option.bind_eq_some_iff] at hr
    obtain ⟨⟨st1, t⟩, e1, ⟨st2, ts⟩, e2, hr⟩ := hr
    cases hr
    obtain ⟨o, e3, h3, h4⟩ := callA_inv s st h c (hc (c, k) (by simp)) k _ e1
    obtain ⟨b, e5, h5⟩ := ih (fun c hm => hc c (by simp [hm])) o.b st1 h3 _ e2
    refine ⟨b, ?_, h5⟩
    unfold runA
    simp only [Option.bind_eq_bind]
    rw [e3, Option.bind_some, e5, Option.bind_some, h4]
    rfl

end Builder
end Succinct
