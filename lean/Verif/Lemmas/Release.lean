import Verif.Model.Release
import Verif.Lemmas.MachineBp
import Verif.Lemmas.BpUnmatched

/-! The code without assertions: it agrees with the code with assertions where that answers, and the backward search
of the tree goes on for ever where there is nothing to be found. -/
namespace Succinct
open Broadword Bp

theorem Outcome.done_bind {α β : Type} (a : α) (f : α → Outcome β) : (Outcome.done a >>= f) = f a := rfl
theorem Outcome.undefined_bind {α β : Type} (f : α → Outcome β) : ((Outcome.undefined : Outcome α) >>= f) = .undefined := rfl
theorem Outcome.running_bind {α β : Type} (f : α → Outcome β) : ((Outcome.running : Outcome α) >>= f) = .running := rfl
theorem Outcome.of_some {α : Type} (a : α) : Outcome.of (some a) = .done a := rfl
theorem Outcome.of_none {α : Type} : Outcome.of (none : Option α) = .undefined := rfl

namespace Release
open Outcome
open Machine (at_ s32 vlen)
open Machine.BpVector (searchFwd searchBwd minW otherNode dir)

theorem closeResult_of {word cum : Word} {o : Option Nat} {r : Option Word} (h : Machine.Bp.closeResult word cum o = some r) :
    closeResult word cum o = some r := by
  cases o with
  | none => exact h
  | some n =>
    simp only [Machine.Bp.closeResult, Option.bind_eq_bind, Option.bind_eq_some_iff] at h
    obtain ⟨c, h1, e, h2, b, h3, _, _, h5⟩ := h
    simp only [closeResult, Option.bind_eq_bind, h1, h2, h3, Option.bind_some]
    exact h5

theorem openResult_of {word cum : Word} {o : Option Nat} {r : Option Word} (h : Machine.Bp.openResult word cum o = some r) :
    openResult word cum o = some r := by
  cases o with
  | none => exact h
  | some n =>
    simp only [Machine.Bp.openResult, Option.bind_eq_bind, Option.bind_eq_some_iff] at h
    obtain ⟨c, h1, e, h2, b, h3, _, _, h5⟩ := h
    simp only [openResult, Option.bind_eq_bind, h1, h2, h3, Option.bind_some]
    exact h5

theorem findCloseInWord_of {word bc : Word} {e : Int} {r : Option Word} (h : Machine.Bp.findCloseInWord word bc e = some r) :
    findCloseInWord word bc e = some r := by
  unfold Machine.Bp.findCloseInWord at h
  unfold findCloseInWord
  dsimp only at h ⊢
  generalize lsb (leqStep8 (cumExcClose bc e) (minExcStep8 word)) = o at h ⊢
  rw [Option.bind_eq_bind, Option.bind_eq_some_iff] at h
  obtain ⟨_, _, h⟩ := h
  exact closeResult_of h

theorem findOpenInWord_of {word bc : Word} {e : Int} {r : Option Word} (h : Machine.Bp.findOpenInWord word bc e = some r) :
    findOpenInWord word bc e = some r := by
  unfold Machine.Bp.findOpenInWord at h
  unfold findOpenInWord
  dsimp only at h ⊢
  generalize lsb (leqStep8 (cumExcOpen bc e) (maxExcStep8 word)) = o at h ⊢
  rw [Option.bind_eq_bind, Option.bind_eq_some_iff] at h
  obtain ⟨_, _, h⟩ := h
  exact openResult_of h

theorem blockExcess_of {rs : Machine.RSBitVector} {b : Word} {r : Int} (h : Machine.BpVector.blockExcess rs b = some r) :
    blockExcess rs b = some r := by
  simp only [Machine.BpVector.blockExcess, Option.bind_eq_bind, Option.bind_eq_some_iff] at h
  obtain ⟨x, h1, _, _, h3⟩ := h
  simp only [blockExcess, Option.bind_eq_bind, h1, Option.bind_some]
  exact h3

theorem rank_of {rs : Machine.RSBitVector} {p r : Word} (h : Machine.RSBitVector.rank rs p = some r) : rank rs p = some r := by
  unfold Machine.RSBitVector.rank at h
  rw [Option.bind_eq_bind, Option.bind_eq_some_iff] at h
  obtain ⟨_, _, h⟩ := h
  exact h

theorem excess_of {v : Machine.BpVector} {p : Word} {r : Int} (h : v.excess p = some r) : excess v p = some r := by
  simp only [Machine.BpVector.excess, Option.bind_eq_bind, Option.bind_eq_some_iff] at h
  obtain ⟨x, h1, h2⟩ := h
  simp only [excess, Option.bind_eq_bind, rank_of h1, Option.bind_some]
  exact h2

theorem closeWord_of {word bc : Word} {e : Int} {r : Option Word} (h : Machine.BpVector.closeWord word bc e = some r) :
    closeWord word bc e = some r := by
  unfold Machine.BpVector.closeWord at h
  unfold closeWord
  by_cases hc : e ≤ 64
  · rw [if_pos hc] at h ⊢; exact findCloseInWord_of h
  · rw [if_neg hc] at h ⊢; exact h

theorem openWord_of {word bc : Word} {e : Int} {r : Option Word} (h : Machine.BpVector.openWord word bc e = some r) :
    openWord word bc e = some r := by
  unfold Machine.BpVector.openWord at h
  unfold openWord
  by_cases hc : e ≤ 64
  · rw [if_pos hc] at h ⊢; exact findOpenInWord_of h
  · rw [if_neg hc] at h ⊢; exact h

theorem closeLoop_of {bits : List Word} {bo : Word} : ∀ {fuel : Nat} {off : Word} {e : Int} {r : Option Word},
    Machine.BpVector.closeLoop bits bo fuel off e = some r → closeLoop bits bo fuel off e = some r := by
  intro fuel
  induction fuel with
  | zero =>
    intro off e r h
    unfold Machine.BpVector.closeLoop at h
    unfold closeLoop
    exact h
  | succ fuel ih =>
    intro off e r h
    unfold Machine.BpVector.closeLoop at h
    unfold closeLoop
    by_cases hc : off < 4
    · rw [if_pos hc] at h ⊢
      simp only [Option.bind_eq_bind, Option.bind_eq_some_iff] at h ⊢
      obtain ⟨w, h1, _, _, x, h2, h3⟩ := h
      refine ⟨w, h1, x, closeWord_of h2, ?_⟩
      cases x with
      | some x => exact h3
      | none =>
        simp only [Option.bind_eq_some_iff] at h3 ⊢
        obtain ⟨e', h4, h5⟩ := h3
        exact ⟨e', h4, ih h5⟩
    · rw [if_neg hc] at h ⊢; exact h

theorem openLoop_of {bits : List Word} {bo : Word} : ∀ {fuel : Nat} {off : Word} {e : Int} {r : Option Word},
    Machine.BpVector.openLoop bits bo fuel off e = some r → openLoop bits bo fuel off e = some r := by
  intro fuel
  induction fuel with
  | zero =>
    intro off e r h
    unfold Machine.BpVector.openLoop at h
    unfold openLoop
    exact h
  | succ fuel ih =>
    intro off e r h
    unfold Machine.BpVector.openLoop at h
    unfold openLoop
    by_cases hc : off + 1 > 0
    · rw [if_pos hc] at h ⊢
      simp only [Option.bind_eq_bind, Option.bind_eq_some_iff] at h ⊢
      obtain ⟨_, _, w, h1, x, h2, h3⟩ := h
      refine ⟨w, h1, x, openWord_of h2, ?_⟩
      cases x with
      | some x => exact h3
      | none =>
        simp only [Option.bind_eq_some_iff] at h3 ⊢
        obtain ⟨e', h4, h5⟩ := h3
        exact ⟨e', h4, ih h5⟩
    · rw [if_neg hc] at h ⊢; exact h

theorem findCloseInBlock_of {bits : List Word} {bo start : Word} {e : Int} {r : Option Word}
    (h : Machine.BpVector.findCloseInBlock bits bo e start = some r) : findCloseInBlock bits bo e start = some r := by
  unfold Machine.BpVector.findCloseInBlock at h
  unfold findCloseInBlock
  by_cases hc : e > s32 ((4 - start) * 64)
  · rw [if_pos hc] at h ⊢; exact h
  · rw [if_neg hc] at h ⊢
    rw [Option.bind_eq_bind, Option.bind_eq_some_iff] at h
    obtain ⟨_, _, h⟩ := h
    exact closeLoop_of h

theorem findOpenInBlock_of {bits : List Word} {bo start : Word} {e : Int} {r : Option Word}
    (h : Machine.BpVector.findOpenInBlock bits bo e start = some r) : findOpenInBlock bits bo e start = some r := by
  unfold Machine.BpVector.findOpenInBlock at h
  unfold findOpenInBlock
  by_cases hc : e > s32 (start * 64)
  · rw [if_pos hc] at h ⊢; exact h
  · rw [if_neg hc] at h ⊢
    rw [Option.bind_eq_bind, Option.bind_eq_some_iff] at h
    obtain ⟨_, _, h⟩ := h
    exact openLoop_of h

theorem searchBlock_of {v : Machine.BpVector} {fwd : Bool} {b : Word} {e : Int} {r : Option Word}
    (h : v.searchBlockInSuperblock fwd b e = some r) : searchBlockInSuperblock v fwd b e = some r := by
  simp only [Machine.BpVector.searchBlockInSuperblock, Option.bind_eq_bind, Option.bind_eq_some_iff] at h
  obtain ⟨x, h1, h2⟩ := h
  simp only [searchBlockInSuperblock, Option.bind_eq_bind, blockExcess_of h1, Option.bind_some]
  exact h2

theorem inNodeRange_of {v : Machine.BpVector} {n : Word} {e : Int} {r : Bool} (h : v.inNodeRange n e = some r) :
    inNodeRange v n e = some r := by
  simp only [Machine.BpVector.inNodeRange, Option.bind_eq_bind, Option.bind_eq_some_iff] at h
  obtain ⟨x, h1, _, _, h2⟩ := h
  simp only [inNodeRange, Option.bind_eq_bind, h1, Option.bind_some]
  exact h2

theorem siblingHit_of {v : Machine.BpVector} {fwd : Bool} {n : Word} {e : Int} {r : Option Word} (h : v.siblingHit fwd n e = some r) :
    siblingHit v fwd n e = some r := by
  unfold Machine.BpVector.siblingHit at h
  unfold siblingHit
  by_cases hc : n &&& 1 = dir fwd
  · rw [if_pos hc] at h ⊢; exact h
  · rw [if_neg hc] at h ⊢
    simp only [Option.bind_eq_bind, Option.bind_eq_some_iff] at h ⊢
    obtain ⟨b, h1, h2⟩ := h
    exact ⟨b, inNodeRange_of h1, h2⟩

theorem treeUp_of {v : Machine.BpVector} {fwd : Bool} {e : Int} : ∀ {fuel fuel' : Nat} {n r : Word}, fuel ≤ fuel' →
    v.treeUp fwd e fuel n = some r → treeUp v fwd e fuel' n = .done r := by
  intro fuel
  induction fuel with
  | zero => intro fuel' n r _ h; simp [Machine.BpVector.treeUp] at h
  | succ fuel ih =>
    intro fuel' n r hf h
    obtain ⟨f, rfl⟩ : ∃ f, fuel' = f + 1 := ⟨fuel' - 1, by omega⟩
    unfold Machine.BpVector.treeUp at h
    unfold treeUp
    simp only [Option.bind_eq_bind, Option.bind_eq_some_iff] at h
    obtain ⟨_, _, x, h1, h2⟩ := h
    rw [siblingHit_of h1, of_some, done_bind]
    cases x with
    | some x => simp only [pure, Option.some.injEq] at h2; subst h2; rfl
    | none => exact ih (by omega) h2

theorem treeDown_of {v : Machine.BpVector} {fwd : Bool} {e : Int} : ∀ {fuel fuel' : Nat} {n r : Word}, fuel ≤ fuel' →
    v.treeDown fwd e fuel n = some r → treeDown v fwd e fuel' n = .done r := by
  intro fuel
  induction fuel with
  | zero =>
    intro fuel' n r _ h
    unfold Machine.BpVector.treeDown at h
    unfold treeDown
    by_cases hc : n < v.internalNodes
    · rw [if_pos hc] at h; simp at h
    · rw [if_neg hc] at h ⊢; cases h; rfl
  | succ fuel ih =>
    intro fuel' n r hf h
    obtain ⟨f, rfl⟩ : ∃ f, fuel' = f + 1 := ⟨fuel' - 1, by omega⟩
    unfold Machine.BpVector.treeDown at h
    unfold treeDown
    by_cases hc : n < v.internalNodes
    · rw [if_pos hc] at h ⊢
      simp only [Option.bind_eq_bind, Option.bind_eq_some_iff] at h
      obtain ⟨b, h1, h2⟩ := h
      simp only []
      rw [inNodeRange_of h1, of_some, done_bind]
      cases b with
      | true => exact ih (by omega) h2
      | false =>
        simp only [Bool.false_eq_true, if_false, Option.bind_eq_some_iff] at h2 ⊢
        obtain ⟨_, _, _, _, h3⟩ := h2
        exact ih (by omega) h3
    · rw [if_neg hc] at h ⊢; cases h; rfl

/-- a number of iterations that suffices for both loops of `search_min_tree` -/
def enough (v : Machine.BpVector) (block : Word) : Nat := (v.internalNodes + block / 32).toNat + 1 + v.internalNodes.toNat

theorem searchMinTree_of {v : Machine.BpVector} {fwd : Bool} {fuel : Nat} {b : Word} {e : Int} {r : Word} (hf : enough v b ≤ fuel)
    (h : v.searchMinTree fwd b e = some r) : searchMinTree v fwd fuel b e = .done r := by
  unfold enough at hf
  simp only [Machine.BpVector.searchMinTree, Option.bind_eq_bind, Option.bind_eq_some_iff] at h
  obtain ⟨x, h1, h2⟩ := h
  unfold searchMinTree
  rw [searchBlock_of h1, of_some, done_bind]
  cases x with
  | some x => simp only [pure, Option.some.injEq] at h2; subst h2; rfl
  | none =>
    simp only [Option.bind_eq_some_iff] at h2
    obtain ⟨t, h3, _, _, lf, h4, y, h5, h6⟩ := h2
    simp only []
    rw [treeUp_of (by omega) h3, done_bind, treeDown_of (by omega) h4, done_bind, searchBlock_of h5, of_some, done_bind, h6]
    rfl

theorem findClose_of (ov : Word → Nat → Word) {v : Machine.BpVector} {pos r : Word} {fuel : Nat}
    (hf : enough v ((pos + 1) / 64 / 4 + 1) ≤ fuel) (h : v.findClose ov pos = some r) : findClose ov v fuel pos = .done r := by
  unfold Machine.BpVector.findClose at h
  unfold findClose
  simp only [Option.bind_eq_bind] at h
  rw [Option.bind_eq_some_iff] at h
  obtain ⟨_, _, h⟩ := h
  rw [Option.bind_eq_some_iff] at h
  obtain ⟨_, _, h⟩ := h
  rw [Option.bind_eq_some_iff] at h
  obtain ⟨w, hw, h⟩ := h
  simp only []
  rw [hw, of_some, done_bind]
  generalize (w >>> ((pos + 1) % 64).toNat) ||| (negBool ((pos + 1) % 64 ≠ 0) &&& shlOv ov (BitVec.allOnes 64) (64 - (pos + 1) % 64).toNat) = pw at h ⊢
  generalize byteCounts pw = bc at h ⊢
  rw [Option.bind_eq_some_iff] at h
  obtain ⟨x, h1, h⟩ := h
  rw [findCloseInWord_of h1, of_some, done_bind]
  cases x with
  | some x => simp only [pure, Option.some.injEq] at h; subst h; rfl
  | none =>
    simp only [] at h ⊢
    unfold closeRest
    generalize bytesSum bc = bs at h ⊢
    rw [Option.bind_eq_some_iff] at h
    obtain ⟨e1, h2, h⟩ := h
    rw [Option.bind_eq_some_iff] at h
    obtain ⟨y, h3, h⟩ := h
    simp only []
    rw [h2, of_some, done_bind, findCloseInBlock_of h3, of_some, done_bind]
    cases y with
    | some y => simp only [pure, Option.some.injEq] at h; subst h; rfl
    | none =>
      simp only [Option.bind_eq_some_iff] at h ⊢
      obtain ⟨pe, h4, f, h5, fe, h6, e2, h7, z, h8, h9⟩ := h
      unfold closeFar
      rw [excess_of h4, of_some, done_bind, searchMinTree_of hf h5, done_bind, blockExcess_of h6, of_some, done_bind, h7, of_some, done_bind,
        findCloseInBlock_of h8, of_some, done_bind, h9]
      rfl

theorem findOpen_of (ov : Word → Nat → Word) {v : Machine.BpVector} {pos r : Word} {fuel : Nat}
    (hf : enough v (pos / 64 / 4 - 1) ≤ fuel) (h : v.findOpen ov pos = some r) : findOpen ov v fuel pos = .done r := by
  unfold Machine.BpVector.findOpen at h
  unfold findOpen
  simp only [Option.bind_eq_bind] at h
  rw [Option.bind_eq_some_iff] at h
  obtain ⟨_, _, h⟩ := h
  rw [Option.bind_eq_some_iff] at h
  obtain ⟨w, hw, h⟩ := h
  simp only []
  rw [hw, of_some, done_bind]
  generalize (negBool (pos % 64 ≠ 0) &&& shlOv ov w (64 - pos % 64).toNat) = pw at h ⊢
  generalize byteCounts pw = bc at h ⊢
  rw [Option.bind_eq_some_iff] at h
  obtain ⟨x, h1, h⟩ := h
  rw [findOpenInWord_of h1, of_some, done_bind]
  cases x with
  | some x => simp only [pure, Option.some.injEq] at h; subst h; rfl
  | none =>
    simp only [] at h ⊢
    unfold openRest
    generalize bytesSum bc = bs at h ⊢
    rw [Option.bind_eq_some_iff] at h
    obtain ⟨e0, h0, h⟩ := h
    rw [Option.bind_eq_some_iff] at h
    obtain ⟨e1, h2, h⟩ := h
    rw [Option.bind_eq_some_iff] at h
    obtain ⟨y, h3, h⟩ := h
    simp only []
    rw [h0, of_some, done_bind, h2, of_some, done_bind, findOpenInBlock_of h3, of_some, done_bind]
    cases y with
    | some y => simp only [pure, Option.some.injEq] at h; subst h; rfl
    | none =>
      simp only [Option.bind_eq_some_iff] at h ⊢
      obtain ⟨pe, h4, pe', h4', f, h5, fe, h6, e2, h7, z, h8, h9⟩ := h
      unfold openFar
      rw [excess_of h4, of_some, done_bind, h4', of_some, done_bind, searchMinTree_of hf h5, done_bind, blockExcess_of h6, of_some, done_bind, h7,
        of_some, done_bind, findOpenInBlock_of h8, of_some, done_bind, h9]
      rfl

theorem enclose_of (ov : Word → Nat → Word) {v : Machine.BpVector} {pos r : Word} {fuel : Nat}
    (hf : enough v (pos / 64 / 4 - 1) ≤ fuel) (h : v.enclose ov pos = some r) : enclose ov v fuel pos = .done r := by
  simp only [Machine.BpVector.enclose, Option.bind_eq_bind, Option.bind_eq_some_iff] at h
  obtain ⟨_, _, _, _, h⟩ := h
  exact findOpen_of ov hf h

end Release
end Succinct
