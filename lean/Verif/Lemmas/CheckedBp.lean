import Verif.Model.CheckedBp
import Verif.Lemmas.Checked
import Verif.Lemmas.MachineBp

/-! # Safety of the checked queries: balanced parentheses and Cartesian trees -/
namespace Succinct
namespace Checked
open Broadword
open Machine (vlen s32)

theorem Safe.i32c (x : Int) : Safe True (i32c x) := by
  unfold Checked.i32c
  split <;> trivial

theorem Safe.top {α : Type} {ar : Prop} {x : Run α} (h : Safe ar x) : Safe True x := h.mono fun _ => trivial

namespace Bp

theorem byteAt_ok {word s : Word} {n : Nat} (h : Machine.Bp.byteAt word s = some n) : byteAt word s = .ok n := by
  unfold Machine.Bp.byteAt at h
  unfold byteAt sr
  by_cases hs : s.toNat < 64
  · rw [shr_eq _ _ hs, RSBitVector.bind_pure_some] at h
    rw [if_pos hs]
    cases h
    rfl
  · unfold shr at h
    rw [if_neg hs] at h
    cases h

theorem raw_ok {α : Type} {v : List α} {i : Nat} {x : α} (h : v[i]? = some x) : raw v i = .ok x := by
  unfold raw; rw [h]

theorem chk_of {p : Prop} [Decidable p] (h : p) : chk p = .ok () := by
  unfold Checked.chk; rw [if_pos h]

theorem closeResult_ok {word cum : Word} {o : Option Nat} {r : Option Word} (h : Machine.Bp.closeResult word cum o = some r) :
    closeResult word cum o = .ok r := by
  cases o with
  | none => cases h; rfl
  | some n =>
    simp only [Machine.Bp.closeResult, Option.bind_eq_bind, Option.bind_eq_some_iff] at h
    obtain ⟨c, hc, e, he, b, hb, _, hp, h⟩ := h
    cases h
    unfold closeResult
    dsimp only
    rw [byteAt_ok hc]
    show (byteAt cum _ >>= _) = _
    rw [byteAt_ok he]
    show (raw _ _ >>= _) = _
    rw [raw_ok hb]
    show (chk _ >>= _) = _
    rw [chk_of (Machine.assert_of hp)]
    rfl

theorem openResult_ok {word cum : Word} {o : Option Nat} {r : Option Word} (h : Machine.Bp.openResult word cum o = some r) :
    openResult word cum o = .ok r := by
  cases o with
  | none => cases h; rfl
  | some n =>
    simp only [Machine.Bp.openResult, Option.bind_eq_bind, Option.bind_eq_some_iff] at h
    obtain ⟨c, hc, e, he, b, hb, _, hp, h⟩ := h
    cases h
    unfold openResult
    dsimp only
    rw [byteAt_ok hc]
    show (byteAt cum _ >>= _) = _
    rw [byteAt_ok he]
    show (raw _ _ >>= _) = _
    rw [raw_ok hb]
    show (chk _ >>= _) = _
    rw [chk_of (Machine.assert_of hp)]
    rfl

theorem findCloseInWord_safe {ar : Prop} (word : Word) (e : Int) : Safe ar (findCloseInWord word (byteCounts word) e) := by
  unfold findCloseInWord
  refine Safe.chk_bind fun h => ?_
  obtain ⟨r, hr⟩ : ∃ r, Succinct.Bp.findCloseInWord word (byteCounts word) e = some r := by
    rcases Succinct.Bp.findCloseInWord_spec word e (by omega) h.2 with ⟨h, _⟩ | ⟨r, h, _⟩
    · exact ⟨_, h⟩
    · exact ⟨_, h⟩
  have h2 := Machine.Bp.findCloseInWord_sim hr
  unfold Machine.Bp.findCloseInWord at h2
  rw [assertP_eq _ h, RSBitVector.bind_pure_some] at h2
  rw [closeResult_ok h2]
  trivial

theorem findOpenInWord_safe {ar : Prop} (word : Word) (e : Int) : Safe ar (findOpenInWord word (byteCounts word) e) := by
  unfold findOpenInWord
  refine Safe.chk_bind fun h => ?_
  obtain ⟨r, hr⟩ : ∃ r, Succinct.Bp.findOpenInWord word (byteCounts word) e = some r := by
    rcases Succinct.Bp.findOpenInWord_spec word e (by omega) h.2 with ⟨h, _⟩ | ⟨r, h, _⟩
    · exact ⟨_, h⟩
    · exact ⟨_, h⟩
  have h2 := Machine.Bp.findOpenInWord_sim hr
  unfold Machine.Bp.findOpenInWord at h2
  rw [assertP_eq _ h, RSBitVector.bind_pure_some] at h2
  rw [openResult_ok h2]
  trivial

theorem rmqByteLoop_safe (word : Word) : ∀ (is : List Nat) (s : Succinct.Bp.RmqByte), Safe True (rmqByteLoop word is s) := by
  intro is
  induction is with
  | nil => intro s; exact Safe.pure _
  | cons i is ih =>
    intro s
    exact Safe.bind (Safe.bind (Safe.i32c _) fun _ _ => Safe.bind (Safe.i32c _) fun _ _ => Safe.pure _) fun _ _ => ih _

theorem rmqInWord_safe (word st : Word) (s : Machine.Bp.Rmq) : Safe True (rmqInWord word st s) := by
  unfold rmqInWord
  refine Safe.bind (rmqByteLoop_safe _ _ _) fun b _ => ?_
  split
  · exact Safe.bind (Safe.bind (Safe.sr (.inr trivial)) fun _ _ => Safe.pure _) fun _ _ => Safe.pure _
  · exact Safe.pure _

end Bp

namespace BpVector
open Succinct.Checked.Bp

theorem foundIt_safe {ar : Prop} (r : Option Word) : Safe ar (foundIt r) := by
  cases r <;> trivial

theorem blockExcess_safe {ar : Prop} (rs : Machine.RSBitVector) (b : Word) : Safe ar (blockExcess rs b) :=
  Safe.bind (RSBitVector.subBlockRank_safe _ _) fun _ _ => Safe.chk_bind fun _ => Safe.pure _

theorem excess_safe {ar : Prop} {v : Machine.BpVector} (h : 2 ≤ v.rs.pairs.length) (pos : Word) : Safe ar (excess v pos) :=
  Safe.bind (RSBitVector.rank_safe h pos) fun _ _ => Safe.pure _

theorem toNat_succ {w : Word} (h : w.toNat + 1 < 2^64) : (w + 1).toNat = w.toNat + 1 := Machine.toNat_add_lt w 1 h

theorem closeLoop_safe (bits : List Word) (bo : Word) : ∀ (fuel : Nat) (off : Word) (e : Int), 4 ≤ off.toNat + fuel →
    Safe True (closeLoop bits bo fuel off e) := by
  intro fuel
  induction fuel with
  | zero =>
    intro off e h
    unfold closeLoop
    rw [if_neg]
    · exact Safe.pure _
    · intro h1
      have h1 : off.toNat < 4 := h1
      omega
  | succ fuel ih =>
    intro off e h
    unfold closeLoop
    split
    · rename_i h1
      have h1 : off.toNat < 4 := h1
      refine Safe.bind (Safe.vat _ _) fun w _ => Safe.chk_bind fun _ => Safe.bind ?_ fun r _ => ?_
      · unfold closeWord
        split
        · exact findCloseInWord_safe _ _
        · exact Safe.pure _
      · cases r with
        | some _ => exact Safe.pure _
        | none =>
          refine Safe.bind (Safe.i32c _) fun _ _ => ih _ _ ?_
          rw [toNat_succ (by omega)]
          omega
    · exact Safe.pure _

theorem findCloseInBlock_safe (bits : List Word) (bo : Word) (e : Int) (start : Word) : Safe True (findCloseInBlock bits bo e start) := by
  unfold findCloseInBlock
  split
  · exact Safe.pure _
  · exact Safe.chk_bind fun _ => closeLoop_safe _ _ _ _ _ (by omega)

theorem openLoop_safe (bits : List Word) (bo : Word) : ∀ (fuel : Nat) (off : Word) (e : Int), (off + 1).toNat ≤ fuel →
    Safe True (openLoop bits bo fuel off e) := by
  intro fuel
  induction fuel with
  | zero =>
    intro off e h
    unfold openLoop
    rw [if_neg]
    · exact Safe.pure _
    · intro h1
      have h1 : 0 < (off + 1).toNat := h1
      omega
  | succ fuel ih =>
    intro off e h
    unfold openLoop
    split
    · rename_i h1
      have h1 : 0 < (off + 1).toNat := h1
      refine Safe.chk_bind fun _ => Safe.bind (Safe.vat _ _) fun w _ => Safe.bind ?_ fun r _ => ?_
      · unfold openWord
        split
        · exact findOpenInWord_safe _ _
        · exact Safe.pure _
      · cases r with
        | some _ => exact Safe.pure _
        | none =>
          refine Safe.bind (Safe.i32c _) fun _ _ => ih _ _ ?_
          have e1 : off - 1 + 1 = off := by bv_omega
          have e2 : (off + 1).toNat = off.toNat + 1 := by bv_omega
          rw [e1]
          omega
    · exact Safe.pure _

theorem findOpenInBlock_safe (bits : List Word) (bo : Word) (e : Int) (start : Word) (h : start.toNat ≤ 4) : Safe True (findOpenInBlock bits bo e start) := by
  unfold findOpenInBlock
  split
  · exact Safe.pure _
  · refine Safe.chk_bind fun _ => openLoop_safe _ _ _ _ _ ?_
    have e1 : start - 1 + 1 = start := by bv_omega
    rw [e1]
    exact h

theorem searchFwd_safe (mins : List Int) (e x : Int) (stop : Word) : ∀ (fuel : Nat) (block : Word), stop.toNat ≤ block.toNat + fuel →
    Safe True (searchFwd mins e x stop fuel block) := by
  intro fuel
  induction fuel with
  | zero =>
    intro block h
    unfold searchFwd
    rw [if_neg]
    · exact Safe.pure _
    · intro h1
      have h1 : block.toNat < stop.toNat := h1
      omega
  | succ fuel ih =>
    intro block h
    unfold searchFwd
    split
    · rename_i h1
      have h1 : block.toNat < stop.toNat := h1
      refine Safe.bind (Safe.vat _ _) fun m _ => Safe.bind (Safe.i32c _) fun y _ => ?_
      split
      · exact Safe.pure _
      · refine ih _ ?_
        have := stop.isLt
        rw [toNat_succ (by omega)]
        omega
    · exact Safe.pure _

theorem searchBwd_safe (mins : List Int) (e x : Int) (sb : Word) : ∀ (fuel : Nat) (block : Word), (block + 1).toNat ≤ (sb * 32).toNat + fuel → (sb * 32).toNat + 1 < 2^64 →
    Safe True (searchBwd mins e x sb fuel block) := by
  intro fuel
  induction fuel with
  | zero =>
    intro block h h2
    unfold searchBwd
    rw [if_neg]
    · exact Safe.pure _
    · intro h1
      have h1 : (sb * 32 + 1).toNat ≤ (block + 1).toNat := h1
      rw [toNat_succ h2] at h1
      omega
  | succ fuel ih =>
    intro block h h2
    unfold searchBwd
    split
    · rename_i h1
      have h1 : (sb * 32 + 1).toNat ≤ (block + 1).toNat := h1
      rw [toNat_succ h2] at h1
      refine Safe.bind (Safe.vat _ _) fun m _ => Safe.bind (Safe.i32c _) fun y _ => ?_
      split
      · exact Safe.pure _
      · refine ih _ ?_ h2
        have e1 : block - 1 + 1 = block := by bv_omega
        have e2 : (block + 1).toNat = block.toNat + 1 := by bv_omega
        rw [e1]
        omega
    · exact Safe.pure _

theorem div_mul_32 (b : Word) : (b / 32 * 32).toNat = b.toNat / 32 * 32 := by
  have : (b / 32).toNat = b.toNat / 32 := by rw [BitVec.toNat_udiv]; rfl
  have hb := b.isLt
  rw [BitVec.toNat_mul, this, show (32 : Word).toNat = 32 from rfl, Nat.mod_eq_of_lt (by omega)]

theorem searchBlock_safe (v : Machine.BpVector) (fwd : Bool) (block : Word) (e : Int) : Safe True (searchBlockInSuperblock v fwd block e) := by
  unfold searchBlockInSuperblock
  refine Safe.bind (blockExcess_safe _ _) fun x _ => ?_
  have hb := block.isLt
  have e1 := div_mul_32 block
  have e3 : (block / 32).toNat = block.toNat / 32 := by rw [BitVec.toNat_udiv]; rfl
  have e2 : ((block / 32 + 1) * 32).toNat ≤ block.toNat / 32 * 32 + 32 := by
    rw [BitVec.toNat_mul, toNat_succ (by omega), e3, show (32 : Word).toNat = 32 from rfl]
    refine Nat.le_trans (Nat.mod_le _ _) (by omega)
  split
  · refine searchFwd_safe _ _ _ _ _ _ ?_
    unfold Machine.BpVector.minW
    split
    · rename_i h
      have h : (vlen v.blockMin).toNat < ((block / 32 + 1) * 32).toNat := h
      omega
    · omega
  · refine searchBwd_safe _ _ _ _ _ _ ?_ (by omega)
    rw [e1]
    have : (block + 1).toNat ≤ block.toNat + 1 := by bv_omega
    omega

theorem inNodeRange_safe {ar : Prop} (v : Machine.BpVector) (node : Word) (e : Int) : Safe ar (inNodeRange v node e) :=
  Safe.bind (Safe.vat _ _) fun _ _ => Safe.chk_bind fun _ => Safe.pure _

theorem inNodeRange_ok {v : Machine.BpVector} {node : Word} {e : Int} {b : Bool} (h : inNodeRange v node e = .ok b) :
    node.toNat < v.superMin.length := by
  unfold inNodeRange at h
  obtain ⟨_, h, _⟩ := bind_ok h
  exact (vat_ok h).1

theorem siblingHit_safe {ar : Prop} (v : Machine.BpVector) (fwd : Bool) (node : Word) (e : Int) : Safe ar (siblingHit v fwd node e) := by
  unfold siblingHit
  split
  · exact Safe.pure _
  · exact Safe.bind (inNodeRange_safe _ _ _) fun _ _ => Safe.pure _

theorem siblingHit_ok {v : Machine.BpVector} {fwd : Bool} {node : Word} {e : Int} {n : Word} (h : siblingHit v fwd node e = .ok (some n)) :
    n.toNat < v.superMin.length := by
  unfold siblingHit at h
  split at h
  · cases h
  · obtain ⟨b, h1, h2⟩ := bind_ok h
    cases b
    · cases h2
    · cases h2
      exact inNodeRange_ok h1

theorem half_lt (node : Word) : (node / 2).toNat = node.toNat / 2 := by rw [BitVec.toNat_udiv]; rfl

theorem ne0 {w : Word} (h : w ≠ 0) : w.toNat ≠ 0 := fun e => h (BitVec.eq_of_toNat_eq (by simpa using e))

theorem treeUp_safe {ar : Prop} (v : Machine.BpVector) (fwd : Bool) (e : Int) : ∀ (fuel : Nat) (node : Word), node.toNat ≤ fuel →
    Safe ar (treeUp v fwd e fuel node) := by
  intro fuel
  induction fuel with
  | zero =>
    intro node h
    unfold treeUp
    exact Safe.chk_bind fun h0 => absurd (Nat.le_zero.1 h) (ne0 h0)
  | succ fuel ih =>
    intro node h
    unfold treeUp
    refine Safe.chk_bind fun h0 => Safe.bind (siblingHit_safe _ _ _ _) fun r _ => ?_
    have := ne0 h0
    cases r with
    | some _ => exact Safe.pure _
    | none => exact ih _ (by rw [half_lt]; omega)

theorem treeUp_ok (v : Machine.BpVector) (fwd : Bool) (e : Int) : ∀ (fuel : Nat) (node n : Word), treeUp v fwd e fuel node = .ok n →
    n.toNat < v.superMin.length := by
  intro fuel
  induction fuel with
  | zero =>
    intro node n h
    unfold treeUp at h
    obtain ⟨_, _, h⟩ := bind_ok h
    obtain ⟨r, h1, h2⟩ := bind_ok h
    cases r with
    | some _ => cases h2; exact siblingHit_ok h1
    | none => cases h2
  | succ fuel ih =>
    intro node n h
    unfold treeUp at h
    obtain ⟨_, _, h⟩ := bind_ok h
    obtain ⟨r, h1, h2⟩ := bind_ok h
    cases r with
    | some _ => cases h2; exact siblingHit_ok h1
    | none => exact ih _ _ h2

theorem dbl {node : Word} (h : node.toNat < 2^62) : (node * 2).toNat = node.toNat * 2 := by
  rw [BitVec.toNat_mul, show (2 : Word).toNat = 2 from rfl, Nat.mod_eq_of_lt (by omega)]

theorem treeDown_safe {ar : Prop} (v : Machine.BpVector) (hs : v.superMin.length ≤ 2^62) (fwd : Bool) (e : Int) : ∀ (fuel : Nat) (node : Word), node ≠ 0 →
    node.toNat < v.superMin.length → v.internalNodes.toNat ≤ node.toNat + fuel → Safe ar (treeDown v fwd e fuel node) := by
  intro fuel
  induction fuel with
  | zero =>
    intro node _ _ h
    unfold treeDown
    rw [if_neg]
    · exact Safe.pure _
    · intro h1
      have h1 : node.toNat < v.internalNodes.toNat := h1
      omega
  | succ fuel ih =>
    intro node h0 hn h
    unfold treeDown
    split
    · have hd := dbl (node := node) (by omega)
      have hz := ne0 h0
      have hd1 := toNat_succ (w := node * 2) (by omega)
      refine Safe.bind (inNodeRange_safe _ _ _) fun b hb => ?_
      have hb := inNodeRange_ok hb
      split
      · cases fwd
        · rw [show node * 2 + (1 - Machine.BpVector.dir false) = node * 2 + 1 from rfl] at hb ⊢
          exact ih _ (fun e => by rw [e] at hd1; simp at hd1) hb (by omega)
        · rw [show node * 2 + (1 - Machine.BpVector.dir true) = node * 2 from BitVec.add_zero _] at hb ⊢
          exact ih _ (fun e => by rw [e] at hd; simp at hd; omega) hb (by omega)
      · refine Safe.bind (inNodeRange_safe _ _ _) fun b' hb' => Safe.chk_bind fun _ => ?_
        have hb' := inNodeRange_ok hb'
        cases fwd
        · have e1 : Machine.BpVector.otherNode false (node * 2 + (1 - Machine.BpVector.dir false)) = node * 2 := by
            show node * 2 + (1 - 0) - 1 = node * 2
            bv_omega
          rw [e1] at hb' ⊢
          exact ih _ (fun e => by rw [e] at hd; simp at hd; omega) hb' (by omega)
        · have e1 : Machine.BpVector.otherNode true (node * 2 + (1 - Machine.BpVector.dir true)) = node * 2 + 1 := by
            show node * 2 + (1 - 1) + 1 = node * 2 + 1
            bv_omega
          rw [e1] at hb' ⊢
          exact ih _ (fun e => by rw [e] at hd1; simp at hd1) hb' (by omega)
    · exact Safe.pure _

theorem searchMinTree_safe (v : Machine.BpVector) (hs : v.superMin.length ≤ 2^62) (fwd : Bool) (block : Word) (e : Int) :
    Safe True (searchMinTree v fwd block e) := by
  unfold searchMinTree
  refine Safe.bind (searchBlock_safe _ _ _ _) fun r _ => ?_
  cases r with
  | some _ => exact Safe.pure _
  | none =>
    refine Safe.bind (treeUp_safe _ _ _ _ _ (Nat.le_refl _)) fun top ht => Safe.chk_bind fun h0 => ?_
    refine Safe.bind (treeDown_safe v hs fwd e _ _ h0 (treeUp_ok _ _ _ _ _ _ ht) (by omega)) fun leaf _ => ?_
    exact Safe.bind (searchBlock_safe _ _ _ _) fun r _ => foundIt_safe r

theorem findClose_safe (ov : Word → Nat → Word) (v : Machine.BpVector) (hp : 2 ≤ v.rs.pairs.length) (hs : v.superMin.length ≤ 2^62) (pos : Word) :
    Safe True (findClose ov v pos) := by
  unfold findClose
  refine Safe.bind (BitVector.access_safe _ _).top fun _ _ => Safe.chk_bind fun _ => Safe.bind (Safe.vat _ _) fun w _ => ?_
  refine Safe.bind (findCloseInWord_safe _ _) fun r _ => ?_
  cases r with
  | some _ => exact Safe.pure _
  | none =>
    refine Safe.bind (Safe.i32c _) fun _ _ => Safe.bind (findCloseInBlock_safe _ _ _ _) fun r _ => ?_
    cases r with
    | some _ => exact Safe.pure _
    | none =>
      refine Safe.bind (excess_safe hp _) fun _ _ => Safe.bind (searchMinTree_safe v hs _ _ _) fun _ _ => ?_
      refine Safe.bind (blockExcess_safe _ _) fun _ _ => Safe.bind (Safe.i32c _) fun _ _ => ?_
      exact Safe.bind (findCloseInBlock_safe _ _ _ _) fun r _ => foundIt_safe r

theorem findOpen_safe (ov : Word → Nat → Word) (v : Machine.BpVector) (hp : 2 ≤ v.rs.pairs.length) (hs : v.superMin.length ≤ 2^62) (pos : Word) :
    Safe True (findOpen ov v pos) := by
  unfold findOpen
  refine Safe.chk_bind fun _ => Safe.bind (Safe.vat _ _) fun w _ => ?_
  refine Safe.bind (findOpenInWord_safe _ _) fun r _ => ?_
  cases r with
  | some _ => exact Safe.pure _
  | none =>
    refine Safe.bind (Safe.i32c _) fun _ _ => Safe.bind (Safe.i32c _) fun _ _ => Safe.bind (findOpenInBlock_safe _ _ _ _ ?_) fun r _ => ?_
    · rw [BitVec.toNat_umod]
      exact Nat.le_of_lt (Nat.mod_lt _ (by decide))
    cases r with
    | some _ => exact Safe.pure _
    | none =>
      refine Safe.bind (excess_safe hp _) fun _ _ => Safe.bind (Safe.i32c _) fun _ _ => Safe.bind (searchMinTree_safe v hs _ _ _) fun _ _ => ?_
      refine Safe.bind (blockExcess_safe _ _) fun _ _ => Safe.bind (Safe.i32c _) fun _ _ => ?_
      exact Safe.bind (findOpenInBlock_safe _ _ _ _ (by decide)) fun r _ => foundIt_safe r

theorem enclose_safe (ov : Word → Nat → Word) (v : Machine.BpVector) (hp : 2 ≤ v.rs.pairs.length) (hs : v.superMin.length ≤ 2^62) (pos : Word) :
    Safe True (enclose ov v pos) :=
  Safe.bind (BitVector.access_safe _ _).top fun _ _ => Safe.chk_bind fun _ => findOpen_safe ov v hp hs pos

theorem rmqWords_safe (bits : List Word) (stop : Word) : ∀ (fuel : Nat) (w : Word) (s : Machine.Bp.Rmq), stop.toNat ≤ w.toNat + fuel →
    Safe True (rmqWords bits stop fuel w s) := by
  intro fuel
  induction fuel with
  | zero =>
    intro w s h
    unfold rmqWords
    rw [if_neg]
    · exact Safe.pure _
    · intro h1
      have h1 : w.toNat < stop.toNat := h1
      omega
  | succ fuel ih =>
    intro w s h
    unfold rmqWords
    split
    · rename_i h1
      have h1 : w.toNat < stop.toNat := h1
      have := stop.isLt
      refine Safe.bind (Safe.vat _ _) fun _ _ => Safe.bind (rmqInWord_safe _ _ _) fun _ _ => ih _ _ ?_
      rw [toNat_succ (by omega)]
      omega
    · exact Safe.pure _

theorem same_group {start stop : Word} (k : Nat) (hk0 : 0 < k) (hk : k < 2^64) (h1 : start ≤ stop) (h2 : start ≠ stop)
    (h3 : start / BitVec.ofNat 64 k = (stop - 1) / BitVec.ofNat 64 k) : stop.toNat ≤ start.toNat + k := by
  have h1 : start.toNat ≤ stop.toNat := h1
  have h2 : start.toNat ≠ stop.toNat := fun e => h2 (BitVec.eq_of_toNat_eq e)
  have e1 : (stop - 1).toNat = stop.toNat - 1 := Machine.toNat_sub_le _ _ (by show 1 ≤ stop.toNat; omega)
  have h4 := congrArg BitVec.toNat h3
  rw [BitVec.toNat_udiv, BitVec.toNat_udiv, e1, BitVec.toNat_ofNat, Nat.mod_eq_of_lt hk] at h4
  have d1 := Nat.div_add_mod start.toNat k
  have d2 := Nat.div_add_mod (stop.toNat - 1) k
  rw [← h4] at d2
  have m2 := Nat.mod_lt (stop.toNat - 1) hk0
  omega

theorem rmqInBlock_safe (bits : List Word) (start stop : Word) (s : Machine.Bp.Rmq) : Safe True (rmqInBlock bits start stop s) := by
  unfold rmqInBlock
  refine Safe.chk_bind fun h1 => ?_
  split
  · exact Safe.pure _
  · rename_i h2
    exact Safe.chk_bind fun h3 => rmqWords_safe _ _ _ _ _ (same_group 4 (by decide) (by decide) h1 h2 h3)

theorem rmqBlocks_safe (mins : List Int) (x : Int) (stop : Word) : ∀ (fuel : Nat) (b : Word) (s : Int × Word), stop.toNat ≤ b.toNat + fuel →
    Safe True (rmqBlocks mins x stop fuel b s) := by
  intro fuel
  induction fuel with
  | zero =>
    intro b s h
    unfold rmqBlocks
    rw [if_neg]
    · exact Safe.pure _
    · intro h1
      have h1 : b.toNat < stop.toNat := h1
      omega
  | succ fuel ih =>
    intro b s h
    unfold rmqBlocks
    split
    · rename_i h1
      have h1 : b.toNat < stop.toNat := h1
      have := stop.isLt
      refine Safe.bind (Safe.vat _ _) fun _ _ => Safe.bind (Safe.i32c _) fun _ _ => ih _ _ ?_
      rw [toNat_succ (by omega)]
      omega
    · exact Safe.pure _

theorem rmqInSuperblock_safe (v : Machine.BpVector) (start stop : Word) (s : Int × Word) : Safe True (rmqInSuperblock v start stop s) := by
  unfold rmqInSuperblock
  refine Safe.chk_bind fun h1 => ?_
  split
  · exact Safe.pure _
  · rename_i h2
    refine Safe.chk_bind fun h3 => Safe.bind (blockExcess_safe _ _) fun _ _ => ?_
    exact rmqBlocks_safe _ _ _ _ _ _ (same_group 32 (by decide) (by decide) h1 h2 h3)

theorem betterNode_safe {ar : Prop} (tree : List Int) (c : Bool) (node : Word) (s : Int × Word) : Safe ar (betterNode tree c node s) := by
  unfold betterNode
  split
  · exact Safe.bind (Safe.vat _ _) fun _ _ => Safe.pure _
  · exact Safe.pure _

/-- a node of the tree, not the unused entry 0 -/
def Node (tree : List Int) (n : Word) : Prop := n ≠ 0 ∧ n.toNat < tree.length

theorem betterNode_ok {tree : List Int} {c : Bool} {node : Word} {s r : Int × Word} (h : betterNode tree c node s = .ok r)
    (hn : node ≠ 0) (hs : Node tree s.2) : Node tree r.2 := by
  unfold betterNode at h
  split at h
  · obtain ⟨x, h1, h2⟩ := bind_ok h
    have h1 := (vat_ok h1).1
    split at h2
    · cases h2; exact ⟨hn, h1⟩
    · cases h2; exact hs
  · cases h; exact hs

theorem even_succ {w : Word} (h : w &&& 1 = 0) : w + 1 ≠ 0 := by
  intro e
  have h1 : w.toNat &&& 1 = 0 := by
    have := congrArg BitVec.toNat h
    rwa [BitVec.toNat_and] at this
  rw [Nat.and_one_is_mod] at h1
  bv_omega

theorem walkUp_safe (tree : List Int) (stop : Word) : ∀ (fuel : Nat) (s : Machine.BpVector.Walk), s.node.toNat ≤ fuel →
    Safe True (walkUp tree stop fuel s) := by
  intro fuel
  induction fuel with
  | zero =>
    intro s h
    unfold walkUp
    exact Safe.chk_bind fun h0 => absurd (Nat.le_zero.1 h) (ne0 h0)
  | succ fuel ih =>
    intro s h
    unfold walkUp
    refine Safe.chk_bind fun h0 => ?_
    have := ne0 h0
    split
    · refine Safe.bind (Safe.sl (.inr trivial)) fun _ _ => Safe.bind (betterNode_safe _ _ _ _) fun _ _ => ?_
      split
      · exact Safe.pure _
      · exact ih _ (by show (s.node / 2).toNat ≤ _; rw [half_lt]; omega)
    · exact ih _ (by show (s.node / 2).toNat ≤ _; rw [half_lt]; omega)

theorem walkUp_ok (tree : List Int) (stop : Word) : ∀ (fuel : Nat) (s u : Machine.BpVector.Walk), walkUp tree stop fuel s = .ok u →
    (s.node ≠ 0 → Node tree s.best.2) → Node tree u.best.2 := by
  intro fuel
  induction fuel with
  | zero =>
    intro s u h hs
    unfold walkUp at h
    obtain ⟨_, h0, h⟩ := bind_ok h
    have hs := hs (chk_ok h0)
    split at h
    · rename_i hev
      obtain ⟨p, _, h⟩ := bind_ok h
      obtain ⟨b, hb, h⟩ := bind_ok h
      split at h
      · cases h
        exact betterNode_ok hb (even_succ hev) hs
      · cases h
    · cases h
  | succ fuel ih =>
    intro s u h hs
    unfold walkUp at h
    obtain ⟨_, h0, h⟩ := bind_ok h
    have hs := hs (chk_ok h0)
    split at h
    · rename_i hev
      obtain ⟨p, _, h⟩ := bind_ok h
      obtain ⟨b, hb, h⟩ := bind_ok h
      split at h
      · cases h
        exact betterNode_ok hb (even_succ hev) hs
      · exact ih _ _ h fun _ => betterNode_ok hb (even_succ hev) hs
    · exact ih _ _ h fun _ => hs

theorem walkDown_safe (tree : List Int) (stop : Word) : ∀ (fuel : Nat) (s : Machine.BpVector.Walk), s.h.toNat ≤ fuel →
    Safe True (walkDown tree stop fuel s) := by
  intro fuel
  induction fuel with
  | zero =>
    intro s h
    unfold walkDown
    split
    · refine Safe.chk_bind fun _ => Safe.chk_bind fun h0 => ?_
      have h0 : 0 < s.h.toNat := h0
      omega
    · exact Safe.pure _
  | succ fuel ih =>
    intro s h
    unfold walkDown
    split
    · refine Safe.chk_bind fun _ => Safe.chk_bind fun h0 => Safe.bind (Safe.sl (.inr trivial)) fun _ _ => ?_
      have h0 : 0 < s.h.toNat := h0
      have e1 : (s.h - 1).toNat = s.h.toNat - 1 := Machine.toNat_sub_le _ _ (by show 1 ≤ s.h.toNat; omega)
      split
      · exact ih _ (by show (s.h - 1).toNat ≤ _; omega)
      · exact Safe.bind (betterNode_safe _ _ _ _) fun _ _ => ih _ (by show (s.h - 1).toNat ≤ _; omega)
    · exact Safe.pure _

theorem walkDown_ok (tree : List Int) (hs : tree.length ≤ 2^62) (stop : Word) : ∀ (fuel : Nat) (s u : Machine.BpVector.Walk), walkDown tree stop fuel s = .ok u →
    s.node ≠ 0 → Node tree s.best.2 → u.node ≠ 0 ∧ Node tree u.best.2 := by
  intro fuel
  induction fuel with
  | zero =>
    intro s u h h1 h2
    unfold walkDown at h
    split at h
    · obtain ⟨_, _, h⟩ := bind_ok h
      obtain ⟨_, _, h⟩ := bind_ok h
      cases h
    · cases h
      exact ⟨h1, h2⟩
  | succ fuel ih =>
    intro s u h h1 h2
    unfold walkDown at h
    split at h
    · obtain ⟨_, hn, h⟩ := bind_ok h
      obtain ⟨_, _, h⟩ := bind_ok h
      obtain ⟨p, _, h⟩ := bind_ok h
      have hn : s.node.toNat < (vlen tree).toNat := chk_ok hn
      have hv : (vlen tree).toNat ≤ tree.length := by
        unfold vlen
        rw [BitVec.toNat_ofNat]
        exact Nat.mod_le _ _
      have hd := dbl (node := s.node) (by omega)
      have hz := ne0 h1
      have hd1 := toNat_succ (w := s.node * 2) (by omega)
      have l0 : s.node * 2 ≠ 0 := fun e => by rw [e] at hd; simp at hd; omega
      have l1 : s.node * 2 + 1 ≠ 0 := fun e => by rw [e] at hd1; simp at hd1
      split at h
      · exact ih _ _ h l0 h2
      · obtain ⟨b, hb, h⟩ := bind_ok h
        exact ih _ _ h l1 (betterNode_ok hb l0 h2)
    · cases h
      exact ⟨h1, h2⟩

theorem minLeaf_safe {ar : Prop} (tree : List Int) (hs : tree.length ≤ 2^62) (internal : Word) : ∀ (fuel : Nat) (node : Word), Node tree node →
    internal.toNat ≤ node.toNat + fuel → Safe ar (minLeaf tree internal fuel node) := by
  intro fuel
  induction fuel with
  | zero =>
    intro node hn h
    unfold minLeaf
    rw [if_neg]
    · exact Safe.pure _
    · intro h1
      have h1 : node.toNat < internal.toNat := h1
      omega
  | succ fuel ih =>
    intro node hn h
    unfold minLeaf
    split
    · have hd := dbl (node := node) (by have := hn.2; omega)
      have hz := ne0 hn.1
      have hd1 := toNat_succ (w := node * 2) (by have := hn.2; omega)
      have l0 : node * 2 ≠ 0 := fun e => by rw [e] at hd; simp at hd; omega
      have l1 : node * 2 + 1 ≠ 0 := fun e => by rw [e] at hd1; simp at hd1
      refine Safe.bind (Safe.vat _ _) fun a ha => Safe.bind (Safe.vat _ _) fun b hb => ?_
      split
      · exact ih _ ⟨l1, (vat_ok ha).1⟩ (by omega)
      · exact ih _ ⟨l0, (vat_ok hb).1⟩ (by omega)
    · exact Safe.pure _

theorem findMinSuperblock_safe (v : Machine.BpVector) (hs : v.superMin.length ≤ 2^62) (start stop : Word) (s : Int × Word) :
    Safe True (findMinSuperblock v start stop s) := by
  unfold findMinSuperblock
  split
  · exact Safe.pure _
  · refine Safe.bind (Safe.vat _ _) fun m hm => ?_
    split
    · exact Safe.pure _
    · refine Safe.bind (walkUp_safe _ _ _ _ (Nat.le_refl _)) fun u hu => Safe.chk_bind fun h0 => ?_
      have hu := walkUp_ok _ _ _ _ _ hu fun h => ⟨h, (vat_ok hm).1⟩
      refine Safe.bind (walkDown_safe _ _ _ _ (Nat.le_refl _)) fun w hw => ?_
      have hw := walkDown_ok _ hs _ _ _ _ hw h0 hu
      refine Safe.bind (betterNode_safe _ _ _ _) fun b hb => Safe.chk_bind fun _ => ?_
      have hb := betterNode_ok hb hw.1 hw.2
      split
      · refine Safe.bind (minLeaf_safe _ hs _ _ _ hb (by omega)) fun leaf _ => Safe.bind (Safe.vat _ _) fun x _ => ?_
        exact Safe.chk_bind fun _ => Safe.chk_bind fun _ => Safe.chk_bind fun _ => Safe.pure _
      · exact Safe.pure _

theorem rmqMiddle_safe (v : Machine.BpVector) (hs : v.superMin.length ≤ 2^62) (ba bb : Word) (m : Int) : Safe True (rmqMiddle v ba bb m) := by
  unfold rmqMiddle
  dsimp only
  split
  · exact rmqInSuperblock_safe _ _ _ _
  · refine Safe.bind (rmqInSuperblock_safe _ _ _ _) fun _ _ => Safe.bind (findMinSuperblock_safe v hs _ _ _) fun t _ => ?_
    refine Safe.bind ?_ fun _ _ => rmqInSuperblock_safe _ _ _ _
    unfold rmqSuper
    split
    · exact rmqInSuperblock_safe _ _ _ _
    · exact Safe.pure _

theorem rmqInner_safe (v : Machine.BpVector) (hs : v.superMin.length ≤ 2^62) (wa wb : Word) (s : Machine.Bp.Rmq) : Safe True (rmqInner v wa wb s) := by
  unfold rmqInner
  dsimp only
  split
  · exact rmqInBlock_safe _ _ _ _
  · refine Safe.bind (rmqInBlock_safe _ _ _ _) fun _ _ => Safe.bind (rmqMiddle_safe v hs _ _ _) fun b _ => ?_
    refine Safe.bind ?_ fun _ _ => Safe.bind (blockExcess_safe _ _) fun _ _ => rmqInBlock_safe _ _ _ _
    unfold rmqBest
    split
    · exact Safe.bind (blockExcess_safe _ _) fun _ _ => Safe.bind (rmqInBlock_safe _ _ _ _) fun _ _ => Safe.chk_bind fun _ => Safe.pure _
    · exact Safe.pure _

theorem excessRmq_safe (v : Machine.BpVector) (hp : 2 ≤ v.rs.pairs.length) (hs : v.superMin.length ≤ 2^62) (a b : Word) : Safe True (excessRmq v a b) := by
  unfold excessRmq
  refine Safe.chk_bind fun _ => Safe.bind (excess_safe hp _) fun _ _ => ?_
  split
  · exact Safe.pure _
  · refine Safe.bind (Safe.vat _ _) fun _ _ => Safe.bind ?_ fun _ _ => Safe.bind (rmqInWord_safe _ _ _) fun _ _ => ?_
    · unfold padA
      split
      · exact Safe.pure _
      · exact Safe.bind (Safe.sl (.inr trivial)) fun _ _ => Safe.pure _
    · split
      · exact Safe.pure _
      · refine Safe.bind (Safe.i32c _) fun _ _ => Safe.bind (rmqInner_safe v hs _ _ _) fun _ _ => Safe.bind (Safe.vat _ _) fun _ _ => ?_
        refine Safe.bind ?_ fun _ _ => Safe.bind (rmqInWord_safe _ _ _) fun _ _ => Safe.chk_bind fun _ => ?_
        · unfold padB
          split
          · exact Safe.pure _
          · exact Safe.bind (Safe.sl (.inr trivial)) fun _ _ => Safe.pure _
        · exact Safe.bind (excess_safe hp _) fun _ _ => Safe.chk_bind fun _ => Safe.pure _

end BpVector

theorem CartesianTree.rmq_safe (t : Machine.CartesianTree) (hp : 2 ≤ t.bp.rs.pairs.length) (hs : t.bp.superMin.length ≤ 2^62) (a b : Word) :
    Safe True (CartesianTree.rmq t a b) := by
  unfold CartesianTree.rmq
  refine Safe.chk_bind fun _ => ?_
  split
  · exact Safe.pure _
  · refine Safe.bind (RSBitVector.select0_safe hp _) fun _ _ => Safe.bind (Safe.i32c _) fun _ _ => ?_
    refine Safe.bind (BpVector.excess_safe hp _) fun _ _ => Safe.chk_bind fun _ => ?_
    refine Safe.bind (RSBitVector.select0_safe hp _) fun _ _ => Safe.bind (RSBitVector.select0_safe hp _) fun _ _ => ?_
    refine Safe.bind (BpVector.excessRmq_safe _ hp hs _ _) fun _ _ => Safe.bind (BitVector.access_safe _ _).top fun _ _ => ?_
    exact Safe.chk_bind fun _ => Safe.chk_bind fun _ => Safe.chk_bind fun _ => Safe.pure _

end Checked
end Succinct
