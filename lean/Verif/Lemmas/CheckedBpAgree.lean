import Verif.Model.CheckedBp
import Verif.Lemmas.CheckedAgree

/-! # The checked queries of `bp_vector` and `cartesian_tree` and the 64-bit model give the same values -/
namespace Succinct
namespace Checked
open Broadword
open Machine (vlen s32)

theorem Agree.i32c (x : Int) : Agree (Checked.i32c x) (i32 x) := by
  unfold Checked.i32c i32
  split <;> exact .inr rfl

theorem Agree.rawO {α : Type} (v : List α) (i : Nat) : Agree (Checked.raw v i) v[i]? := by
  unfold Checked.raw
  cases v[i]? <;> exact .inr rfl

namespace Bp

theorem byteAt_agree (w s : Word) : Agree (byteAt w s) (Machine.Bp.byteAt w s) := by
  unfold byteAt Machine.Bp.byteAt
  exact Agree.bind (Agree.sr _ _) fun _ => Agree.pure' _

theorem closeResult_agree (w cum : Word) (o : Option Nat) : Agree (closeResult w cum o) (Machine.Bp.closeResult w cum o) := by
  unfold closeResult Machine.Bp.closeResult
  cases o
  · exact Agree.pure' _
  · exact Agree.bind (byteAt_agree _ _) fun _ => Agree.bind (byteAt_agree _ _) fun _ => Agree.bind (Agree.rawO _ _) fun _ =>
      Agree.bind (Agree.chk _) fun _ => Agree.pure' _

theorem openResult_agree (w cum : Word) (o : Option Nat) : Agree (openResult w cum o) (Machine.Bp.openResult w cum o) := by
  unfold openResult Machine.Bp.openResult
  cases o
  · exact Agree.pure' _
  · exact Agree.bind (byteAt_agree _ _) fun _ => Agree.bind (byteAt_agree _ _) fun _ => Agree.bind (Agree.rawO _ _) fun _ =>
      Agree.bind (Agree.chk _) fun _ => Agree.pure' _

theorem findCloseInWord_agree (w bc : Word) (e : Int) : Agree (findCloseInWord w bc e) (Machine.Bp.findCloseInWord w bc e) :=
  Agree.bind (Agree.chk _) fun _ => closeResult_agree _ _ _

theorem findOpenInWord_agree (w bc : Word) (e : Int) : Agree (findOpenInWord w bc e) (Machine.Bp.findOpenInWord w bc e) :=
  Agree.bind (Agree.chk _) fun _ => openResult_agree _ _ _

theorem rmqByteLoop_agree (w : Word) : ∀ (is : List Nat) (s : Succinct.Bp.RmqByte), Agree (rmqByteLoop w is s) (Succinct.Bp.rmqByteLoop w is s) := by
  intro is
  induction is with
  | nil => intro s; exact Agree.pure _
  | cons i is ih =>
    intro s
    exact Agree.bind (Agree.bind (Agree.i32c _) fun _ => Agree.bind (Agree.i32c _) fun _ => Agree.pure' _) fun _ => ih _

theorem rmqInWord_agree (w st : Word) (s : Machine.Bp.Rmq) : Agree (rmqInWord w st s) (Machine.Bp.rmqInWord w st s) := by
  unfold rmqInWord Machine.Bp.rmqInWord
  refine Agree.bind (rmqByteLoop_agree _ _ _) fun _ => Agree.ite ?_ (Agree.pure' _)
  exact Agree.bind (byteAt_agree _ _) fun _ => Agree.pure' _

end Bp

namespace BpVector
open Succinct.Checked.Bp

theorem foundIt_agree (r : Option Word) : Agree (foundIt r) r := by
  cases r <;> exact .inr rfl

theorem blockExcess_agree (rs : Machine.RSBitVector) (b : Word) : Agree (blockExcess rs b) (Machine.BpVector.blockExcess rs b) :=
  Agree.bind (RSBitVector.subBlockRank_agree _ _) fun _ => Agree.bind (Agree.chk _) fun _ => Agree.pure' _

theorem excess_agree (v : Machine.BpVector) (pos : Word) : Agree (excess v pos) (v.excess pos) :=
  Agree.bind (RSBitVector.rank_agree _ _) fun _ => Agree.pure' _

theorem closeWord_agree (w bc : Word) (e : Int) : Agree (closeWord w bc e) (Machine.BpVector.closeWord w bc e) :=
  Agree.ite (findCloseInWord_agree _ _ _) (Agree.pure _)

theorem openWord_agree (w bc : Word) (e : Int) : Agree (openWord w bc e) (Machine.BpVector.openWord w bc e) :=
  Agree.ite (findOpenInWord_agree _ _ _) (Agree.pure _)

theorem closeLoop_agree (bits : List Word) (bo : Word) : ∀ (fuel : Nat) (off : Word) (e : Int),
    Agree (closeLoop bits bo fuel off e) (Machine.BpVector.closeLoop bits bo fuel off e) := by
  intro fuel
  induction fuel with
  | zero =>
    intro off e
    unfold closeLoop Machine.BpVector.closeLoop
    exact Agree.ite Agree.loop (Agree.pure _)
  | succ fuel ih =>
    intro off e
    unfold closeLoop Machine.BpVector.closeLoop
    refine Agree.ite ?_ (Agree.pure _)
    refine Agree.bind (Agree.vat _ _) fun _ => Agree.bind (Agree.chk _) fun _ => Agree.bind (closeWord_agree _ _ _) fun r => ?_
    cases r
    · exact Agree.bind (Agree.i32c _) fun _ => ih _ _
    · exact Agree.pure' _

theorem findCloseInBlock_agree (bits : List Word) (bo : Word) (e : Int) (start : Word) :
    Agree (findCloseInBlock bits bo e start) (Machine.BpVector.findCloseInBlock bits bo e start) :=
  Agree.ite (Agree.pure' _) (Agree.bind (Agree.chk _) fun _ => closeLoop_agree _ _ _ _ _)

theorem openLoop_agree (bits : List Word) (bo : Word) : ∀ (fuel : Nat) (off : Word) (e : Int),
    Agree (openLoop bits bo fuel off e) (Machine.BpVector.openLoop bits bo fuel off e) := by
  intro fuel
  induction fuel with
  | zero =>
    intro off e
    unfold openLoop Machine.BpVector.openLoop
    exact Agree.ite Agree.loop (Agree.pure _)
  | succ fuel ih =>
    intro off e
    unfold openLoop Machine.BpVector.openLoop
    refine Agree.ite ?_ (Agree.pure _)
    refine Agree.bind (Agree.chk _) fun _ => Agree.bind (Agree.vat _ _) fun _ => Agree.bind (openWord_agree _ _ _) fun r => ?_
    cases r
    · exact Agree.bind (Agree.i32c _) fun _ => ih _ _
    · exact Agree.pure' _

theorem findOpenInBlock_agree (bits : List Word) (bo : Word) (e : Int) (start : Word) :
    Agree (findOpenInBlock bits bo e start) (Machine.BpVector.findOpenInBlock bits bo e start) :=
  Agree.ite (Agree.pure _) (Agree.bind (Agree.chk _) fun _ => openLoop_agree _ _ _ _ _)

theorem searchFwd_agree (mins : List Int) (e x : Int) (stop : Word) : ∀ (fuel : Nat) (b : Word),
    Agree (searchFwd mins e x stop fuel b) (Machine.BpVector.searchFwd mins e x stop fuel b) := by
  intro fuel
  induction fuel with
  | zero =>
    intro b
    unfold searchFwd Machine.BpVector.searchFwd
    exact Agree.ite Agree.loop (Agree.pure _)
  | succ fuel ih =>
    intro b
    unfold searchFwd Machine.BpVector.searchFwd
    exact Agree.ite (Agree.bind (Agree.vat _ _) fun _ => Agree.bind (Agree.i32c _) fun _ => Agree.ite (Agree.pure' _) (ih _)) (Agree.pure _)

theorem searchBwd_agree (mins : List Int) (e x : Int) (stop : Word) : ∀ (fuel : Nat) (b : Word),
    Agree (searchBwd mins e x stop fuel b) (Machine.BpVector.searchBwd mins e x stop fuel b) := by
  intro fuel
  induction fuel with
  | zero =>
    intro b
    unfold searchBwd Machine.BpVector.searchBwd
    exact Agree.ite Agree.loop (Agree.pure _)
  | succ fuel ih =>
    intro b
    unfold searchBwd Machine.BpVector.searchBwd
    exact Agree.ite (Agree.bind (Agree.vat _ _) fun _ => Agree.bind (Agree.i32c _) fun _ => Agree.ite (Agree.pure' _) (ih _)) (Agree.pure _)

theorem searchBlock_agree (v : Machine.BpVector) (fwd : Bool) (b : Word) (e : Int) :
    Agree (searchBlockInSuperblock v fwd b e) (v.searchBlockInSuperblock fwd b e) :=
  Agree.bind (blockExcess_agree _ _) fun _ => Agree.ite (searchFwd_agree _ _ _ _ _ _) (searchBwd_agree _ _ _ _ _ _)

theorem inNodeRange_agree (v : Machine.BpVector) (node : Word) (e : Int) : Agree (inNodeRange v node e) (v.inNodeRange node e) :=
  Agree.bind (Agree.vat _ _) fun _ => Agree.bind (Agree.chk _) fun _ => Agree.pure' _

theorem siblingHit_agree (v : Machine.BpVector) (fwd : Bool) (node : Word) (e : Int) : Agree (siblingHit v fwd node e) (v.siblingHit fwd node e) :=
  Agree.ite (Agree.pure _) (Agree.bind (inNodeRange_agree _ _ _) fun _ => Agree.pure' _)

theorem treeUp_agree (v : Machine.BpVector) (fwd : Bool) (e : Int) : ∀ (fuel : Nat) (node : Word),
    Agree (treeUp v fwd e fuel node) (Machine.BpVector.treeUp v fwd e (fuel + 1) node) := by
  intro fuel
  induction fuel with
  | zero =>
    intro node
    unfold treeUp Machine.BpVector.treeUp
    refine Agree.bind (Agree.chk _) fun _ => Agree.bind (siblingHit_agree _ _ _ _) fun r => ?_
    cases r
    · exact Agree.loop
    · exact Agree.pure' _
  | succ fuel ih =>
    intro node
    unfold treeUp Machine.BpVector.treeUp
    refine Agree.bind (Agree.chk _) fun _ => Agree.bind (siblingHit_agree _ _ _ _) fun r => ?_
    cases r
    · exact ih _
    · exact Agree.pure' _

theorem treeDown_agree (v : Machine.BpVector) (fwd : Bool) (e : Int) : ∀ (fuel : Nat) (node : Word),
    Agree (treeDown v fwd e fuel node) (Machine.BpVector.treeDown v fwd e fuel node) := by
  intro fuel
  induction fuel with
  | zero =>
    intro node
    unfold treeDown Machine.BpVector.treeDown
    exact Agree.ite Agree.loop (Agree.pure _)
  | succ fuel ih =>
    intro node
    unfold treeDown Machine.BpVector.treeDown
    refine Agree.ite (Agree.bind (inNodeRange_agree _ _ _) fun _ => Agree.ite (ih _) ?_) (Agree.pure _)
    exact Agree.bind (inNodeRange_agree _ _ _) fun _ => Agree.bind (Agree.chk _) fun _ => ih _

theorem searchMinTree_agree (v : Machine.BpVector) (fwd : Bool) (b : Word) (e : Int) : Agree (searchMinTree v fwd b e) (v.searchMinTree fwd b e) := by
  unfold searchMinTree Machine.BpVector.searchMinTree
  refine Agree.bind (searchBlock_agree _ _ _ _) fun r => ?_
  cases r
  · exact Agree.bind (treeUp_agree _ _ _ _ _) fun _ => Agree.bind (Agree.chk _) fun _ => Agree.bind (treeDown_agree _ _ _ _ _) fun _ =>
      Agree.bind (searchBlock_agree _ _ _ _) fun _ => foundIt_agree _
  · exact Agree.pure' _

theorem findClose_agree (ov : Word → Nat → Word) (v : Machine.BpVector) (pos : Word) : Agree (findClose ov v pos) (v.findClose ov pos) := by
  unfold findClose Machine.BpVector.findClose
  refine Agree.bind (BitVector.access_agree _ _) fun _ => Agree.bind (Agree.chk _) fun _ => Agree.bind (Agree.vat _ _) fun _ =>
    Agree.bind (findCloseInWord_agree _ _ _) fun r => ?_
  cases r
  · refine Agree.bind (Agree.i32c _) fun _ => Agree.bind (findCloseInBlock_agree _ _ _ _) fun r => ?_
    cases r
    · exact Agree.bind (excess_agree _ _) fun _ => Agree.bind (searchMinTree_agree _ _ _ _) fun _ => Agree.bind (blockExcess_agree _ _) fun _ =>
        Agree.bind (Agree.i32c _) fun _ => Agree.bind (findCloseInBlock_agree _ _ _ _) fun _ => foundIt_agree _
    · exact Agree.pure' _
  · exact Agree.pure' _

theorem findOpen_agree (ov : Word → Nat → Word) (v : Machine.BpVector) (pos : Word) : Agree (findOpen ov v pos) (v.findOpen ov pos) := by
  unfold findOpen Machine.BpVector.findOpen
  refine Agree.bind (Agree.chk _) fun _ => Agree.bind (Agree.vat _ _) fun _ => Agree.bind (findOpenInWord_agree _ _ _) fun r => ?_
  cases r
  · refine Agree.bind (Agree.i32c _) fun _ => Agree.bind (Agree.i32c _) fun _ => Agree.bind (findOpenInBlock_agree _ _ _ _) fun r => ?_
    cases r
    · exact Agree.bind (excess_agree _ _) fun _ => Agree.bind (Agree.i32c _) fun _ => Agree.bind (searchMinTree_agree _ _ _ _) fun _ =>
        Agree.bind (blockExcess_agree _ _) fun _ => Agree.bind (Agree.i32c _) fun _ => Agree.bind (findOpenInBlock_agree _ _ _ _) fun _ => foundIt_agree _
    · exact Agree.pure' _
  · exact Agree.pure' _

theorem enclose_agree (ov : Word → Nat → Word) (v : Machine.BpVector) (pos : Word) : Agree (enclose ov v pos) (v.enclose ov pos) :=
  Agree.bind (BitVector.access_agree _ _) fun _ => Agree.bind (Agree.chk _) fun _ => findOpen_agree _ _ _

theorem rmqWords_agree (bits : List Word) (stop : Word) : ∀ (fuel : Nat) (w : Word) (s : Machine.Bp.Rmq),
    Agree (rmqWords bits stop fuel w s) (Machine.BpVector.rmqWords bits stop fuel w s) := by
  intro fuel
  induction fuel with
  | zero =>
    intro w s
    unfold rmqWords Machine.BpVector.rmqWords
    exact Agree.ite Agree.loop (Agree.pure _)
  | succ fuel ih =>
    intro w s
    unfold rmqWords Machine.BpVector.rmqWords
    exact Agree.ite (Agree.bind (Agree.vat _ _) fun _ => Agree.bind (rmqInWord_agree _ _ _) fun _ => ih _ _) (Agree.pure _)

theorem rmqInBlock_agree (bits : List Word) (start stop : Word) (s : Machine.Bp.Rmq) :
    Agree (rmqInBlock bits start stop s) (Machine.BpVector.rmqInBlock bits start stop s) :=
  Agree.bind (Agree.chk _) fun _ => Agree.ite (Agree.pure' _) (Agree.bind (Agree.chk _) fun _ => rmqWords_agree _ _ _ _ _)

theorem rmqBlocks_agree (mins : List Int) (x : Int) (stop : Word) : ∀ (fuel : Nat) (b : Word) (s : Int × Word),
    Agree (rmqBlocks mins x stop fuel b s) (Machine.BpVector.rmqBlocks mins x stop fuel b s) := by
  intro fuel
  induction fuel with
  | zero =>
    intro b s
    unfold rmqBlocks Machine.BpVector.rmqBlocks
    exact Agree.ite Agree.loop (Agree.pure _)
  | succ fuel ih =>
    intro b s
    unfold rmqBlocks Machine.BpVector.rmqBlocks
    exact Agree.ite (Agree.bind (Agree.vat _ _) fun _ => Agree.bind (Agree.i32c _) fun _ => ih _ _) (Agree.pure _)

theorem rmqInSuperblock_agree (v : Machine.BpVector) (start stop : Word) (s : Int × Word) :
    Agree (rmqInSuperblock v start stop s) (v.rmqInSuperblock start stop s) :=
  Agree.bind (Agree.chk _) fun _ => Agree.ite (Agree.pure' _) (Agree.bind (Agree.chk _) fun _ => Agree.bind (blockExcess_agree _ _) fun _ =>
    rmqBlocks_agree _ _ _ _ _ _)

theorem betterNode_agree (tree : List Int) (c : Bool) (node : Word) (s : Int × Word) :
    Agree (betterNode tree c node s) (Machine.BpVector.betterNode tree c node s) :=
  Agree.ite (Agree.bind (Agree.vat _ _) fun _ => Agree.pure' _) (Agree.pure _)

theorem walkUp_agree (tree : List Int) (stop : Word) : ∀ (fuel : Nat) (s : Machine.BpVector.Walk),
    Agree (walkUp tree stop fuel s) (Machine.BpVector.walkUp tree stop (fuel + 1) s) := by
  intro fuel
  induction fuel with
  | zero =>
    intro s
    unfold walkUp Machine.BpVector.walkUp
    exact Agree.bind (Agree.chk _) fun _ => Agree.ite (Agree.bind (Agree.sl _ _) fun _ => Agree.bind (betterNode_agree _ _ _ _) fun _ =>
      Agree.ite (Agree.pure' _) Agree.loop) Agree.loop
  | succ fuel ih =>
    intro s
    unfold walkUp Machine.BpVector.walkUp
    exact Agree.bind (Agree.chk _) fun _ => Agree.ite (Agree.bind (Agree.sl _ _) fun _ => Agree.bind (betterNode_agree _ _ _ _) fun _ =>
      Agree.ite (Agree.pure' _) (ih _)) (ih _)

theorem walkDown_agree (tree : List Int) (stop : Word) : ∀ (fuel : Nat) (s : Machine.BpVector.Walk),
    Agree (walkDown tree stop fuel s) (Machine.BpVector.walkDown tree stop fuel s) := by
  intro fuel
  induction fuel with
  | zero =>
    intro s
    unfold walkDown Machine.BpVector.walkDown
    refine Agree.ite ?_ (Agree.pure _)
    unfold chk
    split
    · split <;> exact .inr rfl
    · exact .inr rfl
  | succ fuel ih =>
    intro s
    unfold walkDown Machine.BpVector.walkDown
    refine Agree.ite ?_ (Agree.pure _)
    exact Agree.bind (Agree.chk _) fun _ => Agree.bind (Agree.chk _) fun _ => Agree.bind (Agree.sl _ _) fun _ => Agree.ite (ih _)
      (Agree.bind (betterNode_agree _ _ _ _) fun _ => ih _)

theorem minLeaf_agree (tree : List Int) (stop : Word) : ∀ (fuel : Nat) (n : Word),
    Agree (minLeaf tree stop fuel n) (Machine.BpVector.minLeaf tree stop fuel n) := by
  intro fuel
  induction fuel with
  | zero =>
    intro n
    unfold minLeaf Machine.BpVector.minLeaf
    exact Agree.ite Agree.loop (Agree.pure _)
  | succ fuel ih =>
    intro n
    unfold minLeaf Machine.BpVector.minLeaf
    exact Agree.ite (Agree.bind (Agree.vat _ _) fun _ => Agree.bind (Agree.vat _ _) fun _ => ih _) (Agree.pure _)

theorem findMinSuperblock_agree (v : Machine.BpVector) (start stop : Word) (s : Int × Word) :
    Agree (findMinSuperblock v start stop s) (v.findMinSuperblock start stop s) := by
  unfold findMinSuperblock Machine.BpVector.findMinSuperblock
  refine Agree.ite (Agree.pure' _) (Agree.bind (Agree.vat _ _) fun _ => Agree.ite (Agree.pure' _) ?_)
  refine Agree.bind (walkUp_agree _ _ _ _) fun _ => Agree.bind (Agree.chk _) fun _ => Agree.bind (walkDown_agree _ _ _ _) fun _ =>
    Agree.bind (betterNode_agree _ _ _ _) fun _ => Agree.bind (Agree.chk _) fun _ => Agree.ite ?_ (Agree.pure' _)
  exact Agree.bind (minLeaf_agree _ _ _ _) fun _ => Agree.bind (Agree.vat _ _) fun _ => Agree.bind (Agree.chk _) fun _ =>
    Agree.bind (Agree.chk _) fun _ => Agree.bind (Agree.chk _) fun _ => Agree.pure' _

theorem rmqMiddle_agree (v : Machine.BpVector) (ba bb : Word) (m : Int) : Agree (rmqMiddle v ba bb m) (v.rmqMiddle ba bb m) :=
  Agree.ite (rmqInSuperblock_agree _ _ _ _) (Agree.bind (rmqInSuperblock_agree _ _ _ _) fun _ => Agree.bind (findMinSuperblock_agree _ _ _ _) fun _ =>
    Agree.bind (Agree.ite (rmqInSuperblock_agree _ _ _ _) (Agree.pure _)) fun _ => rmqInSuperblock_agree _ _ _ _)

theorem rmqBest_agree (v : Machine.BpVector) (b : Int × Word) (s : Machine.Bp.Rmq) : Agree (rmqBest v b s) (v.rmqBest b s) :=
  Agree.ite (Agree.bind (blockExcess_agree _ _) fun _ => Agree.bind (rmqInBlock_agree _ _ _ _) fun _ => Agree.bind (Agree.chk _) fun _ =>
    Agree.pure' _) (Agree.pure _)

theorem rmqInner_agree (v : Machine.BpVector) (wa wb : Word) (s : Machine.Bp.Rmq) : Agree (rmqInner v wa wb s) (v.rmqInner wa wb s) :=
  Agree.ite (rmqInBlock_agree _ _ _ _) (Agree.bind (rmqInBlock_agree _ _ _ _) fun _ => Agree.bind (rmqMiddle_agree _ _ _ _) fun _ =>
    Agree.bind (rmqBest_agree _ _ _) fun _ => Agree.bind (blockExcess_agree _ _) fun _ => rmqInBlock_agree _ _ _ _)

theorem padA_agree (w l : Word) : Agree (padA w l) (Machine.BpVector.padA w l) :=
  Agree.ite (Agree.pure _) (Agree.bind (Agree.sl _ _) fun _ => Agree.pure' _)

theorem padB_agree (w l : Word) : Agree (padB w l) (Machine.BpVector.padB w l) :=
  Agree.ite (Agree.pure _) (Agree.bind (Agree.sl _ _) fun _ => Agree.pure' _)

theorem excessRmq_agree (v : Machine.BpVector) (a b : Word) : Agree (excessRmq v a b) (v.excessRmq a b) := by
  unfold excessRmq Machine.BpVector.excessRmq
  refine Agree.bind (Agree.chk _) fun _ => Agree.bind (excess_agree _ _) fun _ => Agree.ite (Agree.pure' _) ?_
  refine Agree.bind (Agree.vat _ _) fun _ => Agree.bind (padA_agree _ _) fun _ => Agree.bind (rmqInWord_agree _ _ _) fun _ => Agree.ite (Agree.pure' _) ?_
  refine Agree.bind (Agree.i32c _) fun _ => Agree.bind (rmqInner_agree _ _ _ _) fun _ => Agree.bind (Agree.vat _ _) fun _ => ?_
  refine Agree.bind (padB_agree _ _) fun _ => Agree.bind (rmqInWord_agree _ _ _) fun _ => Agree.bind (Agree.chk _) fun _ => ?_
  exact Agree.bind (excess_agree _ _) fun _ => Agree.bind (Agree.chk _) fun _ => Agree.pure' _

end BpVector

theorem CartesianTree.rmq_agree (t : Machine.CartesianTree) (a b : Word) : Agree (CartesianTree.rmq t a b) (t.rmq a b) := by
  unfold CartesianTree.rmq Machine.CartesianTree.rmq
  refine Agree.bind (Agree.chk _) fun _ => Agree.ite (Agree.pure' _) ?_
  refine Agree.bind (RSBitVector.select0_agree _ _) fun _ => Agree.bind (Agree.i32c _) fun _ => Agree.bind (BpVector.excess_agree _ _) fun _ => ?_
  refine Agree.bind (Agree.chk _) fun _ => Agree.bind (RSBitVector.select0_agree _ _) fun _ => Agree.bind (RSBitVector.select0_agree _ _) fun _ => ?_
  refine Agree.bind2 (BpVector.excessRmq_agree _ _ _) fun _ _ => Agree.bind (BitVector.access_agree _ _) fun _ => ?_
  exact Agree.bind (Agree.chk _) fun _ => Agree.bind (Agree.chk _) fun _ => Agree.bind (Agree.chk _) fun _ => Agree.pure' _

end Checked
end Succinct
