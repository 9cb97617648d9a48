import Verif.Model.CharSign
import Verif.Props.BpVector
import Verif.Props.CartesianTree

/-!
# C70: the answers do not depend on the signedness of `char`

Full claim: `excess_rmq` and `rmq` answer correctly whether the platform's `char` is signed or not.  It is
**false** (`C70_excess_rmq_false`, `C70_rmq_false`): where `char` is unsigned, a byte with more closing
than opening parentheses counts as an excess of about 250.  Proved: the claim for signed `char`.
-/
namespace Succinct
open Spec
open RSBitVector (bind_pure_some)

namespace Bp

theorem fwdRow_exc_small : ∀ c : Fin 256, -8 ≤ (fwdRow c.val).exc ∧ (fwdRow c.val).exc ≤ 8 := by decide +kernel

theorem charOf_signed (word : Word) (i : Nat) : charOf false (fwdRow (byteOf word (i * 8))).exc = (fwdRow (byteOf word (i * 8))).exc := by
  have := fwdRow_exc_small ⟨byteOf word (i * 8), by rw [Nat.mul_comm]; exact byteOf_lt word i⟩
  simp only at this
  unfold charOf
  rw [if_neg (by simp), Int.bmod_def]
  split <;> omega

theorem rmqByteStepC_signed (word : Word) (s : RmqByte) (i : Nat) : rmqByteStepC false word s i = rmqByteStep word s i := by
  unfold rmqByteStepC rmqByteStep
  simp only [charOf_signed]

theorem rmqByteLoopC_signed (word : Word) (is : List Nat) (s : RmqByte) : rmqByteLoopC false word is s = rmqByteLoop word is s := by
  induction is generalizing s with
  | nil => rfl
  | cons i is ih => unfold rmqByteLoopC rmqByteLoop; simp only [rmqByteStepC_signed, ih]

theorem rmqInWordC_signed (word : Word) (start : Nat) (s : Rmq) : rmqInWordC false word start s = rmqInWord word start s := by
  unfold rmqInWordC rmqInWord
  simp only [rmqByteLoopC_signed]

end Bp
open Bp

namespace BpVector

theorem rmqWordsC_signed (bits : List Word) (k w : Nat) (s : Rmq) : rmqWordsC false bits k w s = rmqWords bits k w s := by
  induction k generalizing w s with
  | zero => rfl
  | succ k ih => unfold rmqWordsC rmqWords; simp only [rmqInWordC_signed, ih]

theorem rmqInBlockC_signed (bits : List Word) (a b : Nat) (s : Rmq) : rmqInBlockC false bits a b s = rmqInBlock bits a b s := by
  unfold rmqInBlockC rmqInBlock
  simp only [rmqWordsC_signed]

theorem rmqBestC_signed (v : BpVector) (b : Int × Nat) (s : Rmq) : rmqBestC false v b s = rmqBest v b s := by
  unfold rmqBestC rmqBest
  simp only [rmqInBlockC_signed]

theorem rmqInnerC_signed (v : BpVector) (a b : Nat) (s : Rmq) : rmqInnerC false v a b s = rmqInner v a b s := by
  unfold rmqInnerC rmqInner
  simp only [rmqInBlockC_signed, rmqBestC_signed]

theorem excessRmqC_signed (v : BpVector) (a b : Nat) : excessRmqC false v a b = excessRmq v a b := by
  unfold excessRmqC excessRmq
  simp only [rmqInWordC_signed, rmqInnerC_signed]

end BpVector

theorem CartesianTree.rmqC_signed (t : CartesianTree) (a b : Nat) : t.rmqC false a b = t.rmq a b := by
  unfold rmqC rmq rmqDistinctC rmqDistinct
  simp only [BpVector.excessRmqC_signed]

/-- **C70** (partial), `excess_rmq` where `char` is signed.  Missing: unsigned `char`, for which it is
false. -/
theorem C70_excess_rmq_partial (l : List Bool) (hints hints0 : Bool) (hl : Bal l) (hlen : l.length < 2^31) :
    ∃ v, BpVector.build (BitVector.ofRange l) hints hints0 = some v ∧
      ∀ a b, a ≤ b → b ≤ l.length → ∃ p, v.excessRmqC false a b = some (p, Spec.excess l p) ∧ IsExcessRmq l a b p := by
  obtain ⟨v, e, h⟩ := C35_excess_rmq l hints hints0 hl hlen
  exact ⟨v, e, fun a b hab hb => by rw [BpVector.excessRmqC_signed]; exact h a b hab hb⟩

/-- **C70** (partial), `cartesian_tree::rmq` where `char` is signed. -/
theorem C70_rmq_partial {α : Type} (comp : α → α → Bool) (ho : StrictWeak comp) (v : List α) (hv : v.length < 2^30 - 1) :
    ∃ t, CartesianTree.build comp v = some t ∧
      ∀ a b, a ≤ b → b < v.length → ∃ m, t.rmqC false a b = some m ∧ IsLeftmostMin comp v a b m := by
  obtain ⟨t, e, h⟩ := C36_rmq comp ho v hv
  exact ⟨t, e, fun a b hab hb => by rw [CartesianTree.rmqC_signed]; exact h a b hab hb⟩

/-- **C70**: what the table holds for a byte.  Where `char` is signed it is the excess of its eight bits; where it is unsigned, a negative
excess has become one that is 256 too large. -/
theorem C70_table (c : Fin 256) :
    let e := Spec.excess ((List.range 8).map c.val.testBit) 8
    Bp.charOf false (Bp.fwdRow c).exc = e ∧ Bp.charOf true (Bp.fwdRow c).exc = if 0 ≤ e then e else e + 256 := by
  revert c; decide +kernel

/-- sixteen opening and sixteen closing parentheses -/
def nested16 : List Bool := List.replicate 16 true ++ List.replicate 16 false

/-- **C70**: with unsigned `char`, `excess_rmq(16, 32)` of sixteen nested pairs is 24, not 32. -/
theorem C70_excess_rmq_false :
    ∃ v, Bal nested16 ∧ BpVector.build (BitVector.ofRange nested16) false false = some v ∧
      v.excessRmqC true 16 32 = some (24, 8) ∧ ¬ IsExcessRmq nested16 16 32 24 := by
  have hb : Bal nested16 := bal_deep 16
  obtain ⟨v, e, _⟩ := C35_excess_rmq nested16 false false hb (by decide)
  refine ⟨v, hb, e, ?_, ?_⟩
  · have : (BpVector.build (BitVector.ofRange nested16) false false >>= fun v => v.excessRmqC true 16 32) = some (24, 8) := by decide +kernel
    rw [e, bind_pure_some] at this
    exact this
  · rintro ⟨_, _, h, _⟩
    have := h 32 (by omega) (by omega)
    revert this
    decide +kernel

/-- **C70**: with unsigned `char`, the minimum of the increasing sequence `0, …, 9` is reported to be at
index 1. -/
theorem C70_rmq_false :
    ∃ t, CartesianTree.build (fun a b : Nat => decide (a < b)) (List.range 10) = some t ∧ t.rmqC true 0 9 = some 1 ∧
      IsLeftmostMin (fun a b : Nat => decide (a < b)) (List.range 10) 0 9 0 := by
  obtain ⟨t, e, h⟩ := C36_rmq _ natLt_strictWeak (List.range 10) (by decide)
  refine ⟨t, e, ?_, ?_⟩
  · have : (CartesianTree.build (fun a b : Nat => decide (a < b)) (List.range 10) >>= fun t => t.rmqC true 0 9) = some 1 := by decide +kernel
    rw [e, bind_pure_some] at this
    exact this
  · obtain ⟨m, q, hm⟩ := h 0 9 (by omega) (by simp)
    have : (CartesianTree.build (fun a b : Nat => decide (a < b)) (List.range 10) >>= fun t => t.rmq 0 9) = some 0 := by decide +kernel
    rw [e, bind_pure_some, q] at this
    cases this
    exact hm

/-- the same query where `char` is signed -/
example : (CartesianTree.build (fun a b : Nat => decide (a < b)) (List.range 10) >>= fun t => t.rmqC false 0 9) = some 0 := by decide +kernel

end Succinct
