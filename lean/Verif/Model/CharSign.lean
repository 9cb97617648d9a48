import Verif.Model.CartesianTree

/-! # Platforms where `char` is unsigned

`excess_tables::m_fwd_exc` (`bp_vector.cpp:62`) has the element type `char`, whose signedness is
implementation-defined (unsigned e.g. by default on Linux for ARM).  The functions below are those of
`Model/BpVector.lean` and `Model/CartesianTree.lean` that read this table directly or indirectly, with
the signedness as the parameter `u` (`true`: unsigned). -/
namespace Succinct
open Broadword

namespace Bp

/-- `m_fwd_exc[c] = (char)excess` (`bp_vector.cpp:40`) read back as an `int` -/
def charOf (u : Bool) (x : Int) : Int := if u then x % 256 else Int.bmod x 256

/-- body of the loop `bp_vector.cpp:128-138` -/
def rmqByteStepC (u : Bool) (word : Word) (s : RmqByte) (i : Nat) : Option RmqByte := do
  let byte := byteOf word (i * 8)
  let curMin ← i32 (s.exc - (fwdRow byte).min)
  let exc ← i32 (s.exc + charOf u (fwdRow byte).exc)
  pure (if curMin < s.min then ⟨exc, curMin, i⟩ else ⟨exc, s.min, s.byteIdx⟩)

/-- the loop `bp_vector.cpp:128-138` -/
def rmqByteLoopC (u : Bool) (word : Word) : List Nat → RmqByte → Option RmqByte
  | [], s => some s
  | i :: is, s => do
    let s' ← rmqByteStepC u word s i
    rmqByteLoopC u word is s'

/-- `bp_vector.cpp:121-145` -/
def rmqInWordC (u : Bool) (word : Word) (wordStart : Nat) (s : Rmq) : Option Rmq := do
  let b ← rmqByteLoopC u word (List.range 8) ⟨s.exc, s.min, 0⟩
  pure (if b.min < s.min then
      ⟨b.exc, b.min, wordStart + b.byteIdx * 8 + (fwdRow (byteOf word (b.byteIdx * 8))).minIdx⟩
    else ⟨b.exc, s.min, s.idx⟩)

end Bp
open Bp

namespace BpVector

/-- the loop `bp_vector.cpp:375-378`; `k` words are left -/
def rmqWordsC (u : Bool) (bits : List Word) : Nat → Nat → Rmq → Option Rmq
  | 0, _, s => some s
  | k + 1, w, s => do
    let word ← rd bits w
    let s ← rmqInWordC u word (w * 64) s
    rmqWordsC u bits k (w + 1) s

/-- `bp_vector.cpp:365-379` -/
def rmqInBlockC (u : Bool) (bits : List Word) (start stop : Nat) (s : Rmq) : Option Rmq := do
  assertP (start ≤ stop)
  if start = stop then pure s
  else do
    assertP (start / 4 = (stop - 1) / 4)
    rmqWordsC u bits (stop - start) start s

/-- `bp_vector.cpp:596-602` -/
def rmqBestC (u : Bool) (v : BpVector) (b : Int × Nat) (s : Rmq) : Option Rmq :=
  if b.1 < s.min then do
    let e ← blockExcess v.rs b.2
    let s ← rmqInBlockC u v.rs.bv.bits (b.2 * 4) ((b.2 + 1) * 4) ⟨e, s.min, s.idx⟩
    assertP (s.min = b.1)
    pure s
  else some s

/-- `bp_vector.cpp:543-608` -/
def rmqInnerC (u : Bool) (v : BpVector) (wa wb : Nat) (s : Rmq) : Option Rmq := do
  let ba := wa / 4
  let bb := wb / 4
  if ba = bb then rmqInBlockC u v.rs.bv.bits (wa + 1) wb s
  else do
    let s ← rmqInBlockC u v.rs.bv.bits (wa + 1) ((ba + 1) * 4) s
    let b ← rmqMiddle v ba bb s.min
    let s ← rmqBestC u v b s
    let e ← blockExcess v.rs bb
    rmqInBlockC u v.rs.bv.bits (bb * 4) wb ⟨e, s.min, s.idx⟩

/-- `bp_vector.cpp:508-625` -/
def excessRmqC (u : Bool) (v : BpVector) (a b : Nat) : Option (Nat × Int) := do
  assertP (a ≤ b)
  let cur ← excess v a
  if a = b then pure (a, cur)
  else do
    let rangeLen := b - a
    let wa := a / 64
    let wb := (b - 1) / 64
    let shiftA := a % 64
    let w ← rd v.rs.bv.bits wa
    let lenA := min (64 - shiftA) rangeLen
    let s ← rmqInWordC u (padOpen (w >>> shiftA) lenA) a ⟨cur, cur, a⟩
    if wa = wb then pure (s.idx, s.min)
    else do
      let e ← i32 (s.exc - (64 - (lenA : Int)))
      let s ← rmqInnerC u v wa wb ⟨e, s.min, s.idx⟩
      let w ← rd v.rs.bv.bits wb
      let offB := b % 64
      let s ← rmqInWordC u (padOpen w (if offB = 0 then 64 else offB)) (wb * 64) s
      assertP (s.idx ≥ a)
      let chk ← excess v s.idx
      assertP (s.min = chk)
      pure (s.idx, s.min)

end BpVector

namespace CartesianTree

/-- `cartesian_tree.hpp:113-136` -/
def rmqDistinctC (u : Bool) (t : CartesianTree) (a b : Nat) : Option Nat := do
  let n ← size t
  let nb ← subU n b
  let nb1 ← subU nb 1
  let tp ← t.bp.rs.select0 nb1
  let excT := toI32 ((tp : Int) - 2 * nb1)
  let excT1 ← i32 (excT - 1)
  let e ← t.bp.excess (tp + 1)
  assertP (excT1 = e)
  let x ← t.bp.rs.select0 nb
  let na ← subU n a
  let y ← t.bp.rs.select0 na
  let (w, excW) ← t.bp.excessRmqC u x y
  let rank0 ← rank0At w excW
  let w1 ← subU w 1
  let bit ← t.bp.rs.bv.access w1
  assertP (bit = false)
  let ret ← pick n b excW excT1 rank0
  assertP (ret ≥ a)
  assertP (ret ≤ b)
  pure ret

/-- `cartesian_tree.hpp:106-137` -/
def rmqC (u : Bool) (t : CartesianTree) (a b : Nat) : Option Nat := do
  assertP (a ≤ b)
  if a = b then pure a else rmqDistinctC u t a b

end CartesianTree
end Succinct
