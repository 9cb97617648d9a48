import Verif.Model.BpVector
import Verif.Model.Darray
import Verif.Model.TopK

/-! # Queries whose loops are cut off after a given number of iterations

The models of the queries give every loop enough fuel to run as long as the structure could make it run.  The
definitions below are the same queries with the fuel of every loop that is not bounded by a constant replaced by
`k`; `none` is the outcome when `k` iterations do not suffice.  `Props/Work` shows for which `k` nothing changes. -/
namespace Succinct

/-- `darray.hpp:74-105`, at most `k` words read by the loop 96-103 -/
def Darray.selectWithin (k : Nat) (neg : Bool) (d : Darray) (bv : BitVector) (idx : Nat) : Option Nat := do
  assertP (idx < d.positions)
  let blockPos ← rd d.inv.block (idx / 1024)
  if blockPos < 0 then
    rd d.inv.overflow ((-blockPos - 1).toNat + idx % 1024)
  else
    let sub ← rd d.inv.subblock (idx / 32)
    selectFrom (getWord neg bv.bits) k (blockPos.toNat + sub) (idx % 32)

/-- `darray64.hpp:76-102`, at most `k` words read by the loop 93-100 -/
def Darray64.selectWithin (k : Nat) (d : Darray64) (idx : Nat) : Option Nat := do
  assertP (idx < d.numOnes)
  let blockPos ← rd d.block (idx / 1024)
  let sub ← rd d.subblock (idx / 64)
  Darray.selectFrom (rd d.bits.bits) k (blockPos + sub) (idx % 64)

namespace RSBitVector

/-- `rs_bit_vector.hpp:70-110`, at most `k` iterations of the loop 84-94 -/
def selectWithin (k : Nat) (v : RSBitVector) (n : Nat) : Option Nat := do
  let ones ← numOnes v
  assertP (n < ones)
  let nb ← numBlocks v.pairs
  let (a, b) ← interval v.hints nb n
  let block ← bsearch (blockRank v.pairs) n k a b
  assertP (block < nb)
  let blockOffset := block * 8
  let curRank ← blockRank v.pairs block
  assertP (curRank ≤ n)
  let subRanks ← subBlockRanks v.pairs block
  let off := subBlockOffset (BitVec.ofNat 64 subRanks) (n - curRank)
  let x ← shr (BitVec.ofNat 64 subRanks) ((7 - off) * 9)
  let curRank := curRank + (x &&& 0x1FF#64).toNat
  assertP (curRank ≤ n)
  let wordOffset := blockOffset + off
  let w ← rd v.bv.bits wordOffset
  let s ← Broadword.selectInWord w (n - curRank)
  pure (wordOffset * 64 + s)

/-- `rs_bit_vector.hpp:113-152`, at most `k` iterations of the loop 127-137 -/
def select0Within (k : Nat) (v : RSBitVector) (n : Nat) : Option Nat := do
  let zeros ← numZeros v
  assertP (n < zeros)
  let nb ← numBlocks v.pairs
  let (a, b) ← interval v.hints0 nb n
  let block ← bsearch (blockRank0 v.pairs) n k a b
  assertP (block < nb)
  let blockOffset := block * 8
  let curRank ← blockRank0 v.pairs block
  assertP (curRank ≤ n)
  let sbr ← subBlockRanks v.pairs block
  let subRanks := 64#64 * Broadword.invCountStep9 - BitVec.ofNat 64 sbr
  let off := subBlockOffset subRanks (n - curRank)
  let x ← shr subRanks ((7 - off) * 9)
  let curRank := curRank + (x &&& 0x1FF#64).toNat
  assertP (curRank ≤ n)
  let wordOffset := blockOffset + off
  let w ← rd v.bv.bits wordOffset
  let s ← Broadword.selectInWord (~~~w) (n - curRank)
  pure (wordOffset * 64 + s)

end RSBitVector

namespace BpVector
open Bp

/-- `bp_vector.cpp:312-356`, at most `k` iterations of the loops 322-333 and 337-348 each -/
def searchMinTreeWithin (k : Nat) (v : BpVector) (fwd : Bool) (block : Nat) (excess : Int) : Option Nat := do
  let r ← searchBlockInSuperblock v fwd block excess
  match r with
  | some b => pure b
  | none => do
    let start := v.internalNodes + block / 32
    let top ← treeUp v fwd excess k start
    assertP (top ≠ 0)
    let leaf ← treeDown v fwd excess k top
    let next ← subU leaf v.internalNodes
    let r ← searchBlockInSuperblock v fwd (next * 32 + (if fwd then 0 else 31)) excess
    r

/-- `bp_vector.cpp:169-207`, with `searchMinTreeWithin` -/
def findCloseWithin (k : Nat) (ov : Word → Nat → Word) (v : BpVector) (pos : Nat) : Option Nat := do
  let b ← v.rs.bv.access pos
  assertP (b = true)
  let wordPos := (pos + 1) / 64
  let shift := (pos + 1) % 64
  let w ← rd v.rs.bv.bits wordPos
  let padded := (w >>> shift) ||| (negBool (shift ≠ 0) &&& shlOv ov (BitVec.allOnes 64) (64 - shift))
  let bc := Broadword.byteCounts padded
  let r ← Bp.findCloseInWord padded bc 1
  match r with
  | some ret => pure (ret + (pos + 1))
  | none => do
    let block := wordPos / 4
    let blockOffset := block * 4
    let subBlock := wordPos % 4
    let localRank ← subU (Broadword.bytesSum bc).toNat shift
    let localExcess := toI32 (2 * (localRank : Int) - (64 - shift : Nat))
    let e1 ← i32 (localExcess + 1)
    let r ← findCloseInBlock v.rs.bv.bits blockOffset e1 (subBlock + 1)
    match r with
    | some ret => pure ret
    | none => do
      let posExcess ← excess v pos
      let found ← searchMinTreeWithin k v true (block + 1) posExcess
      let foundExcess ← blockExcess v.rs found
      let e2 ← i32 (foundExcess - posExcess)
      let r ← findCloseInBlock v.rs.bv.bits (found * 4) e2 0
      r

/-- `bp_vector.cpp:231-269`, with `searchMinTreeWithin` -/
def findOpenWithin (k : Nat) (ov : Word → Nat → Word) (v : BpVector) (pos : Nat) : Option Nat := do
  assertP (pos ≠ 0)
  let wordPos := pos / 64
  let len := pos % 64
  let w ← rd v.rs.bv.bits wordPos
  let shifted := negBool (len ≠ 0) &&& shlOv ov w (64 - len)
  let bc := Broadword.byteCounts shifted
  let r ← Bp.findOpenInWord shifted bc 1
  match r with
  | some ret => subU (ret + pos) 64
  | none => do
    let block := wordPos / 4
    let blockOffset := block * 4
    let subBlock := wordPos % 4
    let localRank := (Broadword.bytesSum bc).toNat
    let localExcess ← i32 (- toI32 (2 * (localRank : Int) - len))
    let e1 ← i32 (localExcess + 1)
    let r ← findOpenInBlock v.rs.bv.bits blockOffset e1 subBlock
    match r with
    | some ret => pure ret
    | none => do
      let e ← excess v pos
      let posExcess ← i32 (e - 1)
      let prev ← subU block 1
      let found ← searchMinTreeWithin k v false prev posExcess
      let foundExcess ← blockExcess v.rs (found + 1)
      let e2 ← i32 (foundExcess - posExcess)
      let r ← findOpenInBlock v.rs.bv.bits (found * 4) e2 4
      r

/-- `bp_vector.hpp:47-50`, with `findOpenWithin` -/
def encloseWithin (k : Nat) (ov : Word → Nat → Word) (v : BpVector) (pos : Nat) : Option Nat := do
  let b ← v.rs.bv.access pos
  assertP (b = true)
  findOpenWithin k ov v pos

/-- `bp_vector.cpp:403-506`, at most `k` iterations of the loops 428-450, 455-475 and 490-497 each -/
def findMinSuperblockWithin (k : Nat) (v : BpVector) (start stop : Nat) (s : Int × Nat) : Option (Int × Nat) := do
  if start = stop then pure s
  else do
    let node := v.internalNodes + start
    let m ← rd v.superMin node
    let d ← subU stop start
    if d = 1 then pure (m, start)
    else do
      let u ← walkUp v.superMin stop k ⟨node, start, 0, (m, node)⟩
      assertP (u.node ≠ 0)
      assertP (u.h ≤ k)
      let w ← walkDown v.superMin stop u.h u.node u.span u.best
      let best ← betterNode v.superMin (w.span < stop) w.node w.best
      assertP (w.span = stop - 1)
      if best.1 < s.1 then do
        let leaf ← minLeaf v.superMin v.internalNodes k best.2
        let x ← rd v.superMin leaf
        assertP (x = best.1)
        let i ← subU leaf v.internalNodes
        assertP (i ≥ start)
        assertP (i < stop)
        pure (best.1, i)
      else pure s

/-- `bp_vector.cpp:559-594`, with `findMinSuperblockWithin` -/
def rmqMiddleWithin (k : Nat) (v : BpVector) (ba bb : Nat) (m : Int) : Option (Int × Nat) := do
  let sa := (ba + 1) / 32
  let sb := bb / 32
  if sa = sb then rmqInSuperblock v (ba + 1) bb (m, 4294967295)
  else do
    let s ← rmqInSuperblock v (ba + 1) ((sa + 1) * 32) (m, 4294967295)
    let t ← findMinSuperblockWithin k v (sa + 1) sb (m, 4294967295)
    let s ← rmqSuper v t m s
    rmqInSuperblock v (sb * 32) bb s

/-- `bp_vector.cpp:543-608`, with `findMinSuperblockWithin` -/
def rmqInnerWithin (k : Nat) (v : BpVector) (wa wb : Nat) (s : Rmq) : Option Rmq := do
  let ba := wa / 4
  let bb := wb / 4
  if ba = bb then rmqInBlock v.rs.bv.bits (wa + 1) wb s
  else do
    let s ← rmqInBlock v.rs.bv.bits (wa + 1) ((ba + 1) * 4) s
    let b ← rmqMiddleWithin k v ba bb s.min
    let s ← rmqBest v b s
    let e ← blockExcess v.rs bb
    rmqInBlock v.rs.bv.bits (bb * 4) wb ⟨e, s.min, s.idx⟩

/-- `bp_vector.cpp:508-625`, with `findMinSuperblockWithin` -/
def excessRmqWithin (k : Nat) (v : BpVector) (a b : Nat) : Option (Nat × Int) := do
  assertP (a ≤ b)
  let cur ← excess v a
  if a = b then pure (a, cur)
  else do
    let rangeLen := b - a
    let wa := a / 64
    let wb := (b - 1) / 64
    let shiftA := a % 64
    let w ← rd v.rs.bv.bits wa
    let lenA := min (64 - shiftA) rangeLen
    let s ← rmqInWord (padOpen (w >>> shiftA) lenA) a ⟨cur, cur, a⟩
    if wa = wb then pure (s.idx, s.min)
    else do
      let e ← i32 (s.exc - (64 - (lenA : Int)))
      let s ← rmqInnerWithin k v wa wb ⟨e, s.min, s.idx⟩
      let w ← rd v.rs.bv.bits wb
      let offB := b % 64
      let s ← rmqInWord (padOpen w (if offB = 0 then 64 else offB)) (wb * 64) s
      assertP (s.idx ≥ a)
      let chk ← excess v s.idx
      assertP (s.min = chk)
      pure (s.idx, s.min)

end BpVector

/-- the enumerator after `k` calls of `next()` (`topk_vector.hpp:51-78`) -/
def TopKEnum.after {α : Type} (h : HeapOps (QElem α)) : Nat → TopKEnum α → Option (TopKEnum α)
  | 0, e => some e
  | k + 1, e => do
    let (_, e) ← next h e
    after h k e

end Succinct
