import Verif.Model.Checked
import Verif.Model.MachineBp

/-! # What the assertions of `bp_vector` and `cartesian_tree` protect

See `Verif/Model/Checked.lean`; the arithmetic is that of `MachineBp.lean`. -/
namespace Succinct
namespace Checked
open Broadword
open Machine (vlen s32)
open Machine.Bp (Rmq)
open Succinct.Bp (fwdRow bwdRow cumExcClose cumExcOpen minExcStep8 maxExcStep8 byteOf RmqByte)

/-- a result of `excess_t` arithmetic (e.g. `bp_vector.cpp:164`); overflow of `int32_t` is undefined -/
def i32c (x : Int) : Run Int := if -2147483648 ≤ x ∧ x < 2147483648 then .ok x else .arith

namespace Bp

/-- `(word >> s) & 0xFF` (`bp_vector.cpp:90,113`); an over-wide shift is undefined behaviour -/
def byteAt (word s : Word) : Run Nat := do
  let x ← sr word s.toNat
  pure (x &&& 0xFF).toNat

/-- `bp_vector.cpp:89-95`, for the result of `lsb` -/
def closeResult (word cum : Word) : Option Nat → Run (Option Word)
  | none => pure none
  | some n => do
    let shift : Word := BitVec.ofNat 64 n
    let c ← byteAt word shift
    let e ← byteAt cum shift
    let bitPos ← raw (fwdRow c).pos e
    chk (bitPos > 0)
    pure (some (shift + BitVec.ofNat 64 bitPos - 1))

/-- `bp_vector.cpp:75-96` -/
def findCloseInWord (word byteCounts : Word) (curExc : Int) : Run (Option Word) := do
  chk (curExc > 0 ∧ curExc ≤ 64)
  let cum := cumExcClose byteCounts curExc
  let hasResult := leqStep8 cum (minExcStep8 word)
  closeResult word cum (lsb hasResult)

/-- `bp_vector.cpp:112-118`, for the result of `lsb` -/
def openResult (word cum : Word) : Option Nat → Run (Option Word)
  | none => pure none
  | some n => do
    let shift : Word := BitVec.ofNat 64 n
    let c ← byteAt word (64 - shift - 8)
    let e ← byteAt cum shift
    let bitPos ← raw (bwdRow c).pos e
    chk (bitPos > 0)
    pure (some (64 - (shift + BitVec.ofNat 64 bitPos)))

/-- `bp_vector.cpp:98-119` -/
def findOpenInWord (word byteCounts : Word) (curExc : Int) : Run (Option Word) := do
  chk (curExc > 0 ∧ curExc ≤ 64)
  let cum := cumExcOpen byteCounts curExc
  let hasResult := leqStep8 cum (maxExcStep8 word)
  openResult word cum (lsb hasResult)

/-- body of the loop `bp_vector.cpp:128-138` -/
def rmqByteStep (word : Word) (s : RmqByte) (i : Nat) : Run RmqByte := do
  let byte := byteOf word (i * 8)
  let curMin ← i32c (s.exc - (fwdRow byte).min)
  let exc ← i32c (s.exc + (fwdRow byte).exc)
  pure (if curMin < s.min then ⟨exc, curMin, i⟩ else ⟨exc, s.min, s.byteIdx⟩)

/-- the loop `bp_vector.cpp:128-138` -/
def rmqByteLoop (word : Word) : List Nat → RmqByte → Run RmqByte
  | [], s => pure s
  | i :: is, s => do
    let s' ← rmqByteStep word s i
    rmqByteLoop word is s'

/-- `bp_vector.cpp:121-145`; `byteIdx` is at most 7 -/
def rmqInWord (word wordStart : Word) (s : Rmq) : Run Rmq := do
  let b ← rmqByteLoop word (List.range 8) ⟨s.exc, s.min, 0⟩
  if b.min < s.min then do
    let shift : Word := BitVec.ofNat 64 b.byteIdx * 8
    let c ← byteAt word shift
    pure ⟨b.exc, b.min, wordStart + shift + BitVec.ofNat 64 (fwdRow c).minIdx⟩
  else pure ⟨b.exc, s.min, s.idx⟩

end Bp

namespace BpVector
open Machine.BpVector (minW dir otherNode Walk)
open Succinct.Checked.Bp

/-- `assert(found)` and the result (`bp_vector.cpp:205-206,267-268,353-355`) -/
def foundIt : Option Word → Run Word
  | some x => .ok x
  | none => .abort

/-- `bp_vector.cpp:299-305` -/
def blockExcess (rs : Machine.RSBitVector) (block : Word) : Run Int := do
  let subBlockIdx := block * 4
  let blockPos := subBlockIdx * 64
  let r ← RSBitVector.subBlockRank rs.pairs subBlockIdx
  let excess := s32 (2 * r - blockPos)
  chk (excess ≥ 0)
  pure excess

/-- `bp_vector.cpp:359-363` -/
def excess (v : Machine.BpVector) (pos : Word) : Run Int := do
  let r ← RSBitVector.rank v.rs pos
  pure (s32 (2 * r - pos))

/-- `bp_vector.cpp:158-159` -/
def closeWord (word bc : Word) (excess : Int) : Run (Option Word) :=
  if excess ≤ 64 then findCloseInWord word bc excess else pure none

/-- the loop `bp_vector.cpp:153-165` -/
def closeLoop (bits : List Word) (blockOffset : Word) : Nat → Word → Int → Run (Option Word)
  | fuel, off, excess =>
    if off < 4 then
      match fuel with
      | 0 => .loop
      | fuel + 1 => do
        let subBlock := blockOffset + off
        let word ← vat bits subBlock
        let bc := byteCounts word
        chk (excess > 0)
        let r ← closeWord word bc excess
        match r with
        | some ret => pure (some (ret + subBlock * 64))
        | none => do
          let excess ← i32c (excess + s32 (2 * bytesSum bc - 64))
          closeLoop bits blockOffset fuel (off + 1) excess
    else pure none

/-- `bp_vector.cpp:148-167` -/
def findCloseInBlock (bits : List Word) (blockOffset : Word) (excess : Int) (start : Word) : Run (Option Word) := do
  if excess > s32 ((4 - start) * 64) then pure none
  else do
    chk (excess > 0)
    closeLoop bits blockOffset 4 start excess

/-- the loop `bp_vector.cpp:277-284`; `stop` is the bound computed in line 278 -/
def searchFwd (mins : List Int) (excess superExc : Int) (stop : Word) : Nat → Word → Run (Option Word)
  | fuel, block =>
    if block < stop then
      match fuel with
      | 0 => .loop
      | fuel + 1 => do
        let m ← vat mins block
        let e ← i32c (superExc + m)
        if excess ≥ e then pure (some block) else searchFwd mins excess superExc stop fuel (block + 1)
    else pure none

/-- the loop `bp_vector.cpp:286-293`; it goes below block 0 by wrapping around -/
def searchBwd (mins : List Int) (excess superExc : Int) (superblock : Word) : Nat → Word → Run (Option Word)
  | fuel, block =>
    if block + 1 ≥ superblock * 32 + 1 then
      match fuel with
      | 0 => .loop
      | fuel + 1 => do
        let m ← vat mins block
        let e ← i32c (superExc + m)
        if excess ≥ e then pure (some block) else searchBwd mins excess superExc superblock fuel (block - 1)
    else pure none

/-- `bp_vector.cpp:271-297` -/
def searchBlockInSuperblock (v : Machine.BpVector) (fwd : Bool) (block : Word) (excess : Int) : Run (Option Word) := do
  let superblock := block / 32
  let superExc ← blockExcess v.rs (superblock * 32)
  if fwd then searchFwd v.blockMin excess superExc (minW ((superblock + 1) * 32) (vlen v.blockMin)) 32 block
  else searchBwd v.blockMin excess superExc superblock 32 block

/-- `bp_vector.cpp:307-310` -/
def inNodeRange (v : Machine.BpVector) (node : Word) (excess : Int) : Run Bool := do
  let m ← vat v.superMin node
  chk (m ≠ s32 v.rs.bv.size)
  pure (decide (excess ≥ m))

/-- the test of `bp_vector.cpp:324-331` -/
def siblingHit (v : Machine.BpVector) (fwd : Bool) (node : Word) (excess : Int) : Run (Option Word) :=
  if node &&& 1 = dir fwd then pure none
  else do
    let next := otherNode fwd node
    let b ← inNodeRange v next excess
    pure (if b then some next else none)

/-- the loop `bp_vector.cpp:322-333` -/
def treeUp (v : Machine.BpVector) (fwd : Bool) (excess : Int) : Nat → Word → Run Word
  | fuel, node => do
    chk (node ≠ 0)
    let r ← siblingHit v fwd node excess
    match r with
    | some n => pure n
    | none =>
      match fuel with
      | 0 => .loop
      | fuel + 1 => treeUp v fwd excess fuel (node / 2)

/-- the loop `bp_vector.cpp:337-348` -/
def treeDown (v : Machine.BpVector) (fwd : Bool) (excess : Int) : Nat → Word → Run Word
  | fuel, node =>
    if node < v.internalNodes then
      match fuel with
      | 0 => .loop
      | fuel + 1 => do
        let next := node * 2 + (1 - dir fwd)
        let b ← inNodeRange v next excess
        if b then treeDown v fwd excess fuel next
        else do
          let other := otherNode fwd next
          let b' ← inNodeRange v other excess
          chk (b' = true)
          treeDown v fwd excess fuel other
    else pure node

/-- `bp_vector.cpp:312-356` -/
def searchMinTree (v : Machine.BpVector) (fwd : Bool) (block : Word) (excess : Int) : Run Word := do
  let r ← searchBlockInSuperblock v fwd block excess
  match r with
  | some b => pure b
  | none => do
    let start := v.internalNodes + block / 32
    let top ← treeUp v fwd excess start.toNat start
    chk (top ≠ 0)
    let leaf ← treeDown v fwd excess v.internalNodes.toNat top
    let next := leaf - v.internalNodes
    let r ← searchBlockInSuperblock v fwd (next * 32 + (1 - dir fwd) * (32 - 1)) excess
    foundIt r

/-- `bp_vector.cpp:169-207`; `ov` as in `BpVector.lean` -/
def findClose (ov : Word → Nat → Word) (v : Machine.BpVector) (pos : Word) : Run Word := do
  let b ← BitVector.access v.rs.bv pos
  chk (b = true)
  let wordPos := (pos + 1) / 64
  let shift := (pos + 1) % 64
  let w ← vat v.rs.bv.bits wordPos
  let padded := (w >>> shift.toNat) ||| (negBool (shift ≠ 0) &&& shlOv ov (BitVec.allOnes 64) (64 - shift).toNat)
  let bc := byteCounts padded
  let r ← findCloseInWord padded bc 1
  match r with
  | some ret => pure (ret + (pos + 1))
  | none => do
    let block := wordPos / 4
    let blockOffset := block * 4
    let subBlock := wordPos % 4
    let localRank := bytesSum bc - shift
    let localExcess := s32 (2 * localRank - (64 - shift))
    let e1 ← i32c (localExcess + 1)
    let r ← findCloseInBlock v.rs.bv.bits blockOffset e1 (subBlock + 1)
    match r with
    | some ret => pure ret
    | none => do
      let posExcess ← excess v pos
      let found ← searchMinTree v true (block + 1) posExcess
      let foundExcess ← blockExcess v.rs found
      let e2 ← i32c (foundExcess - posExcess)
      let r ← findCloseInBlock v.rs.bv.bits (found * 4) e2 0
      foundIt r

/-- `bp_vector.cpp:220-221` -/
def openWord (word bc : Word) (excess : Int) : Run (Option Word) :=
  if excess ≤ 64 then findOpenInWord word bc excess else pure none

/-- the loop `bp_vector.cpp:215-227`; it ends when the offset has wrapped to the largest number -/
def openLoop (bits : List Word) (blockOffset : Word) : Nat → Word → Int → Run (Option Word)
  | fuel, off, excess =>
    if off + 1 > 0 then
      match fuel with
      | 0 => .loop
      | fuel + 1 => do
        chk (excess > 0)
        let subBlock := blockOffset + off
        let word ← vat bits subBlock
        let bc := byteCounts word
        let r ← openWord word bc excess
        match r with
        | some ret => pure (some (ret + subBlock * 64))
        | none => do
          let excess ← i32c (excess - s32 (2 * bytesSum bc - 64))
          openLoop bits blockOffset fuel (off - 1) excess
    else pure none

/-- `bp_vector.cpp:209-229` -/
def findOpenInBlock (bits : List Word) (blockOffset : Word) (excess : Int) (start : Word) : Run (Option Word) :=
  if excess > s32 (start * 64) then pure none
  else do
    chk (excess ≥ 0)
    openLoop bits blockOffset 4 (start - 1) excess

/-- `bp_vector.cpp:231-269` -/
def findOpen (ov : Word → Nat → Word) (v : Machine.BpVector) (pos : Word) : Run Word := do
  chk (pos ≠ 0)
  let wordPos := pos / 64
  let len := pos % 64
  let w ← vat v.rs.bv.bits wordPos
  let shifted := negBool (len ≠ 0) &&& shlOv ov w (64 - len).toNat
  let bc := byteCounts shifted
  let r ← findOpenInWord shifted bc 1
  match r with
  | some ret => pure (ret + (pos - 64))
  | none => do
    let block := wordPos / 4
    let blockOffset := block * 4
    let subBlock := wordPos % 4
    let localRank := bytesSum bc
    let localExcess ← i32c (- s32 (2 * localRank - len))
    let e1 ← i32c (localExcess + 1)
    let r ← findOpenInBlock v.rs.bv.bits blockOffset e1 subBlock
    match r with
    | some ret => pure ret
    | none => do
      let e ← excess v pos
      let posExcess ← i32c (e - 1)
      let found ← searchMinTree v false (block - 1) posExcess
      let foundExcess ← blockExcess v.rs (found + 1)
      let e2 ← i32c (foundExcess - posExcess)
      let r ← findOpenInBlock v.rs.bv.bits (found * 4) e2 4
      foundIt r

/-- `bp_vector.hpp:47-50` -/
def enclose (ov : Word → Nat → Word) (v : Machine.BpVector) (pos : Word) : Run Word := do
  let b ← BitVector.access v.rs.bv pos
  chk (b = true)
  findOpen ov v pos

/-- the loop `bp_vector.cpp:375-378` -/
def rmqWords (bits : List Word) (stop : Word) : Nat → Word → Rmq → Run Rmq
  | fuel, w, s =>
    if w < stop then
      match fuel with
      | 0 => .loop
      | fuel + 1 => do
        let word ← vat bits w
        let s ← rmqInWord word (w * 64) s
        rmqWords bits stop fuel (w + 1) s
    else pure s

/-- `bp_vector.cpp:365-379` -/
def rmqInBlock (bits : List Word) (start stop : Word) (s : Rmq) : Run Rmq := do
  chk (start ≤ stop)
  if start = stop then pure s
  else do
    chk (start / 4 = (stop - 1) / 4)
    rmqWords bits stop 4 start s

/-- the loop `bp_vector.cpp:394-399` -/
def rmqBlocks (mins : List Int) (superExc : Int) (stop : Word) : Nat → Word → Int × Word → Run (Int × Word)
  | fuel, block, s =>
    if block < stop then
      match fuel with
      | 0 => .loop
      | fuel + 1 => do
        let m ← vat mins block
        let e ← i32c (superExc + m)
        rmqBlocks mins superExc stop fuel (block + 1) (if e < s.1 then (e, block) else s)
    else pure s

/-- `bp_vector.cpp:381-400` -/
def rmqInSuperblock (v : Machine.BpVector) (start stop : Word) (s : Int × Word) : Run (Int × Word) := do
  chk (start ≤ stop)
  if start = stop then pure s
  else do
    let superblock := start / 32
    chk (superblock = (stop - 1) / 32)
    let superExc ← blockExcess v.rs (superblock * 32)
    rmqBlocks v.blockMin superExc stop 32 start s

/-- `bp_vector.cpp:436-440`, `469-472` and `478-482` -/
def betterNode (tree : List Int) (cond : Bool) (node : Word) (s : Int × Word) : Run (Int × Word) :=
  if cond then do
    let x ← vat tree node
    pure (if x < s.1 then (x, node) else s)
  else pure s

/-- the loop `bp_vector.cpp:428-450` -/
def walkUp (tree : List Int) (stop : Word) : Nat → Walk → Run Walk
  | fuel, s => do
    chk (s.node ≠ 0)
    if s.node &&& 1 = 0 then do
      let p ← sl 1 s.h.toNat
      let span := s.span + p
      let best ← betterNode tree (span < stop) (s.node + 1) s.best
      if span ≥ stop - 1 then pure ⟨s.node + 1, span, s.h, best⟩
      else
        match fuel with
        | 0 => .loop
        | fuel + 1 => walkUp tree stop fuel ⟨s.node / 2, span, s.h + 1, best⟩
    else
      match fuel with
      | 0 => .loop
      | fuel + 1 => walkUp tree stop fuel ⟨s.node / 2, s.span, s.h + 1, s.best⟩

/-- the loop `bp_vector.cpp:455-475` -/
def walkDown (tree : List Int) (stop : Word) : Nat → Walk → Run Walk
  | fuel, s =>
    if s.span > stop - 1 then do
      chk (s.node < vlen tree)
      chk (s.h > 0)
      match fuel with
      | 0 => .loop
      | fuel + 1 => do
        let h := s.h - 1
        let left := s.node * 2
        let p ← sl 1 h.toNat
        if s.span - p ≥ stop - 1 then walkDown tree stop fuel ⟨left, s.span - p, h, s.best⟩
        else do
          let best ← betterNode tree true left s.best
          walkDown tree stop fuel ⟨left + 1, s.span, h, best⟩
    else pure s

/-- the loop `bp_vector.cpp:490-497` -/
def minLeaf (tree : List Int) (internal : Word) : Nat → Word → Run Word
  | fuel, node =>
    if node < internal then
      match fuel with
      | 0 => .loop
      | fuel + 1 => do
        let a ← vat tree (node * 2 + 1)
        let b ← vat tree (node * 2)
        minLeaf tree internal fuel (if a < b then node * 2 + 1 else node * 2)
    else pure node

/-- `bp_vector.cpp:403-506` -/
def findMinSuperblock (v : Machine.BpVector) (start stop : Word) (s : Int × Word) : Run (Int × Word) := do
  if start = stop then pure s
  else do
    let node := v.internalNodes + start
    let m ← vat v.superMin node
    if stop - start = 1 then pure (m, start)
    else do
      let u ← walkUp v.superMin stop node.toNat ⟨node, start, 0, (m, node)⟩
      chk (u.node ≠ 0)
      let w ← walkDown v.superMin stop u.h.toNat u
      let best ← betterNode v.superMin (w.span < stop) w.node w.best
      chk (w.span = stop - 1)
      if best.1 < s.1 then do
        let leaf ← minLeaf v.superMin v.internalNodes v.internalNodes.toNat best.2
        let x ← vat v.superMin leaf
        chk (x = best.1)
        let i := leaf - v.internalNodes
        chk (i ≥ start)
        chk (i < stop)
        pure (best.1, i)
      else pure s

/-- `bp_vector.cpp:582-587` -/
def rmqSuper (v : Machine.BpVector) (t : Int × Word) (m : Int) (s : Int × Word) : Run (Int × Word) :=
  if t.1 < m then rmqInSuperblock v (t.2 * 32) ((t.2 + 1) * 32) s else pure s

/-- `bp_vector.cpp:559-594`; `-1U` is the largest `unsigned int` -/
def rmqMiddle (v : Machine.BpVector) (ba bb : Word) (m : Int) : Run (Int × Word) := do
  let sa := (ba + 1) / 32
  let sb := bb / 32
  if sa = sb then rmqInSuperblock v (ba + 1) bb (m, 4294967295)
  else do
    let s ← rmqInSuperblock v (ba + 1) ((sa + 1) * 32) (m, 4294967295)
    let t ← findMinSuperblock v (sa + 1) sb (m, 4294967295)
    let s ← rmqSuper v t m s
    rmqInSuperblock v (sb * 32) bb s

/-- `bp_vector.cpp:596-602` -/
def rmqBest (v : Machine.BpVector) (b : Int × Word) (s : Rmq) : Run Rmq :=
  if b.1 < s.min then do
    let e ← blockExcess v.rs b.2
    let s ← rmqInBlock v.rs.bv.bits (b.2 * 4) ((b.2 + 1) * 4) ⟨e, s.min, s.idx⟩
    chk (s.min = b.1)
    pure s
  else pure s

/-- `bp_vector.cpp:543-608` -/
def rmqInner (v : Machine.BpVector) (wa wb : Word) (s : Rmq) : Run Rmq := do
  let ba := wa / 4
  let bb := wb / 4
  if ba = bb then rmqInBlock v.rs.bv.bits (wa + 1) wb s
  else do
    let s ← rmqInBlock v.rs.bv.bits (wa + 1) ((ba + 1) * 4) s
    let b ← rmqMiddle v ba bb s.min
    let s ← rmqBest v b s
    let e ← blockExcess v.rs bb
    rmqInBlock v.rs.bv.bits (bb * 4) wb ⟨e, s.min, s.idx⟩

/-- `bp_vector.cpp:530-533` -/
def padA (w len : Word) : Run Word :=
  if len = 64 then pure w else do
    let m ← sl (BitVec.allOnes 64) len.toNat
    pure (w ||| m)

/-- `bp_vector.cpp:613-616` -/
def padB (w off : Word) : Run Word :=
  if off = 0 then pure w else do
    let m ← sl (BitVec.allOnes 64) off.toNat
    pure (w ||| m)

/-- `bp_vector.cpp:508-625`: the returned position and `min_exc` -/
def excessRmq (v : Machine.BpVector) (a b : Word) : Run (Word × Int) := do
  chk (a ≤ b)
  let cur ← excess v a
  if a = b then pure (a, cur)
  else do
    let rangeLen := b - a
    let wa := a / 64
    let wb := (b - 1) / 64
    let shiftA := a % 64
    let w ← vat v.rs.bv.bits wa
    let lenA := minW (64 - shiftA) rangeLen
    let padded ← padA (w >>> shiftA.toNat) lenA
    let s ← rmqInWord padded a ⟨cur, cur, a⟩
    if wa = wb then pure (s.idx, s.min)
    else do
      let e ← i32c (s.exc - (64 - s32 lenA))
      let s ← rmqInner v wa wb ⟨e, s.min, s.idx⟩
      let w ← vat v.rs.bv.bits wb
      let padded ← padB w (b % 64)
      let s ← rmqInWord padded (wb * 64) s
      chk (s.idx ≥ a)
      let e ← excess v s.idx
      chk (s.min = e)
      pure (s.idx, s.min)

end BpVector

namespace CartesianTree

/-- `cartesian_tree.hpp:106-137` -/
def rmq (t : Machine.CartesianTree) (a b : Word) : Run Word := do
  chk (a ≤ b)
  if a = b then pure a
  else do
    let n := Machine.CartesianTree.size t
    let tp ← RSBitVector.select0 t.bp.rs (n - b - 1)
    let excT := s32 (tp - 2 * (n - b - 1))
    let excT1 ← i32c (excT - 1)
    let e ← BpVector.excess t.bp (tp + 1)
    chk (excT1 = e)
    let x ← RSBitVector.select0 t.bp.rs (n - b)
    let y ← RSBitVector.select0 t.bp.rs (n - a)
    let (w, excW) ← BpVector.excessRmq t.bp x y
    let rank0 := (w - BitVec.ofInt 64 excW) / 2
    let bit ← BitVector.access t.bp.rs.bv (w - 1)
    chk (bit = false)
    let ret := if excW ≥ excT1 then b else n - rank0
    chk (ret ≥ a)
    chk (ret ≤ b)
    pure ret

end CartesianTree

end Checked
end Succinct
