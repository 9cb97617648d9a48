import Verif.Model.Machine
import Verif.Model.BpVector

/-! # `bp_vector.hpp` and `bp_vector.cpp` in 64-bit arithmetic

The second transcription of `Machine.lean` continued: positions, block, node and superblock numbers and heights
are `BitVec 64` and wrap around.  `excess_t` is `int32_t`, whose values are integers as in `BpVector.lean`; overflow of its
additions is undefined behaviour (`i32`), and `s32` is the conversion from `uint64_t`.  The tables indexed by
bytes are shared with `BpVector.lean`.  A loop takes a bound on the number of its iterations as fuel (a run that exceeds it answers nothing), and ends by its
own condition. -/
namespace Succinct
namespace Machine
open Broadword

/-- `static_cast<excess_t>` of a `uint64_t` (`bp_vector.cpp:164,192,302,362`; modulo `2^32` into the signed range) -/
def s32 (w : Word) : Int := (w.setWidth 32).toInt

namespace Bp
open Succinct.Bp

/-- `(word >> s) & 0xFF` (`bp_vector.cpp:90,113`); an over-wide shift is undefined behaviour -/
def byteAt (word s : Word) : Option Nat := do
  let x ← shr word s.toNat
  pure (x &&& 0xFF).toNat

/-- `bp_vector.cpp:89-95`, for the result of `lsb` -/
def closeResult (word cum : Word) : Option Nat → Option (Option Word)
  | none => pure none
  | some n => do
    let shift : Word := BitVec.ofNat 64 n
    let c ← byteAt word shift
    let e ← byteAt cum shift
    let bitPos ← (fwdRow c).pos[e]?
    assertP (bitPos > 0)
    pure (some (shift + BitVec.ofNat 64 bitPos - 1))

/-- `bp_vector.cpp:75-96` -/
def findCloseInWord (word byteCounts : Word) (curExc : Int) : Option (Option Word) := do
  assertP (curExc > 0 ∧ curExc ≤ 64)
  let cum := cumExcClose byteCounts curExc
  let hasResult := leqStep8 cum (minExcStep8 word)
  closeResult word cum (lsb hasResult)

/-- `bp_vector.cpp:112-118`, for the result of `lsb` -/
def openResult (word cum : Word) : Option Nat → Option (Option Word)
  | none => pure none
  | some n => do
    let shift : Word := BitVec.ofNat 64 n
    let c ← byteAt word (64 - shift - 8)
    let e ← byteAt cum shift
    let bitPos ← (bwdRow c).pos[e]?
    assertP (bitPos > 0)
    pure (some (64 - (shift + BitVec.ofNat 64 bitPos)))

/-- `bp_vector.cpp:98-119` -/
def findOpenInWord (word byteCounts : Word) (curExc : Int) : Option (Option Word) := do
  assertP (curExc > 0 ∧ curExc ≤ 64)
  let cum := cumExcOpen byteCounts curExc
  let hasResult := leqStep8 cum (maxExcStep8 word)
  openResult word cum (lsb hasResult)

/-- the variables passed by reference to the `excess_rmq` helpers (`bp_vector.cpp:121-125`) -/
structure Rmq where
  exc : Int
  min : Int
  idx : Word
deriving DecidableEq, Repr

/-- `bp_vector.cpp:121-145`; the loop over the eight bytes is that of `BpVector.lean`, `byteIdx` is at most 7 -/
def rmqInWord (word wordStart : Word) (s : Rmq) : Option Rmq := do
  let b ← rmqByteLoop word (List.range 8) ⟨s.exc, s.min, 0⟩
  if b.min < s.min then do
    let shift : Word := BitVec.ofNat 64 b.byteIdx * 8
    let c ← byteAt word shift
    pure ⟨b.exc, b.min, wordStart + shift + BitVec.ofNat 64 (fwdRow c).minIdx⟩
  else pure ⟨b.exc, s.min, s.idx⟩

end Bp
open Succinct.Machine.Bp

/-- `bp_vector.hpp:97-99`, with the base class `rs_bit_vector` -/
structure BpVector where
  rs : RSBitVector
  internalNodes : Word
  blockMin : List Int
  superMin : List Int
deriving DecidableEq, Repr

namespace BpVector

/-- `bp_vector.cpp:299-305` -/
def blockExcess (rs : RSBitVector) (block : Word) : Option Int := do
  let subBlockIdx := block * 4
  let blockPos := subBlockIdx * 64
  let r ← RSBitVector.subBlockRank rs.pairs subBlockIdx
  let excess := s32 (2 * r - blockPos)
  assertP (excess ≥ 0)
  pure excess

/-! ## `build_min_tree` -/

/-- `bp_vector.cpp:635-645` -/
def blockStart (st : Succinct.BpVector.BlockState) (subBlock : Word) : Option Succinct.BpVector.BlockState :=
  if subBlock % 4 = 0 then
    let curExc := if subBlock % (4 * 32) = 0 then 0 else st.curExc
    if subBlock ≠ 0 then do
      let mins ← Succinct.BpVector.flushMin st.mins st.curMin
      pure ⟨mins, curExc, curExc⟩
    else some ⟨st.mins, st.curMin, curExc⟩
  else some st

/-- `bp_vector.cpp:648-652` -/
def nBits (nWords size subBlock : Word) : Word :=
  if subBlock = nWords - 1 ∧ size % 64 ≠ 0 then size % 64 else 64

/-- `bp_vector.cpp:634-659`; the loop over the bits of a word is that of `BpVector.lean` -/
def blockLoop (bits : List Word) (size : Word) : Nat → Word → Succinct.BpVector.BlockState → Option Succinct.BpVector.BlockState
  | fuel, subBlock, st =>
    if subBlock < vlen bits then
      match fuel with
      | 0 => none
      | fuel + 1 => do
        let st ← blockStart st subBlock
        let word ← at_ bits subBlock
        let r := Succinct.BpVector.bitLoop word (nBits (vlen bits) size subBlock).toNat 1#64 st.curMin st.curExc
        blockLoop bits size fuel (subBlock + 1) ⟨st.mins, r.1, r.2⟩
    else some st

/-- `bp_vector.cpp:632-663` -/
def blockMins (bits : List Word) (size : Word) : Option (List Int) := do
  let st ← blockLoop bits size bits.length 0 ⟨[], 0, 0⟩
  Succinct.BpVector.flushMin st.mins st.curMin

/-- `std::min` on `size_t` (e.g. `bp_vector.cpp:684`) -/
def minW (a b : Word) : Word := if b < a then b else a

/-- `bp_vector.cpp:683-687`, up to the block `stop` -/
def superMinLoop (mins : List Int) (superExc : Int) (stop : Word) : Nat → Word → Int → Option Int
  | fuel, block, cur =>
    if block < stop then
      match fuel with
      | 0 => none
      | fuel + 1 => do
        let m ← at_ mins block
        let e ← i32 (superExc + m)
        superMinLoop mins superExc stop fuel (block + 1) (min cur e)
    else some cur

/-- `bp_vector.cpp:680-690` -/
def leafMin (rs : RSBitVector) (mins : List Int) (nBlocks s : Word) : Option Int := do
  let superExc ← blockExcess rs (s * 32)
  let cur ← superMinLoop mins superExc (minW ((s + 1) * 32) nBlocks) 32 (s * 32) (s32 rs.bv.size)
  assertP (cur ≥ 0 ∧ cur < s32 rs.bv.size)
  pure cur

/-- `bp_vector.cpp:679-691` -/
def leavesLoop (rs : RSBitVector) (mins : List Int) (nBlocks nSuper internal : Word) :
    Nat → Word → List Int → Option (List Int)
  | fuel, s, tree =>
    if s < nSuper then
      match fuel with
      | 0 => none
      | fuel + 1 => do
        let x ← leafMin rs mins nBlocks s
        let tree ← put tree (internal + s) x
        leavesLoop rs mins nBlocks nSuper internal fuel (s + 1) tree
    else some tree

/-- `bp_vector.cpp:670-671`; a left shift by one bit -/
def completeLeaves (n : Word) : Nat → Word → Option Word
  | fuel, c =>
    if c < n then
      match fuel with
      | 0 => none
      | fuel + 1 => completeLeaves n fuel (c <<< 1)
    else some c

/-- `bp_vector.cpp:695-697` -/
def fillLoop (x : Int) (internal : Word) : Nat → Word → List Int → Option (List Int)
  | fuel, node, tree =>
    if node < internal then
      match fuel with
      | 0 => none
      | fuel + 1 => do
        let tree ← put tree node x
        fillLoop x internal fuel (node + 1) tree
    else some tree

/-- `bp_vector.cpp:700-704` -/
def treeLoop : Nat → Word → List Int → Option (List Int)
  | fuel, node, t =>
    if node > 1 then
      match fuel with
      | 0 => none
      | fuel + 1 => do
        let parent := node / 2
        let a ← at_ t parent
        let b ← at_ t node
        let t ← put t parent (min a b)
        treeLoop fuel (node - 1) t
    else some t

/-- `bp_vector.cpp:628-708`.  For an empty vector `m_internal_nodes` keeps its indeterminate value; the
model uses 0, no query reads it. -/
def buildMinTree (rs : RSBitVector) : Option BpVector := do
  if rs.bv.size = 0 then pure ⟨rs, 0, [], []⟩
  else
    let mins ← blockMins rs.bv.bits rs.bv.size
    let nBlocks := ceilDiv (vlen rs.bv.bits) 4
    assertP (nBlocks = vlen mins)
    let nSuper := (nBlocks + 32 - 1) / 32
    let internal ← completeLeaves nSuper 64 1
    let treeSize := internal + nSuper
    let tree ← leavesLoop rs mins nBlocks nSuper internal nSuper.toNat 0 (List.replicate treeSize.toNat 0)
    let tree ← fillLoop (s32 rs.bv.size) internal internal.toNat 0 tree
    let tree ← treeLoop (treeSize - 1).toNat (treeSize - 1) tree
    pure ⟨rs, internal, mins, tree⟩

/-- constructor `bp_vector.hpp:19-26` -/
def build (bv : BitVector) (withHints withHints0 : Bool) : Option BpVector := do
  let rs ← RSBitVector.build bv withHints withHints0
  buildMinTree rs

/-! ## `find_close` and `find_open` -/

/-- `bp_vector.cpp:359-363` -/
def excess (v : BpVector) (pos : Word) : Option Int := do
  let r ← RSBitVector.rank v.rs pos
  pure (s32 (2 * r - pos))

/-- `bp_vector.cpp:158-159` -/
def closeWord (word bc : Word) (excess : Int) : Option (Option Word) :=
  if excess ≤ 64 then findCloseInWord word bc excess else some none

/-- the loop `bp_vector.cpp:153-165` -/
def closeLoop (bits : List Word) (blockOffset : Word) : Nat → Word → Int → Option (Option Word)
  | fuel, off, excess =>
    if off < 4 then
      match fuel with
      | 0 => none
      | fuel + 1 => do
        let subBlock := blockOffset + off
        let word ← at_ bits subBlock
        let bc := byteCounts word
        assertP (excess > 0)
        let r ← closeWord word bc excess
        match r with
        | some ret => pure (some (ret + subBlock * 64))
        | none => do
          let excess ← i32 (excess + s32 (2 * bytesSum bc - 64))
          closeLoop bits blockOffset fuel (off + 1) excess
    else some none

/-- `bp_vector.cpp:148-167` -/
def findCloseInBlock (bits : List Word) (blockOffset : Word) (excess : Int) (start : Word) : Option (Option Word) := do
  if excess > s32 ((4 - start) * 64) then pure none
  else do
    assertP (excess > 0)
    closeLoop bits blockOffset 4 start excess

/-- the loop `bp_vector.cpp:277-284`; `stop` is the bound computed in line 278 -/
def searchFwd (mins : List Int) (excess superExc : Int) (stop : Word) : Nat → Word → Option (Option Word)
  | fuel, block =>
    if block < stop then
      match fuel with
      | 0 => none
      | fuel + 1 => do
        let m ← at_ mins block
        let e ← i32 (superExc + m)
        if excess ≥ e then pure (some block) else searchFwd mins excess superExc stop fuel (block + 1)
    else some none

/-- the loop `bp_vector.cpp:286-293`; it goes below block 0 by wrapping around -/
def searchBwd (mins : List Int) (excess superExc : Int) (superblock : Word) : Nat → Word → Option (Option Word)
  | fuel, block =>
    if block + 1 ≥ superblock * 32 + 1 then
      match fuel with
      | 0 => none
      | fuel + 1 => do
        let m ← at_ mins block
        let e ← i32 (superExc + m)
        if excess ≥ e then pure (some block) else searchBwd mins excess superExc superblock fuel (block - 1)
    else some none

/-- `bp_vector.cpp:271-297` -/
def searchBlockInSuperblock (v : BpVector) (fwd : Bool) (block : Word) (excess : Int) : Option (Option Word) := do
  let superblock := block / 32
  let superExc ← blockExcess v.rs (superblock * 32)
  if fwd then searchFwd v.blockMin excess superExc (minW ((superblock + 1) * 32) (vlen v.blockMin)) 32 block
  else searchBwd v.blockMin excess superExc superblock 32 block

/-- `bp_vector.cpp:307-310` -/
def inNodeRange (v : BpVector) (node : Word) (excess : Int) : Option Bool := do
  let m ← at_ v.superMin node
  assertP (m ≠ s32 v.rs.bv.size)
  pure (decide (excess ≥ m))

/-- `direction` as a `size_t` (`bp_vector.cpp:324,338,351`) -/
def dir (fwd : Bool) : Word := if fwd then 1 else 0

/-- `bp_vector.cpp:326` and `344` -/
def otherNode (fwd : Bool) (node : Word) : Word := if fwd then node + 1 else node - 1

/-- the test of `bp_vector.cpp:324-331` -/
def siblingHit (v : BpVector) (fwd : Bool) (node : Word) (excess : Int) : Option (Option Word) :=
  if node &&& 1 = dir fwd then some none
  else do
    let next := otherNode fwd node
    let b ← inNodeRange v next excess
    pure (if b then some next else none)

/-- the loop `bp_vector.cpp:322-333` -/
def treeUp (v : BpVector) (fwd : Bool) (excess : Int) : Nat → Word → Option Word
  | 0, _ => none
  | fuel + 1, node => do
    assertP (node ≠ 0)
    let r ← siblingHit v fwd node excess
    match r with
    | some n => pure n
    | none => treeUp v fwd excess fuel (node / 2)

/-- the loop `bp_vector.cpp:337-348` -/
def treeDown (v : BpVector) (fwd : Bool) (excess : Int) : Nat → Word → Option Word
  | fuel, node =>
    if node < v.internalNodes then
      match fuel with
      | 0 => none
      | fuel + 1 => do
        let next := node * 2 + (1 - dir fwd)
        let b ← inNodeRange v next excess
        if b then treeDown v fwd excess fuel next
        else do
          let other := otherNode fwd next
          let b' ← inNodeRange v other excess
          assertP (b' = true)
          treeDown v fwd excess fuel other
    else some node

/-- `bp_vector.cpp:312-356` -/
def searchMinTree (v : BpVector) (fwd : Bool) (block : Word) (excess : Int) : Option Word := do
  let r ← searchBlockInSuperblock v fwd block excess
  match r with
  | some b => pure b
  | none => do
    let start := v.internalNodes + block / 32
    let top ← treeUp v fwd excess (start.toNat + 1) start
    assertP (top ≠ 0)
    let leaf ← treeDown v fwd excess v.internalNodes.toNat top
    let next := leaf - v.internalNodes
    let r ← searchBlockInSuperblock v fwd (next * 32 + (1 - dir fwd) * (32 - 1)) excess
    r

/-- `bp_vector.cpp:169-207`; `ov` as in `BpVector.lean` -/
def findClose (ov : Word → Nat → Word) (v : BpVector) (pos : Word) : Option Word := do
  let b ← BitVector.access v.rs.bv pos
  assertP (b = true)
  let wordPos := (pos + 1) / 64
  let shift := (pos + 1) % 64
  let w ← at_ v.rs.bv.bits wordPos
  let padded := (w >>> shift.toNat) ||| (negBool (shift ≠ 0) &&& shlOv ov (BitVec.allOnes 64) (64 - shift).toNat)
  let bc := byteCounts padded
  let r ← findCloseInWord padded bc 1
  match r with
  | some ret => pure (ret + (pos + 1))
  | none => do
    let block := wordPos / 4
    let blockOffset := block * 4
    let subBlock := wordPos % 4
    let localRank := bytesSum bc - shift
    let localExcess := s32 (2 * localRank - (64 - shift))
    let e1 ← i32 (localExcess + 1)
    let r ← findCloseInBlock v.rs.bv.bits blockOffset e1 (subBlock + 1)
    match r with
    | some ret => pure ret
    | none => do
      let posExcess ← excess v pos
      let found ← searchMinTree v true (block + 1) posExcess
      let foundExcess ← blockExcess v.rs found
      let e2 ← i32 (foundExcess - posExcess)
      let r ← findCloseInBlock v.rs.bv.bits (found * 4) e2 0
      r

/-- `bp_vector.cpp:220-221` -/
def openWord (word bc : Word) (excess : Int) : Option (Option Word) :=
  if excess ≤ 64 then findOpenInWord word bc excess else some none

/-- the loop `bp_vector.cpp:215-227`; it ends when the offset has wrapped to the largest number -/
def openLoop (bits : List Word) (blockOffset : Word) : Nat → Word → Int → Option (Option Word)
  | fuel, off, excess =>
    if off + 1 > 0 then
      match fuel with
      | 0 => none
      | fuel + 1 => do
        assertP (excess > 0)
        let subBlock := blockOffset + off
        let word ← at_ bits subBlock
        let bc := byteCounts word
        let r ← openWord word bc excess
        match r with
        | some ret => pure (some (ret + subBlock * 64))
        | none => do
          let excess ← i32 (excess - s32 (2 * bytesSum bc - 64))
          openLoop bits blockOffset fuel (off - 1) excess
    else some none

/-- `bp_vector.cpp:209-229` -/
def findOpenInBlock (bits : List Word) (blockOffset : Word) (excess : Int) (start : Word) : Option (Option Word) :=
  if excess > s32 (start * 64) then some none
  else do
    assertP (excess ≥ 0)
    openLoop bits blockOffset 4 (start - 1) excess

/-- `bp_vector.cpp:231-269` -/
def findOpen (ov : Word → Nat → Word) (v : BpVector) (pos : Word) : Option Word := do
  assertP (pos ≠ 0)
  let wordPos := pos / 64
  let len := pos % 64
  let w ← at_ v.rs.bv.bits wordPos
  let shifted := negBool (len ≠ 0) &&& shlOv ov w (64 - len).toNat
  let bc := byteCounts shifted
  let r ← findOpenInWord shifted bc 1
  match r with
  | some ret => pure (ret + (pos - 64))
  | none => do
    let block := wordPos / 4
    let blockOffset := block * 4
    let subBlock := wordPos % 4
    let localRank := bytesSum bc
    let localExcess ← i32 (- s32 (2 * localRank - len))
    let e1 ← i32 (localExcess + 1)
    let r ← findOpenInBlock v.rs.bv.bits blockOffset e1 subBlock
    match r with
    | some ret => pure ret
    | none => do
      let e ← excess v pos
      let posExcess ← i32 (e - 1)
      let found ← searchMinTree v false (block - 1) posExcess
      let foundExcess ← blockExcess v.rs (found + 1)
      let e2 ← i32 (foundExcess - posExcess)
      let r ← findOpenInBlock v.rs.bv.bits (found * 4) e2 4
      r

/-- `bp_vector.hpp:47-50` -/
def enclose (ov : Word → Nat → Word) (v : BpVector) (pos : Word) : Option Word := do
  let b ← BitVector.access v.rs.bv pos
  assertP (b = true)
  findOpen ov v pos

/-! ## `excess_rmq` -/

/-- the loop `bp_vector.cpp:375-378` -/
def rmqWords (bits : List Word) (stop : Word) : Nat → Word → Rmq → Option Rmq
  | fuel, w, s =>
    if w < stop then
      match fuel with
      | 0 => none
      | fuel + 1 => do
        let word ← at_ bits w
        let s ← rmqInWord word (w * 64) s
        rmqWords bits stop fuel (w + 1) s
    else some s

/-- `bp_vector.cpp:365-379` -/
def rmqInBlock (bits : List Word) (start stop : Word) (s : Rmq) : Option Rmq := do
  assertP (start ≤ stop)
  if start = stop then pure s
  else do
    assertP (start / 4 = (stop - 1) / 4)
    rmqWords bits stop 4 start s

/-- the loop `bp_vector.cpp:394-399` -/
def rmqBlocks (mins : List Int) (superExc : Int) (stop : Word) : Nat → Word → Int × Word → Option (Int × Word)
  | fuel, block, s =>
    if block < stop then
      match fuel with
      | 0 => none
      | fuel + 1 => do
        let m ← at_ mins block
        let e ← i32 (superExc + m)
        rmqBlocks mins superExc stop fuel (block + 1) (if e < s.1 then (e, block) else s)
    else some s

/-- `bp_vector.cpp:381-400` -/
def rmqInSuperblock (v : BpVector) (start stop : Word) (s : Int × Word) : Option (Int × Word) := do
  assertP (start ≤ stop)
  if start = stop then pure s
  else do
    let superblock := start / 32
    assertP (superblock = (stop - 1) / 32)
    let superExc ← blockExcess v.rs (superblock * 32)
    rmqBlocks v.blockMin superExc stop 32 start s

/-- `bp_vector.cpp:436-440`, `469-472` and `478-482` -/
def betterNode (tree : List Int) (cond : Bool) (node : Word) (s : Int × Word) : Option (Int × Word) :=
  if cond then do
    let x ← at_ tree node
    pure (if x < s.1 then (x, node) else s)
  else some s

/-- local variables of `find_min_superblock` (`bp_vector.cpp:410-427`) -/
structure Walk where
  node : Word
  span : Word
  h : Word
  best : Int × Word
deriving DecidableEq, Repr

/-- the loop `bp_vector.cpp:428-450` -/
def walkUp (tree : List Int) (stop : Word) : Nat → Walk → Option Walk
  | 0, _ => none
  | fuel + 1, s => do
    assertP (s.node ≠ 0)
    if s.node &&& 1 = 0 then do
      let p ← shl 1 s.h.toNat
      let span := s.span + p
      let best ← betterNode tree (span < stop) (s.node + 1) s.best
      if span ≥ stop - 1 then pure ⟨s.node + 1, span, s.h, best⟩
      else walkUp tree stop fuel ⟨s.node / 2, span, s.h + 1, best⟩
    else walkUp tree stop fuel ⟨s.node / 2, s.span, s.h + 1, s.best⟩

/-- the loop `bp_vector.cpp:455-475` -/
def walkDown (tree : List Int) (stop : Word) : Nat → Walk → Option Walk
  | fuel, s =>
    if s.span > stop - 1 then
      match fuel with
      | 0 => none
      | fuel + 1 => do
        assertP (s.node < vlen tree)
        assertP (s.h > 0)
        let h := s.h - 1
        let left := s.node * 2
        let p ← shl 1 h.toNat
        if s.span - p ≥ stop - 1 then walkDown tree stop fuel ⟨left, s.span - p, h, s.best⟩
        else do
          let best ← betterNode tree true left s.best
          walkDown tree stop fuel ⟨left + 1, s.span, h, best⟩
    else some s

/-- the loop `bp_vector.cpp:490-497` -/
def minLeaf (tree : List Int) (internal : Word) : Nat → Word → Option Word
  | fuel, node =>
    if node < internal then
      match fuel with
      | 0 => none
      | fuel + 1 => do
        let a ← at_ tree (node * 2 + 1)
        let b ← at_ tree (node * 2)
        minLeaf tree internal fuel (if a < b then node * 2 + 1 else node * 2)
    else some node

/-- `bp_vector.cpp:403-506` -/
def findMinSuperblock (v : BpVector) (start stop : Word) (s : Int × Word) : Option (Int × Word) := do
  if start = stop then pure s
  else do
    let node := v.internalNodes + start
    let m ← at_ v.superMin node
    if stop - start = 1 then pure (m, start)
    else do
      let u ← walkUp v.superMin stop (node.toNat + 1) ⟨node, start, 0, (m, node)⟩
      assertP (u.node ≠ 0)
      let w ← walkDown v.superMin stop u.h.toNat u
      let best ← betterNode v.superMin (w.span < stop) w.node w.best
      assertP (w.span = stop - 1)
      if best.1 < s.1 then do
        let leaf ← minLeaf v.superMin v.internalNodes v.internalNodes.toNat best.2
        let x ← at_ v.superMin leaf
        assertP (x = best.1)
        let i := leaf - v.internalNodes
        assertP (i ≥ start)
        assertP (i < stop)
        pure (best.1, i)
      else pure s

/-- `bp_vector.cpp:582-587` -/
def rmqSuper (v : BpVector) (t : Int × Word) (m : Int) (s : Int × Word) : Option (Int × Word) :=
  if t.1 < m then rmqInSuperblock v (t.2 * 32) ((t.2 + 1) * 32) s else some s

/-- `bp_vector.cpp:559-594`; `-1U` is the largest `unsigned int` -/
def rmqMiddle (v : BpVector) (ba bb : Word) (m : Int) : Option (Int × Word) := do
  let sa := (ba + 1) / 32
  let sb := bb / 32
  if sa = sb then rmqInSuperblock v (ba + 1) bb (m, 4294967295)
  else do
    let s ← rmqInSuperblock v (ba + 1) ((sa + 1) * 32) (m, 4294967295)
    let t ← findMinSuperblock v (sa + 1) sb (m, 4294967295)
    let s ← rmqSuper v t m s
    rmqInSuperblock v (sb * 32) bb s

/-- `bp_vector.cpp:596-602` -/
def rmqBest (v : BpVector) (b : Int × Word) (s : Rmq) : Option Rmq :=
  if b.1 < s.min then do
    let e ← blockExcess v.rs b.2
    let s ← rmqInBlock v.rs.bv.bits (b.2 * 4) ((b.2 + 1) * 4) ⟨e, s.min, s.idx⟩
    assertP (s.min = b.1)
    pure s
  else some s

/-- `bp_vector.cpp:543-608` -/
def rmqInner (v : BpVector) (wa wb : Word) (s : Rmq) : Option Rmq := do
  let ba := wa / 4
  let bb := wb / 4
  if ba = bb then rmqInBlock v.rs.bv.bits (wa + 1) wb s
  else do
    let s ← rmqInBlock v.rs.bv.bits (wa + 1) ((ba + 1) * 4) s
    let b ← rmqMiddle v ba bb s.min
    let s ← rmqBest v b s
    let e ← blockExcess v.rs bb
    rmqInBlock v.rs.bv.bits (bb * 4) wb ⟨e, s.min, s.idx⟩

/-- `bp_vector.cpp:530-533` -/
def padA (w len : Word) : Option Word :=
  if len = 64 then some w else do
    let m ← shl (BitVec.allOnes 64) len.toNat
    pure (w ||| m)

/-- `bp_vector.cpp:613-616` -/
def padB (w off : Word) : Option Word :=
  if off = 0 then some w else do
    let m ← shl (BitVec.allOnes 64) off.toNat
    pure (w ||| m)

/-- `bp_vector.cpp:508-625`: the returned position and `min_exc` -/
def excessRmq (v : BpVector) (a b : Word) : Option (Word × Int) := do
  assertP (a ≤ b)
  let cur ← excess v a
  if a = b then pure (a, cur)
  else do
    let rangeLen := b - a
    let wa := a / 64
    let wb := (b - 1) / 64
    let shiftA := a % 64
    let w ← at_ v.rs.bv.bits wa
    let lenA := minW (64 - shiftA) rangeLen
    let padded ← padA (w >>> shiftA.toNat) lenA
    let s ← rmqInWord padded a ⟨cur, cur, a⟩
    if wa = wb then pure (s.idx, s.min)
    else do
      let e ← i32 (s.exc - (64 - s32 lenA))
      let s ← rmqInner v wa wb ⟨e, s.min, s.idx⟩
      let w ← at_ v.rs.bv.bits wb
      let padded ← padB w (b % 64)
      let s ← rmqInWord padded (wb * 64) s
      assertP (s.idx ≥ a)
      let chk ← excess v s.idx
      assertP (s.min = chk)
      pure (s.idx, s.min)

end BpVector

/-! ## `cartesian_tree` -/

/-- `cartesian_tree::builder<T>` (`cartesian_tree.hpp:39-81`).  `stack` is `m_stack` with `back()` as the head of the list. -/
structure CartesianBuilder (α : Type) where
  stack : List α
  bp : Builder
deriving Repr

namespace CartesianBuilder
variable {α : Type}

/-- `cartesian_tree.hpp:42-47` without an expected size, as in `cartesian_tree.hpp:171` -/
def new : Option (CartesianBuilder α) := do
  let b ← Builder.new 0 false
  pure ⟨[], b⟩

/-- the loop `cartesian_tree.hpp:54-58` -/
def popLoop (comp : α → α → Bool) (val : α) : List α → Builder → Option (List α × Builder)
  | [], b => some ([], b)
  | top :: rest, b =>
    if comp val top then do
      let b ← b.pushBack true
      popLoop comp val rest b
    else some (top :: rest, b)

/-- `cartesian_tree.hpp:49-61` -/
def pushBack (comp : α → α → Bool) (s : CartesianBuilder α) (val : α) : Option (CartesianBuilder α) := do
  let b ← s.bp.pushBack false
  let (st, b) ← popLoop comp val s.stack b
  pure ⟨val :: st, b⟩

/-- the loop `cartesian_tree.hpp:67-70` -/
def drainLoop : List α → Builder → Option Builder
  | [], b => some b
  | _ :: rest, b => do
    let b ← b.pushBack true
    drainLoop rest b

/-- `cartesian_tree.hpp:63-75` -/
def finalize (s : CartesianBuilder α) : Option Builder := do
  let b ← s.bp.pushBack false
  let b ← drainLoop s.stack b
  let b ← b.pushBack true
  b.reverse

/-- the loop `cartesian_tree.hpp:172-174` -/
def pushAll (comp : α → α → Bool) : List α → CartesianBuilder α → Option (CartesianBuilder α)
  | [], s => some s
  | x :: rest, s => do
    let s ← pushBack comp s x
    pushAll comp rest s

end CartesianBuilder

/-- `cartesian_tree` (`cartesian_tree.hpp:179`) -/
structure CartesianTree where
  bp : BpVector
deriving DecidableEq, Repr

namespace CartesianTree

/-- `cartesian_tree.hpp:163-176` with the constructor `85-89` -/
def build {α : Type} (comp : α → α → Bool) (v : List α) : Option CartesianTree := do
  let s ← CartesianBuilder.new
  let s ← CartesianBuilder.pushAll comp v s
  let b ← s.finalize
  let bv ← BitVector.ofBuilder b
  let v ← BpVector.build bv false true
  pure ⟨v⟩

/-- `cartesian_tree.hpp:144-147` -/
def size (t : CartesianTree) : Word := t.bp.rs.bv.size / 2 - 1

/-- `cartesian_tree.hpp:106-137` -/
def rmq (t : CartesianTree) (a b : Word) : Option Word := do
  assertP (a ≤ b)
  if a = b then pure a
  else do
    let n := size t
    let tp ← RSBitVector.select0 t.bp.rs (n - b - 1)
    let excT := s32 (tp - 2 * (n - b - 1))
    let excT1 ← i32 (excT - 1)
    let e ← t.bp.excess (tp + 1)
    assertP (excT1 = e)
    let x ← RSBitVector.select0 t.bp.rs (n - b)
    let y ← RSBitVector.select0 t.bp.rs (n - a)
    let (w, excW) ← t.bp.excessRmq x y
    let rank0 := (w - BitVec.ofInt 64 excW) / 2
    let bit ← BitVector.access t.bp.rs.bv (w - 1)
    assertP (bit = false)
    let ret := if excW ≥ excT1 then b else n - rank0
    assertP (ret ≥ a)
    assertP (ret ≤ b)
    pure ret

end CartesianTree
end Machine
end Succinct
