import Verif.Model.RSBitVector

/-! # `bp_vector.hpp` and `bp_vector.cpp`

`excess_t` is `int32_t`: its values are modelled by `Int`, `i32` checks every signed 32-bit
addition or subtraction (overflow is undefined behaviour), and `toI32` is the conversion
`static_cast<excess_t>` of an unsigned 64-bit value. -/
namespace Succinct
open Broadword

/-- a signed 32-bit result (`excess_t`, `bp_vector.hpp:52`; e.g. `bp_vector.cpp:655`); overflow is undefined behaviour -/
def i32 (x : Int) : Option Int := if -2147483648 ≤ x ∧ x < 2147483648 then some x else none

/-- `static_cast<excess_t>` of the `uint64_t` congruent to `x` (`bp_vector.cpp:164,192,302,362,680`; the unsigned arithmetic before the
cast wraps modulo `2^64`, the conversion reduces modulo `2^32` into the signed range: documented
behaviour of gcc, clang and msvc, mandatory since C++20) -/
def toI32 (x : Int) : Int := Int.bmod x (2^32)

namespace Bp

/-- The entries of one row of `excess_tables` filled by the forward loop (members `bp_vector.cpp:62,64,68,70`, loop `24-40`). -/
structure FwdRow where
  pos : List Nat
  min : Nat
  minIdx : Nat
  exc : Int
deriving DecidableEq, Repr

/-- body of the loop `bp_vector.cpp:24-39`.  `-excess` is at most 8, so it indexes the nine
entries of `m_fwd_pos[c]`. -/
def fwdStep (c : Nat) (r : FwdRow) (i : Nat) : FwdRow :=
  let isOpen := (c >>> i) &&& 1 ≠ 0
  let excess := if isOpen then r.exc + 1 else r.exc - 1
  let pos :=
    if ¬ isOpen ∧ excess < 0 ∧ r.pos.getD (-excess).toNat 0 = 0 then r.pos.set (-excess).toNat (i + 1)
    else r.pos
  if -excess > (r.min : Int) then ⟨pos, (-excess).toNat, i + 1, excess⟩
  else ⟨pos, r.min, r.minIdx, excess⟩

/-- `bp_vector.cpp:15-40`: `m_fwd_pos[c]`, `m_fwd_min[c]`, `m_fwd_min_idx[c]`, `m_fwd_exc[c]`.
`m_fwd_exc` has the element type `char`; the model is for platforms where `char` is signed. -/
def fwdRow (c : Nat) : FwdRow := (List.range 8).foldl (fwdStep c) ⟨List.replicate 9 0, 0, 0, 0⟩

/-- The entries of one row of `excess_tables` filled by the backward loop (members `bp_vector.cpp:65,67`, loop `46-58`). -/
structure BwdRow where
  pos : List Nat
  max : Nat
  exc : Int
deriving DecidableEq, Repr

/-- body of the loop `bp_vector.cpp:46-58` -/
def bwdStep (c : Nat) (r : BwdRow) (i : Nat) : BwdRow :=
  let isOpen := (c <<< i) &&& 128 ≠ 0
  let excess := if isOpen then r.exc + 1 else r.exc - 1
  let pos :=
    if isOpen ∧ excess > 0 ∧ r.pos.getD excess.toNat 0 = 0 then r.pos.set excess.toNat (i + 1)
    else r.pos
  ⟨pos, (Max.max excess (r.max : Int)).toNat, excess⟩

/-- `bp_vector.cpp:15-18,42-58`: `m_bwd_pos[c]` and `m_bwd_min[c]` -/
def bwdRow (c : Nat) : BwdRow := (List.range 8).foldl (bwdStep c) ⟨List.replicate 9 0, 0, 0⟩

/-- `(word >> shift) & 0xFF` (e.g. `bp_vector.cpp:83`) -/
def byteOf (word : Word) (shift : Nat) : Nat := ((word >>> shift) &&& 0xFF#64).toNat

/-- `bp_vector.cpp:80-84` -/
def minExcStep8 (word : Word) : Word :=
  (List.range 8).foldl
    (fun acc i => acc ||| (BitVec.ofNat 64 (fwdRow (byteOf word (i * 8))).min <<< (i * 8))) 0

/-- `bp_vector.cpp:78` -/
def cumExcClose (byteCounts : Word) (curExc : Int) : Word :=
  (BitVec.ofInt 64 curExc + ((2#64 * byteCounts - 8#64 * onesStep8) <<< 8)) * onesStep8

/-- `bp_vector.cpp:75-96`.  The inner `Option` is the returned flag together with `ret`. -/
def findCloseInWord (word byteCounts : Word) (curExc : Int) : Option (Option Nat) := do
  assertP (curExc > 0 ∧ curExc ≤ 64)
  let cum := cumExcClose byteCounts curExc
  let hasResult := leqStep8 cum (minExcStep8 word)
  match lsb hasResult with
  | none => pure none
  | some shift => do
    let bitPos ← (fwdRow (byteOf word shift)).pos[byteOf cum shift]?
    assertP (bitPos > 0)
    pure (some (shift + bitPos - 1))

/-- `bp_vector.cpp:103-107` -/
def maxExcStep8 (word : Word) : Word :=
  (List.range 8).foldl
    (fun acc i => acc ||| (BitVec.ofNat 64 (bwdRow (byteOf word (64 - i * 8 - 8))).max <<< (i * 8))) 0

/-- `bp_vector.cpp:100-101` -/
def cumExcOpen (byteCounts : Word) (curExc : Int) : Word :=
  (BitVec.ofInt 64 curExc - ((2#64 * reverseBytes byteCounts - 8#64 * onesStep8) <<< 8)) * onesStep8

/-- `bp_vector.cpp:98-119` -/
def findOpenInWord (word byteCounts : Word) (curExc : Int) : Option (Option Nat) := do
  assertP (curExc > 0 ∧ curExc ≤ 64)
  let cum := cumExcOpen byteCounts curExc
  let hasResult := leqStep8 cum (maxExcStep8 word)
  match lsb hasResult with
  | none => pure none
  | some shift => do
    let s ← subU 56 shift
    let bitPos ← (bwdRow (byteOf word s)).pos[byteOf cum shift]?
    assertP (bitPos > 0)
    let r ← subU 64 (shift + bitPos)
    pure (some r)

/-- the variables passed by reference to the `excess_rmq` helpers (`bp_vector.cpp:121-125`) -/
structure Rmq where
  exc : Int
  min : Int
  idx : Nat
deriving DecidableEq, Repr

/-- local variables of the loop `bp_vector.cpp:128-138` -/
structure RmqByte where
  exc : Int
  min : Int
  byteIdx : Nat

/-- body of the loop `bp_vector.cpp:128-138` -/
def rmqByteStep (word : Word) (s : RmqByte) (i : Nat) : Option RmqByte := do
  let byte := byteOf word (i * 8)
  let curMin ← i32 (s.exc - (fwdRow byte).min)
  let exc ← i32 (s.exc + (fwdRow byte).exc)
  pure (if curMin < s.min then ⟨exc, curMin, i⟩ else ⟨exc, s.min, s.byteIdx⟩)

/-- the loop `bp_vector.cpp:128-138` -/
def rmqByteLoop (word : Word) : List Nat → RmqByte → Option RmqByte
  | [], s => some s
  | i :: is, s => do
    let s' ← rmqByteStep word s i
    rmqByteLoop word is s'

/-- `bp_vector.cpp:121-145` -/
def rmqInWord (word : Word) (wordStart : Nat) (s : Rmq) : Option Rmq := do
  let b ← rmqByteLoop word (List.range 8) ⟨s.exc, s.min, 0⟩
  pure (if b.min < s.min then
      ⟨b.exc, b.min, wordStart + b.byteIdx * 8 + (fwdRow (byteOf word (b.byteIdx * 8))).minIdx⟩
    else ⟨b.exc, s.min, s.idx⟩)

end Bp
open Bp

/-- `bp_vector.hpp:97-99`, with the base class `rs_bit_vector`. -/
structure BpVector where
  rs : RSBitVector
  internalNodes : Nat
  blockMin : List Int
  superMin : List Int
deriving DecidableEq, Repr

namespace BpVector

/-- `bp_vector.cpp:299-305`, on the base class (it is called by `build_min_tree`) -/
def blockExcess (rs : RSBitVector) (block : Nat) : Option Int := do
  let subBlockIdx := block * 4
  let r ← RSBitVector.subBlockRank rs.pairs subBlockIdx
  let excess := toI32 (2 * (r : Int) - (subBlockIdx * 64 : Nat))
  assertP (excess ≥ 0)
  pure excess

/-- local variables of the first loop of `build_min_tree`, `bp_vector.cpp:632-633` -/
structure BlockState where
  mins : List Int
  curMin : Int
  curExc : Int

/-- `bp_vector.cpp:654-658`; `k` iterations are left.  `cur_superblock_excess` is reset every
8192 bits, so these additions cannot overflow and are not checked. -/
def bitLoop (word : Word) : Nat → Word → Int → Int → Int × Int
  | 0, _, curMin, curExc => (curMin, curExc)
  | k + 1, mask, curMin, curExc =>
    let curExc := curExc + (if word &&& mask ≠ 0 then 1 else -1)
    bitLoop word k (mask <<< 1) (min curMin curExc) curExc

/-- `bp_vector.cpp:640-642` and `661-663` -/
def flushMin (mins : List Int) (curMin : Int) : Option (List Int) := do
  assertP (curMin ≥ -32768)
  assertP (curMin ≤ 32767)
  pure (mins ++ [curMin])

/-- `bp_vector.cpp:635-645` -/
def blockStart (st : BlockState) (subBlock : Nat) : Option BlockState :=
  if subBlock % 4 = 0 then
    let curExc := if subBlock % (4 * 32) = 0 then 0 else st.curExc
    if subBlock ≠ 0 then do
      let mins ← flushMin st.mins st.curMin
      pure ⟨mins, curExc, curExc⟩
    else some ⟨st.mins, st.curMin, curExc⟩
  else some st

/-- `bp_vector.cpp:648-652` -/
def nBits (nWords size subBlock : Nat) : Nat :=
  if subBlock = nWords - 1 ∧ size % 64 ≠ 0 then size % 64 else 64

/-- `bp_vector.cpp:634-659`, for the words from index `subBlock` on -/
def blockLoop (nWords size : Nat) : List Word → Nat → BlockState → Option BlockState
  | [], _, st => some st
  | word :: ws, subBlock, st => do
    let st ← blockStart st subBlock
    let r := bitLoop word (nBits nWords size subBlock) 1#64 st.curMin st.curExc
    blockLoop nWords size ws (subBlock + 1) ⟨st.mins, r.1, r.2⟩

/-- `bp_vector.cpp:632-663` -/
def blockMins (bits : List Word) (size : Nat) : Option (List Int) := do
  let st ← blockLoop bits.length size bits 0 ⟨[], 0, 0⟩
  flushMin st.mins st.curMin

/-- `bp_vector.cpp:683-687`; `k` blocks are left -/
def superMinLoop (mins : List Int) (superExc : Int) : Nat → Nat → Int → Option Int
  | 0, _, cur => some cur
  | k + 1, block, cur => do
    let m ← rd mins block
    let e ← i32 (superExc + m)
    superMinLoop mins superExc k (block + 1) (min cur e)

/-- `bp_vector.cpp:680-690`: the leaf of superblock `s` -/
def leafMin (rs : RSBitVector) (mins : List Int) (nBlocks s : Nat) : Option Int := do
  let superExc ← blockExcess rs (s * 32)
  let cur ← superMinLoop mins superExc (min ((s + 1) * 32) nBlocks - s * 32) (s * 32)
    (toI32 rs.bv.size)
  assertP (cur ≥ 0 ∧ cur < toI32 rs.bv.size)
  pure cur

/-- `bp_vector.cpp:679-691`; `k` superblocks are left -/
def leavesLoop (rs : RSBitVector) (mins : List Int) (nBlocks : Nat) :
    Nat → Nat → List Int → Option (List Int)
  | 0, _, acc => some acc
  | k + 1, s, acc => do
    let x ← leafMin rs mins nBlocks s
    leavesLoop rs mins nBlocks k (s + 1) (acc ++ [x])

/-- `bp_vector.cpp:670-671`: the smallest power of two `≥ n` -/
def completeLeaves (n : Nat) : Nat → Nat → Option Nat
  | fuel, c =>
    if c < n then
      match fuel with
      | 0 => none
      | fuel + 1 => completeLeaves n fuel (c * 2)
    else some c

/-- `bp_vector.cpp:700-704`: the iterations for `node = k+1, ..., 2` -/
def treeLoop : Nat → List Int → Option (List Int)
  | 0, t => some t
  | k + 1, t => do
    let node := k + 2
    let parent := node / 2
    let a ← rd t parent
    let b ← rd t node
    let t ← wr t parent (min a b)
    treeLoop k t

/-- `bp_vector.cpp:628-708`.  The array `superblock_excess_min` is allocated, its leaves are
written by the loop 679-691 and its internal nodes by the loop 695-697; the model concatenates
the two parts.  For an empty vector `m_internal_nodes` keeps its indeterminate value; the model
uses 0, no query reads it. -/
def buildMinTree (rs : RSBitVector) : Option BpVector := do
  if rs.bv.size = 0 then pure ⟨rs, 0, [], []⟩
  else
    let mins ← blockMins rs.bv.bits rs.bv.size
    let nBlocks := (rs.bv.bits.length + 4 - 1) / 4
    assertP (nBlocks = mins.length)
    let nSuper := (nBlocks + 32 - 1) / 32
    let internal ← completeLeaves nSuper nSuper 1
    let leaves ← leavesLoop rs mins nBlocks nSuper 0 []
    let treeSize := internal + nSuper
    let tree ← treeLoop (treeSize - 2) (List.replicate internal (toI32 rs.bv.size) ++ leaves)
    pure ⟨rs, internal, mins, tree⟩

/-- constructor `bp_vector.hpp:19-26` -/
def build (bv : BitVector) (withHints withHints0 : Bool) : Option BpVector := do
  let rs ← RSBitVector.build bv withHints withHints0
  buildMinTree rs

/-- `bp_vector.cpp:359-363` -/
def excess (v : BpVector) (pos : Nat) : Option Int := do
  let r ← RSBitVector.rank v.rs pos
  pure (toI32 (2 * (r : Int) - pos))

/-- `bp_vector.cpp:158-159` -/
def closeWord (word bc : Word) (excess : Int) : Option (Option Nat) :=
  if excess ≤ 64 then findCloseInWord word bc excess else some none

/-- the loop `bp_vector.cpp:153-165`; `k` words are left, the next one is `subBlock` -/
def closeLoop (bits : List Word) : Nat → Nat → Int → Option (Option Nat)
  | 0, _, _ => some none
  | k + 1, subBlock, excess => do
    let word ← rd bits subBlock
    let bc := byteCounts word
    assertP (excess > 0)
    let r ← closeWord word bc excess
    match r with
    | some ret => pure (some (ret + subBlock * 64))
    | none => do
      let excess ← i32 (excess + toI32 (2 * ((bytesSum bc).toNat : Int) - 64))
      closeLoop bits k (subBlock + 1) excess

/-- `bp_vector.cpp:148-167` -/
def findCloseInBlock (bits : List Word) (blockOffset : Nat) (excess : Int) (start : Nat) :
    Option (Option Nat) := do
  let left ← subU 4 start
  if excess > toI32 (left * 64 : Nat) then pure none
  else do
    assertP (excess > 0)
    closeLoop bits left (blockOffset + start) excess

/-- the loop `bp_vector.cpp:277-284`; `k` blocks are left -/
def searchFwd (mins : List Int) (excess superExc : Int) : Nat → Nat → Option (Option Nat)
  | 0, _ => some none
  | k + 1, block => do
    let m ← rd mins block
    let e ← i32 (superExc + m)
    if excess ≥ e then pure (some block) else searchFwd mins excess superExc k (block + 1)

/-- the loop `bp_vector.cpp:286-293`; `k` blocks are left, the next one is `low + k - 1` -/
def searchBwd (mins : List Int) (excess superExc : Int) (low : Nat) : Nat → Option (Option Nat)
  | 0 => some none
  | k + 1 => do
    let m ← rd mins (low + k)
    let e ← i32 (superExc + m)
    if excess ≥ e then pure (some (low + k)) else searchBwd mins excess superExc low k

/-- `bp_vector.cpp:271-297` -/
def searchBlockInSuperblock (v : BpVector) (fwd : Bool) (block : Nat) (excess : Int) :
    Option (Option Nat) := do
  let superblock := block / 32
  let superExc ← blockExcess v.rs (superblock * 32)
  if fwd then
    searchFwd v.blockMin excess superExc (min ((superblock + 1) * 32) v.blockMin.length - block) block
  else
    searchBwd v.blockMin excess superExc (superblock * 32) (block + 1 - superblock * 32)

/-- `bp_vector.cpp:307-310` -/
def inNodeRange (v : BpVector) (node : Nat) (excess : Int) : Option Bool := do
  let m ← rd v.superMin node
  assertP (m ≠ toI32 v.rs.bv.size)
  pure (decide (excess ≥ m))

/-- `bp_vector.cpp:326` and `344`: the other child, to the right or to the left -/
def otherNode (fwd : Bool) (node : Nat) : Option Nat := if fwd then some (node + 1) else subU node 1

/-- the test of `bp_vector.cpp:324-331`: is the walk finished at the sibling of `node`, and where? -/
def siblingHit (v : BpVector) (fwd : Bool) (node : Nat) (excess : Int) : Option (Option Nat) :=
  if node % 2 = (if fwd then 1 else 0) then some none
  else do
    let next ← otherNode fwd node
    let b ← inNodeRange v next excess
    pure (if b then some next else none)

/-- the loop `bp_vector.cpp:322-333` -/
def treeUp (v : BpVector) (fwd : Bool) (excess : Int) : Nat → Nat → Option Nat
  | 0, _ => none
  | fuel + 1, node => do
    assertP (node ≠ 0)
    let r ← siblingHit v fwd node excess
    match r with
    | some n => pure n
    | none => treeUp v fwd excess fuel (node / 2)

/-- the loop `bp_vector.cpp:337-348` -/
def treeDown (v : BpVector) (fwd : Bool) (excess : Int) : Nat → Nat → Option Nat
  | fuel, node =>
    if node < v.internalNodes then
      match fuel with
      | 0 => none
      | fuel + 1 => do
        let next := node * 2 + (if fwd then 0 else 1)
        let b ← inNodeRange v next excess
        if b then treeDown v fwd excess fuel next
        else do
          let other ← otherNode fwd next
          let b' ← inNodeRange v other excess
          assertP (b' = true)
          treeDown v fwd excess fuel other
    else some node

/-- `bp_vector.cpp:312-356` -/
def searchMinTree (v : BpVector) (fwd : Bool) (block : Nat) (excess : Int) : Option Nat := do
  let r ← searchBlockInSuperblock v fwd block excess
  match r with
  | some b => pure b
  | none => do
    let start := v.internalNodes + block / 32
    let top ← treeUp v fwd excess (start + 1) start
    assertP (top ≠ 0)
    let leaf ← treeDown v fwd excess v.internalNodes top
    let next ← subU leaf v.internalNodes
    let r ← searchBlockInSuperblock v fwd (next * 32 + (if fwd then 0 else 31)) excess
    r

/-- `bp_vector.cpp:169-207`.  `~0ULL << (64 - shift)` is evaluated also for `shift = 0`, where the
count is 64; `ov` gives the value of that undefined shift, which is masked away. -/
def findClose (ov : Word → Nat → Word) (v : BpVector) (pos : Nat) : Option Nat := do
  let b ← v.rs.bv.access pos
  assertP (b = true)
  let wordPos := (pos + 1) / 64
  let shift := (pos + 1) % 64
  let w ← rd v.rs.bv.bits wordPos
  let padded := (w >>> shift) ||| (negBool (shift ≠ 0) &&& shlOv ov (BitVec.allOnes 64) (64 - shift))
  let bc := byteCounts padded
  let r ← findCloseInWord padded bc 1
  match r with
  | some ret => pure (ret + (pos + 1))
  | none => do
    let block := wordPos / 4
    let blockOffset := block * 4
    let subBlock := wordPos % 4
    let localRank ← subU (bytesSum bc).toNat shift
    let localExcess := toI32 (2 * (localRank : Int) - (64 - shift : Nat))
    let e1 ← i32 (localExcess + 1)
    let r ← findCloseInBlock v.rs.bv.bits blockOffset e1 (subBlock + 1)
    match r with
    | some ret => pure ret
    | none => do
      let posExcess ← excess v pos
      let found ← searchMinTree v true (block + 1) posExcess
      let foundExcess ← blockExcess v.rs found
      let e2 ← i32 (foundExcess - posExcess)
      let r ← findCloseInBlock v.rs.bv.bits (found * 4) e2 0
      r

/-- `bp_vector.cpp:220-221` -/
def openWord (word bc : Word) (excess : Int) : Option (Option Nat) :=
  if excess ≤ 64 then findOpenInWord word bc excess else some none

/-- the loop `bp_vector.cpp:215-227`; `k` words are left, the next one is `blockOffset + k - 1` -/
def openLoop (bits : List Word) (blockOffset : Nat) : Nat → Int → Option (Option Nat)
  | 0, _ => some none
  | k + 1, excess => do
    assertP (excess > 0)
    let subBlock := blockOffset + k
    let word ← rd bits subBlock
    let bc := byteCounts word
    let r ← openWord word bc excess
    match r with
    | some ret => pure (some (ret + subBlock * 64))
    | none => do
      let excess ← i32 (excess - toI32 (2 * ((bytesSum bc).toNat : Int) - 64))
      openLoop bits blockOffset k excess

/-- `bp_vector.cpp:209-229` -/
def findOpenInBlock (bits : List Word) (blockOffset : Nat) (excess : Int) (start : Nat) :
    Option (Option Nat) :=
  if excess > toI32 (start * 64 : Nat) then some none
  else do
    assertP (excess ≥ 0)
    openLoop bits blockOffset start excess

/-- `bp_vector.cpp:231-269`.  As in `findClose`, the over-wide shift for `len = 0` is masked away;
line 244 computes `ret + (pos - 64)` modulo `2^64`, which the model writes `ret + pos - 64`. -/
def findOpen (ov : Word → Nat → Word) (v : BpVector) (pos : Nat) : Option Nat := do
  assertP (pos ≠ 0)
  let wordPos := pos / 64
  let len := pos % 64
  let w ← rd v.rs.bv.bits wordPos
  let shifted := negBool (len ≠ 0) &&& shlOv ov w (64 - len)
  let bc := byteCounts shifted
  let r ← findOpenInWord shifted bc 1
  match r with
  | some ret => subU (ret + pos) 64
  | none => do
    let block := wordPos / 4
    let blockOffset := block * 4
    let subBlock := wordPos % 4
    let localRank := (bytesSum bc).toNat
    let localExcess ← i32 (- toI32 (2 * (localRank : Int) - len))
    let e1 ← i32 (localExcess + 1)
    let r ← findOpenInBlock v.rs.bv.bits blockOffset e1 subBlock
    match r with
    | some ret => pure ret
    | none => do
      let e ← excess v pos
      let posExcess ← i32 (e - 1)
      let prev ← subU block 1
      let found ← searchMinTree v false prev posExcess
      let foundExcess ← blockExcess v.rs (found + 1)
      let e2 ← i32 (foundExcess - posExcess)
      let r ← findOpenInBlock v.rs.bv.bits (found * 4) e2 4
      r

/-- `bp_vector.hpp:47-50` -/
def enclose (ov : Word → Nat → Word) (v : BpVector) (pos : Nat) : Option Nat := do
  let b ← v.rs.bv.access pos
  assertP (b = true)
  findOpen ov v pos

/-- the loop `bp_vector.cpp:375-378`; `k` words are left -/
def rmqWords (bits : List Word) : Nat → Nat → Rmq → Option Rmq
  | 0, _, s => some s
  | k + 1, w, s => do
    let word ← rd bits w
    let s ← rmqInWord word (w * 64) s
    rmqWords bits k (w + 1) s

/-- `bp_vector.cpp:365-379` -/
def rmqInBlock (bits : List Word) (start stop : Nat) (s : Rmq) : Option Rmq := do
  assertP (start ≤ stop)
  if start = stop then pure s
  else do
    assertP (start / 4 = (stop - 1) / 4)
    rmqWords bits (stop - start) start s

/-- the loop `bp_vector.cpp:394-399`; `k` blocks are left -/
def rmqBlocks (mins : List Int) (superExc : Int) : Nat → Nat → Int × Nat → Option (Int × Nat)
  | 0, _, s => some s
  | k + 1, block, s => do
    let m ← rd mins block
    let e ← i32 (superExc + m)
    rmqBlocks mins superExc k (block + 1) (if e < s.1 then (e, block) else s)

/-- `bp_vector.cpp:381-400` -/
def rmqInSuperblock (v : BpVector) (start stop : Nat) (s : Int × Nat) : Option (Int × Nat) := do
  assertP (start ≤ stop)
  if start = stop then pure s
  else do
    let superblock := start / 32
    assertP (superblock = (stop - 1) / 32)
    let superExc ← blockExcess v.rs (superblock * 32)
    rmqBlocks v.blockMin superExc (stop - start) start s

/-- `bp_vector.cpp:436-440`, `469-472` and `478-482`: take `node` as the new candidate if the
condition holds and its minimum is strictly smaller -/
def betterNode (tree : List Int) (cond : Bool) (node : Nat) (s : Int × Nat) : Option (Int × Nat) :=
  if cond then do
    let x ← rd tree node
    pure (if x < s.1 then (x, node) else s)
  else some s

/-- local variables of `find_min_superblock` (`bp_vector.cpp:410-427`): `cur_node`, `rightmost_span`, `h` and
`(node_min_exc, node_min_idx)` -/
structure Walk where
  node : Nat
  span : Nat
  h : Nat
  best : Int × Nat
deriving DecidableEq, Repr

/-- the loop `bp_vector.cpp:428-450` -/
def walkUp (tree : List Int) (stop : Nat) : Nat → Walk → Option Walk
  | 0, _ => none
  | fuel + 1, s => do
    assertP (s.node ≠ 0)
    if s.node % 2 = 0 then do
      assertP (s.h < 64)
      let span := s.span + 2^s.h
      let best ← betterNode tree (span < stop) (s.node + 1) s.best
      if span ≥ stop - 1 then pure ⟨s.node + 1, span, s.h, best⟩
      else walkUp tree stop fuel ⟨s.node / 2, span, s.h + 1, best⟩
    else walkUp tree stop fuel ⟨s.node / 2, s.span, s.h + 1, s.best⟩

/-- the loop `bp_vector.cpp:455-475`; the recursion is on `h` -/
def walkDown (tree : List Int) (stop : Nat) : Nat → Nat → Nat → Int × Nat → Option Walk
  | h, node, span, best =>
    if span > stop - 1 then do
      assertP (node < tree.length)
      match h with
      | 0 => none
      | h + 1 => do
        let left := node * 2
        let d ← subU span (2^h)
        if d ≥ stop - 1 then walkDown tree stop h left d best
        else do
          let best ← betterNode tree true left best
          walkDown tree stop h (left + 1) span best
    else some ⟨node, span, h, best⟩

/-- the loop `bp_vector.cpp:490-497` -/
def minLeaf (tree : List Int) (internal : Nat) : Nat → Nat → Option Nat
  | fuel, node =>
    if node < internal then
      match fuel with
      | 0 => none
      | fuel + 1 => do
        let a ← rd tree (node * 2 + 1)
        let b ← rd tree (node * 2)
        minLeaf tree internal fuel (if a < b then node * 2 + 1 else node * 2)
    else some node

/-- `bp_vector.cpp:403-506`; `s` is `(superblock_min_exc, superblock_min_idx)` -/
def findMinSuperblock (v : BpVector) (start stop : Nat) (s : Int × Nat) : Option (Int × Nat) := do
  if start = stop then pure s
  else do
    let node := v.internalNodes + start
    let m ← rd v.superMin node
    let d ← subU stop start
    if d = 1 then pure (m, start)
    else do
      let u ← walkUp v.superMin stop (node + 1) ⟨node, start, 0, (m, node)⟩
      assertP (u.node ≠ 0)
      let w ← walkDown v.superMin stop u.h u.node u.span u.best
      let best ← betterNode v.superMin (w.span < stop) w.node w.best
      assertP (w.span = stop - 1)
      if best.1 < s.1 then do
        let leaf ← minLeaf v.superMin v.internalNodes v.internalNodes best.2
        let x ← rd v.superMin leaf
        assertP (x = best.1)
        let i ← subU leaf v.internalNodes
        assertP (i ≥ start)
        assertP (i < stop)
        pure (best.1, i)
      else pure s

/-- `bp_vector.cpp:582-587` -/
def rmqSuper (v : BpVector) (t : Int × Nat) (m : Int) (s : Int × Nat) : Option (Int × Nat) :=
  if t.1 < m then rmqInSuperblock v (t.2 * 32) ((t.2 + 1) * 32) s else some s

/-- `bp_vector.cpp:559-594`: the search among whole blocks, from block `ba + 1` to block `bb`,
starting from the minimum `m`; `-1U` is the initial index. -/
def rmqMiddle (v : BpVector) (ba bb : Nat) (m : Int) : Option (Int × Nat) := do
  let sa := (ba + 1) / 32
  let sb := bb / 32
  if sa = sb then rmqInSuperblock v (ba + 1) bb (m, 4294967295)
  else do
    let s ← rmqInSuperblock v (ba + 1) ((sa + 1) * 32) (m, 4294967295)
    let t ← findMinSuperblock v (sa + 1) sb (m, 4294967295)
    let s ← rmqSuper v t m s
    rmqInSuperblock v (sb * 32) bb s

/-- `bp_vector.cpp:596-602` -/
def rmqBest (v : BpVector) (b : Int × Nat) (s : Rmq) : Option Rmq :=
  if b.1 < s.min then do
    let e ← blockExcess v.rs b.2
    let s ← rmqInBlock v.rs.bv.bits (b.2 * 4) ((b.2 + 1) * 4) ⟨e, s.min, s.idx⟩
    assertP (s.min = b.1)
    pure s
  else some s

/-- `bp_vector.cpp:543-608`: everything between the first word `wa` and the last word `wb` -/
def rmqInner (v : BpVector) (wa wb : Nat) (s : Rmq) : Option Rmq := do
  let ba := wa / 4
  let bb := wb / 4
  if ba = bb then rmqInBlock v.rs.bv.bits (wa + 1) wb s
  else do
    let s ← rmqInBlock v.rs.bv.bits (wa + 1) ((ba + 1) * 4) s
    let b ← rmqMiddle v ba bb s.min
    let s ← rmqBest v b s
    let e ← blockExcess v.rs bb
    rmqInBlock v.rs.bv.bits (bb * 4) wb ⟨e, s.min, s.idx⟩

/-- `bp_vector.cpp:530-533` and `613-616`: fill the bits from `len` on with ones -/
def padOpen (w : Word) (len : Nat) : Word :=
  if len = 64 then w else w ||| (BitVec.allOnes 64 <<< len)

/-- `bp_vector.cpp:508-625`: the returned position and `min_exc` -/
def excessRmq (v : BpVector) (a b : Nat) : Option (Nat × Int) := do
  assertP (a ≤ b)
  let cur ← excess v a
  if a = b then pure (a, cur)
  else do
    let rangeLen := b - a
    let wa := a / 64
    let wb := (b - 1) / 64
    let shiftA := a % 64
    let w ← rd v.rs.bv.bits wa
    let lenA := min (64 - shiftA) rangeLen
    let s ← rmqInWord (padOpen (w >>> shiftA) lenA) a ⟨cur, cur, a⟩
    if wa = wb then pure (s.idx, s.min)
    else do
      let e ← i32 (s.exc - (64 - (lenA : Int)))
      let s ← rmqInner v wa wb ⟨e, s.min, s.idx⟩
      let w ← rd v.rs.bv.bits wb
      let offB := b % 64
      let s ← rmqInWord (padOpen w (if offB = 0 then 64 else offB)) (wb * 64) s
      assertP (s.idx ≥ a)
      let chk ← excess v s.idx
      assertP (s.min = chk)
      pure (s.idx, s.min)

end BpVector
end Succinct
