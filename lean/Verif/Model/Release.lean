import Verif.Model.MachineBp

/-! # `find_close`, `find_open` and `enclose` with assertions compiled out

With `NDEBUG` the macro `assert` expands to nothing, so that a run goes on where the run of `MachineBp.lean` stops at a failing
assertion.  This file transcribes the searches of `bp_vector.cpp` a third time, in 64-bit arithmetic like
`MachineBp.lean` and without the assertions, those of the functions they call (`mappable_vector.hpp:102`, `rs_bit_vector.hpp:52`) included.
What is left as undefined behaviour are reads outside the arrays, over-wide shifts that are not masked away, and overflow of `excess_t`. -/
namespace Succinct

/-- how a call ends: with a value, in undefined behaviour, or not within the allotted number of loop iterations
(no counterpart in the source; the loops concerned are `bp_vector.cpp:322-333,337-348`) -/
inductive Outcome (α : Type) where
  | done (a : α)
  | undefined
  | running
deriving DecidableEq, Repr

namespace Outcome

/-- sequencing of two computations (the `;` of the source, e.g. `bp_vector.cpp:260-263`) -/
def bind {α β : Type} (x : Outcome α) (f : α → Outcome β) : Outcome β :=
  match x with
  | done a => f a
  | undefined => undefined
  | running => running

instance : Monad Outcome where
  pure := done
  bind := bind

/-- a computation without unbounded loops (e.g. `bp_vector.cpp:299-305`) -/
def of {α : Type} : Option α → Outcome α
  | some a => done a
  | none => undefined

end Outcome

namespace Release
open Broadword Succinct.Bp
open Machine (at_ s32 vlen)
open Machine.Bp (byteAt)
open Machine.BpVector (searchFwd searchBwd minW otherNode dir)

/-- `bp_vector.cpp:89-95`, for the result of `lsb` -/
def closeResult (word cum : Word) : Option Nat → Option (Option Word)
  | none => pure none
  | some n => do
    let shift : Word := BitVec.ofNat 64 n
    let c ← byteAt word shift
    let e ← byteAt cum shift
    let bitPos ← (fwdRow c).pos[e]?
    pure (some (shift + BitVec.ofNat 64 bitPos - 1))

/-- `bp_vector.cpp:75-96` -/
def findCloseInWord (word byteCounts : Word) (curExc : Int) : Option (Option Word) :=
  let cum := cumExcClose byteCounts curExc
  let hasResult := leqStep8 cum (minExcStep8 word)
  closeResult word cum (lsb hasResult)

/-- `bp_vector.cpp:112-118`, for the result of `lsb` -/
def openResult (word cum : Word) : Option Nat → Option (Option Word)
  | none => pure none
  | some n => do
    let shift : Word := BitVec.ofNat 64 n
    let c ← byteAt word (64 - shift - 8)
    let e ← byteAt cum shift
    let bitPos ← (bwdRow c).pos[e]?
    pure (some (64 - (shift + BitVec.ofNat 64 bitPos)))

/-- `bp_vector.cpp:98-119` -/
def findOpenInWord (word byteCounts : Word) (curExc : Int) : Option (Option Word) :=
  let cum := cumExcOpen byteCounts curExc
  let hasResult := leqStep8 cum (maxExcStep8 word)
  openResult word cum (lsb hasResult)

/-- `bp_vector.cpp:299-305` -/
def blockExcess (rs : Machine.RSBitVector) (block : Word) : Option Int := do
  let subBlockIdx := block * 4
  let blockPos := subBlockIdx * 64
  let r ← Machine.RSBitVector.subBlockRank rs.pairs subBlockIdx
  pure (s32 (2 * r - blockPos))

/-- `rs_bit_vector.hpp:51-64` -/
def rank (v : Machine.RSBitVector) (pos : Word) : Option Word :=
  if pos = v.bv.size then Machine.RSBitVector.numOnes v
  else do
    let subBlock := pos / 64
    let r ← Machine.RSBitVector.subBlockRank v.pairs subBlock
    let subLeft := pos % 64
    if subLeft ≠ 0 then do
      let w ← at_ v.bv.bits subBlock
      let x ← shl w (64 - subLeft).toNat
      pure (r + BitVec.ofNat 64 (popcount x))
    else pure r

/-- `bp_vector.cpp:359-363` -/
def excess (v : Machine.BpVector) (pos : Word) : Option Int := do
  let r ← rank v.rs pos
  pure (s32 (2 * r - pos))

/-- `bp_vector.cpp:158-159` -/
def closeWord (word bc : Word) (excess : Int) : Option (Option Word) :=
  if excess ≤ 64 then findCloseInWord word bc excess else some none

/-- the loop `bp_vector.cpp:153-165`; it makes at most four iterations -/
def closeLoop (bits : List Word) (blockOffset : Word) : Nat → Word → Int → Option (Option Word)
  | fuel, off, excess =>
    if off < 4 then
      match fuel with
      | 0 => none
      | fuel + 1 => do
        let subBlock := blockOffset + off
        let word ← at_ bits subBlock
        let bc := byteCounts word
        let r ← closeWord word bc excess
        match r with
        | some ret => pure (some (ret + subBlock * 64))
        | none => do
          let excess ← i32 (excess + s32 (2 * bytesSum bc - 64))
          closeLoop bits blockOffset fuel (off + 1) excess
    else some none

/-- `bp_vector.cpp:148-167` -/
def findCloseInBlock (bits : List Word) (blockOffset : Word) (excess : Int) (start : Word) : Option (Option Word) :=
  if excess > s32 ((4 - start) * 64) then pure none
  else closeLoop bits blockOffset 4 start excess

/-- `bp_vector.cpp:271-297`; the loops have no assertions and are those of `MachineBp.lean`, of at most 32 iterations -/
def searchBlockInSuperblock (v : Machine.BpVector) (fwd : Bool) (block : Word) (excess : Int) : Option (Option Word) := do
  let superblock := block / 32
  let superExc ← blockExcess v.rs (superblock * 32)
  if fwd then searchFwd v.blockMin excess superExc (minW ((superblock + 1) * 32) (vlen v.blockMin)) 32 block
  else searchBwd v.blockMin excess superExc superblock 32 block

/-- `bp_vector.cpp:307-310` -/
def inNodeRange (v : Machine.BpVector) (node : Word) (excess : Int) : Option Bool := do
  let m ← at_ v.superMin node
  pure (decide (excess ≥ m))

/-- the test of `bp_vector.cpp:324-331` -/
def siblingHit (v : Machine.BpVector) (fwd : Bool) (node : Word) (excess : Int) : Option (Option Word) :=
  if node &&& 1 = dir fwd then some none
  else do
    let next := otherNode fwd node
    let b ← inNodeRange v next excess
    pure (if b then some next else none)

/-- the loop `bp_vector.cpp:322-333` -/
def treeUp (v : Machine.BpVector) (fwd : Bool) (excess : Int) : Nat → Word → Outcome Word
  | 0, _ => .running
  | fuel + 1, node => do
    let r ← Outcome.of (siblingHit v fwd node excess)
    match r with
    | some n => pure n
    | none => treeUp v fwd excess fuel (node / 2)

/-- the loop `bp_vector.cpp:337-348` -/
def treeDown (v : Machine.BpVector) (fwd : Bool) (excess : Int) : Nat → Word → Outcome Word
  | fuel, node =>
    if node < v.internalNodes then
      match fuel with
      | 0 => .running
      | fuel + 1 => do
        let next := node * 2 + (1 - dir fwd)
        let b ← Outcome.of (inNodeRange v next excess)
        treeDown v fwd excess fuel (if b then next else otherNode fwd next)
    else .done node

/-- `-1U` converted to `uint64_t` (`bp_vector.cpp:172,234,315`), the value of `ret` and `found_block` when nothing was found -/
def notFound : Word := 0xFFFFFFFF#64

/-- `bp_vector.cpp:312-356` -/
def searchMinTree (v : Machine.BpVector) (fwd : Bool) (fuel : Nat) (block : Word) (excess : Int) : Outcome Word := do
  let r ← Outcome.of (searchBlockInSuperblock v fwd block excess)
  match r with
  | some b => pure b
  | none => do
    let top ← treeUp v fwd excess fuel (v.internalNodes + block / 32)
    let leaf ← treeDown v fwd excess fuel top
    let next := leaf - v.internalNodes
    let r ← Outcome.of (searchBlockInSuperblock v fwd (next * 32 + (1 - dir fwd) * (32 - 1)) excess)
    pure (r.getD notFound)

/-- `bp_vector.cpp:197-206`: from the search in the tree on -/
def closeFar (v : Machine.BpVector) (fuel : Nat) (pos block : Word) : Outcome Word := do
  let posExcess ← Outcome.of (excess v pos)
  let found ← searchMinTree v true fuel (block + 1) posExcess
  let foundExcess ← Outcome.of (blockExcess v.rs found)
  let e2 ← Outcome.of (i32 (foundExcess - posExcess))
  let r ← Outcome.of (findCloseInBlock v.rs.bv.bits (found * 4) e2 0)
  pure (r.getD notFound)

/-- `bp_vector.cpp:187-206`: from the search in the rest of the block on; `bc` are the byte counts of the padded word -/
def closeRest (v : Machine.BpVector) (fuel : Nat) (pos bc : Word) : Outcome Word := do
  let wordPos := (pos + 1) / 64
  let shift := (pos + 1) % 64
  let block := wordPos / 4
  let blockOffset := block * 4
  let subBlock := wordPos % 4
  let localRank := bytesSum bc - shift
  let localExcess := s32 (2 * localRank - (64 - shift))
  let e1 ← Outcome.of (i32 (localExcess + 1))
  let r ← Outcome.of (findCloseInBlock v.rs.bv.bits blockOffset e1 (subBlock + 1))
  match r with
  | some ret => pure ret
  | none => closeFar v fuel pos block

/-- `bp_vector.cpp:169-207`; `ov` as in `BpVector.lean` -/
def findClose (ov : Word → Nat → Word) (v : Machine.BpVector) (fuel : Nat) (pos : Word) : Outcome Word := do
  let wordPos := (pos + 1) / 64
  let shift := (pos + 1) % 64
  let w ← Outcome.of (at_ v.rs.bv.bits wordPos)
  let padded := (w >>> shift.toNat) ||| (negBool (shift ≠ 0) &&& shlOv ov (BitVec.allOnes 64) (64 - shift).toNat)
  let bc := byteCounts padded
  let r ← Outcome.of (findCloseInWord padded bc 1)
  match r with
  | some ret => pure (ret + (pos + 1))
  | none => closeRest v fuel pos bc

/-- `bp_vector.cpp:220-221` -/
def openWord (word bc : Word) (excess : Int) : Option (Option Word) :=
  if excess ≤ 64 then findOpenInWord word bc excess else some none

/-- the loop `bp_vector.cpp:215-227`; it makes at most `start ≤ 4` iterations -/
def openLoop (bits : List Word) (blockOffset : Word) : Nat → Word → Int → Option (Option Word)
  | fuel, off, excess =>
    if off + 1 > 0 then
      match fuel with
      | 0 => none
      | fuel + 1 => do
        let subBlock := blockOffset + off
        let word ← at_ bits subBlock
        let bc := byteCounts word
        let r ← openWord word bc excess
        match r with
        | some ret => pure (some (ret + subBlock * 64))
        | none => do
          let excess ← i32 (excess - s32 (2 * bytesSum bc - 64))
          openLoop bits blockOffset fuel (off - 1) excess
    else some none

/-- `bp_vector.cpp:209-229` -/
def findOpenInBlock (bits : List Word) (blockOffset : Word) (excess : Int) (start : Word) : Option (Option Word) :=
  if excess > s32 (start * 64) then some none
  else openLoop bits blockOffset 4 (start - 1) excess

/-- `bp_vector.cpp:258-268`: from the search in the tree on -/
def openFar (v : Machine.BpVector) (fuel : Nat) (pos block : Word) : Outcome Word := do
  let e ← Outcome.of (excess v pos)
  let posExcess ← Outcome.of (i32 (e - 1))
  let found ← searchMinTree v false fuel (block - 1) posExcess
  let foundExcess ← Outcome.of (blockExcess v.rs (found + 1))
  let e2 ← Outcome.of (i32 (foundExcess - posExcess))
  let r ← Outcome.of (findOpenInBlock v.rs.bv.bits (found * 4) e2 4)
  pure (r.getD notFound)

/-- `bp_vector.cpp:248-268`: from the search in the rest of the block on; `bc` are the byte counts of the shifted word -/
def openRest (v : Machine.BpVector) (fuel : Nat) (pos bc : Word) : Outcome Word := do
  let wordPos := pos / 64
  let len := pos % 64
  let block := wordPos / 4
  let blockOffset := block * 4
  let subBlock := wordPos % 4
  let localRank := bytesSum bc
  let localExcess ← Outcome.of (i32 (- s32 (2 * localRank - len)))
  let e1 ← Outcome.of (i32 (localExcess + 1))
  let r ← Outcome.of (findOpenInBlock v.rs.bv.bits blockOffset e1 subBlock)
  match r with
  | some ret => pure ret
  | none => openFar v fuel pos block

/-- `bp_vector.cpp:231-269` -/
def findOpen (ov : Word → Nat → Word) (v : Machine.BpVector) (fuel : Nat) (pos : Word) : Outcome Word := do
  let wordPos := pos / 64
  let len := pos % 64
  let w ← Outcome.of (at_ v.rs.bv.bits wordPos)
  let shifted := negBool (len ≠ 0) &&& shlOv ov w (64 - len).toNat
  let bc := byteCounts shifted
  let r ← Outcome.of (findOpenInWord shifted bc 1)
  match r with
  | some ret => pure (ret + (pos - 64))
  | none => openRest v fuel pos bc

/-- `bp_vector.hpp:47-50` -/
def enclose (ov : Word → Nat → Word) (v : Machine.BpVector) (fuel : Nat) (pos : Word) : Outcome Word := findOpen ov v fuel pos

end Release
end Succinct
