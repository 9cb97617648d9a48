import Verif.Model.BitVector

/-! # `darray.hpp` and `darray64.hpp` -/
namespace Succinct
open Broadword

/-- the three inventories built by `darray` (`darray.hpp:23-25,140-142`): `int64_t`, `uint16_t` and
`uint64_t` entries -/
structure DInv where
  block : List Int
  subblock : List Nat
  overflow : List Nat
deriving DecidableEq, Repr

/-- `darray.hpp:139-142` -/
structure Darray where
  positions : Nat
  inv : DInv
deriving DecidableEq, Repr

namespace Darray

/-- `WordGetter` (`darray.hpp:145-157`): `identity_getter` for `neg = false`, `negating_getter` for
`neg = true` -/
def getWord (neg : Bool) (data : List Word) (idx : Nat) : Option Word := do
  let w ← rd data idx
  pure (if neg then ~~~w else w)

/-- `uint16_t(cur_block_positions[i] - cur_block_positions.front())` (`darray.hpp:119`) -/
def subOffset (cur : List Nat) (front i : Nat) : Option Nat := do
  let p ← rd cur i
  let d ← subU p front
  pure (d % 2^16)

/-- `flush_cur_block` (`darray.hpp:113-131`); the loops `for (i = 0; i < size; i += 32)` are the list
of the multiples of 32 below `size`.  The caller clears `cur`. -/
def flush (cur : List Nat) (d : DInv) : Option DInv := do
  let back ← cur.getLast?
  let front ← cur.head?
  let dist ← subU back front
  let steps := List.range ((cur.length + 31) / 32)
  if dist < 2^16 then
    let offs ← steps.mapM fun k => subOffset cur front (32*k)
    pure ⟨d.block ++ [(front : Int)], d.subblock ++ offs, d.overflow⟩
  else
    pure ⟨d.block ++ [-(d.overflow.length : Int) - 1], d.subblock ++ steps.map (fun _ => 2^16 - 1), d.overflow ++ cur⟩

/-- local variables of the constructor `darray.hpp:22-25` -/
structure BuildState where
  cur : List Nat
  inv : DInv
  positions : Nat

/-- `darray.hpp:36-40,45` -/
def pushPos (st : BuildState) (pos : Nat) : Option BuildState := do
  let cur := st.cur ++ [pos]
  if cur.length = 1024 then
    let inv ← flush cur st.inv
    pure ⟨[], inv, st.positions + 1⟩
  else pure ⟨cur, st.inv, st.positions + 1⟩

/-- the loop over the bits of one word (`darray.hpp:31-46`); a word has at most 64 ones, so fuel 65
suffices.  `cur_word >>= l` has `l < 64`. -/
def scanWord (size : Nat) : Nat → Word → Nat → BuildState → Option BuildState
  | 0, _, _, _ => none
  | fuel + 1, w, pos, st =>
    match lsb w with
    | none => some st
    | some l =>
      let pos := pos + l
      let w := w >>> l
      if pos ≥ size then some st
      else do
        let st ← pushPos st pos
        scanWord size fuel (w >>> 1) (pos + 1) st

/-- the loop over the words (`darray.hpp:27-47`), `k` words left -/
def scan (neg : Bool) (data : List Word) (size : Nat) : Nat → Nat → BuildState → Option BuildState
  | 0, _, st => some st
  | k + 1, i, st => do
    let w ← getWord neg data i
    let st ← scanWord size 65 w (i * 64) st
    scan neg data size k (i + 1) st

/-- constructor `darray.hpp:17-55` -/
def build (neg : Bool) (bv : BitVector) : Option Darray := do
  let st ← scan neg bv.bits bv.size bv.bits.length 0 ⟨[], ⟨[], [], []⟩, 0⟩
  if st.cur.length ≠ 0 then
    let inv ← flush st.cur st.inv
    pure ⟨st.positions, inv⟩
  else pure ⟨st.positions, st.inv⟩

/-- the word loop of `select` (`darray.hpp:96-103`, `darray64.hpp:93-100`) -/
def selectLoop (get : Nat → Option Word) : Nat → Word → Nat → Nat → Option Nat
  | 0, _, _, _ => none
  | fuel + 1, word, idx, rem => do
    let popcnt := popcount word
    if rem < popcnt then
      let s ← selectInWord word rem
      pure (64 * idx + s)
    else
      let word ← get (idx + 1)
      selectLoop get fuel word (idx + 1) (rem - popcnt)

/-- `darray.hpp:89-104`, `darray64.hpp:86-101` -/
def selectFrom (get : Nat → Option Word) (fuel start rem : Nat) : Option Nat := do
  if rem = 0 then pure start
  else
    let idx := start / 64
    let sh := start % 64
    let w ← get idx
    let m ← shl (BitVec.allOnes 64) sh
    selectLoop get fuel (w &&& m) idx rem

/-- `darray.hpp:74-105` -/
def select (neg : Bool) (d : Darray) (bv : BitVector) (idx : Nat) : Option Nat := do
  assertP (idx < d.positions)
  let blockPos ← rd d.inv.block (idx / 1024)
  if blockPos < 0 then
    rd d.inv.overflow ((-blockPos - 1).toNat + idx % 1024)
  else
    let sub ← rd d.inv.subblock (idx / 32)
    selectFrom (getWord neg bv.bits) (bv.bits.length + 1) (blockPos.toNat + sub) (idx % 32)

end Darray

/-- `darray64::builder` (`darray64.hpp:10-34`) -/
structure Darray64Builder where
  nOnes : Nat
  bits : Builder
  block : List Nat
  subblock : List Nat

/-- `darray64.hpp:109-112` -/
structure Darray64 where
  numOnes : Nat
  bits : BitVector
  block : List Nat
  subblock : List Nat
deriving DecidableEq, Repr

namespace Darray64

/-- `darray64.hpp:11-13` -/
def new : Option Darray64Builder := do
  let b ← Builder.new 0 false
  pure ⟨0, b, [], []⟩

/-- `darray64.hpp:15-28` -/
def append1 (b : Darray64Builder) (skip0 : Nat) : Option Darray64Builder := do
  let bits ← b.bits.appendBits 0 skip0
  let bits ← bits.pushBack true
  let last ← subU bits.size 1
  let block := if b.nOnes % 1024 = 0 then b.block ++ [last] else b.block
  let subblock ←
    if b.nOnes % 64 = 0 then do
      let base ← rd block (b.nOnes / 1024)
      let d ← subU last base
      pure (b.subblock ++ [d % 2^16])
    else pure b.subblock
  pure ⟨b.nOnes + 1, bits, block, subblock⟩

/-- constructor `darray64.hpp:40-46` -/
def ofBuilder (b : Darray64Builder) : Option Darray64 := do
  let bits ← BitVector.ofBuilder b.bits
  pure ⟨b.nOnes, bits, b.block, b.subblock⟩

/-- `darray64.hpp:76-102` -/
def select (d : Darray64) (idx : Nat) : Option Nat := do
  assertP (idx < d.numOnes)
  let blockPos ← rd d.block (idx / 1024)
  let sub ← rd d.subblock (idx / 64)
  Darray.selectFrom (rd d.bits.bits) (d.bits.bits.length + 1) (blockPos + sub) (idx % 64)

end Darray64
end Succinct
