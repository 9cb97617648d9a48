import Verif.Model.MachineEF
import Verif.Model.Release

/-! # `bit_vector`, `rs_bit_vector`, `darray`, `darray64` and `elias_fano` with assertions compiled out

With `NDEBUG` the macro `assert` expands to nothing.  This file transcribes the queries of these classes a third time, in 64-bit
arithmetic like `Machine.lean` and `MachineEF.lean`, without any assertion, those of `mappable_vector.hpp:102` and `broadword.hpp:88` included.
What is left as undefined behaviour (`none`) are reads outside the arrays and shifts by 64 or more that are not masked away.  Every loop moves through an array
or halves an interval, so that it ends by itself or in a read outside the array; `rank` of `rs_bit_vector` is in `Release.lean`. -/
namespace Succinct
namespace Release
open Broadword
open Machine (at_ vlen)

/-- `broadword.hpp:86-101` (default configuration) -/
def selectInWord (x : Word) (k : Nat) : Option Nat := selectFinish x k (selectPlace x k)

/-! ## `bit_vector` -/

/-- `bit_vector.hpp:243-249` -/
def bvAccess (v : Machine.BitVector) (pos : Word) : Option Bool := do
  let block := pos / 64
  let shift := pos % 64
  let w ← at_ v.bits block
  let s ← shr w shift.toNat
  pure ((s &&& 1) ≠ 0)

/-- `bit_vector.hpp:251-264`; `ov` gives the value of an over-wide shift -/
def bvGetBits (ov : Word → Nat → Word) (v : Machine.BitVector) (pos len : Word) : Option Word :=
  if len = 0 then some 0 else do
    let block := pos / 64
    let shift := pos % 64
    let mask := negBool (len = 64) ||| (shlOv ov 1 len.toNat - 1)
    if shift + len ≤ 64 then
      let w ← at_ v.bits block
      let lo ← shr w shift.toNat
      pure (lo &&& mask)
    else
      let w ← at_ v.bits block
      let lo ← shr w shift.toNat
      let w1 ← at_ v.bits (block + 1)
      let hi ← shl w1 (64 - shift).toNat
      pure (lo ||| (hi &&& mask))

/-- `bit_vector.hpp:267-277` -/
def bvGetWord (v : Machine.BitVector) (pos : Word) : Option Word := do
  let block := pos / 64
  let shift := pos % 64
  let w ← at_ v.bits block
  let word ← shr w shift.toNat
  if shift ≠ 0 ∧ block + 1 < vlen v.bits then
    let w1 ← at_ v.bits (block + 1)
    let hi ← shl w1 (64 - shift).toNat
    pure (word ||| hi)
  else pure word

/-- the loops `bit_vector.hpp:294-299,324-329`; `fuel` bounds the number of iterations -/
def predLoop (neg : Bool) (bits : List Word) : Nat → Word → Word → Option Word
  | fuel, block, word =>
    match msb word with
    | some r => some (block * 64 + BitVec.ofNat 64 r)
    | none =>
      match fuel with
      | 0 => none
      | fuel + 1 => do
        let block := block - 1
        let w ← at_ bits block
        predLoop neg bits fuel block (if neg then ~~~w else w)

/-- `bit_vector.hpp:287-300` (`neg = true`) and `317-330` (`neg = false`) -/
def bvPredecessor (neg : Bool) (v : Machine.BitVector) (pos : Word) : Option Word := do
  let block := pos / 64
  let shift := 64 - pos % 64 - 1
  let w ← at_ v.bits block
  let word := if neg then ~~~w else w
  let word ← shl word shift.toNat
  let word ← shr word shift.toNat
  predLoop neg v.bits v.bits.length block word

/-- the loops `bit_vector.hpp:308-314,338-344`; `fuel` bounds the number of iterations -/
def succLoop (neg : Bool) (bits : List Word) : Nat → Word → Word → Option Word
  | fuel, block, word =>
    match lsb word with
    | some r => some (block * 64 + BitVec.ofNat 64 r)
    | none =>
      match fuel with
      | 0 => none
      | fuel + 1 => do
        let block := block + 1
        let w ← at_ bits block
        succLoop neg bits fuel block (if neg then ~~~w else w)

/-- `bit_vector.hpp:302-315` (`neg = true`) and `332-345` (`neg = false`) -/
def bvSuccessor (neg : Bool) (v : Machine.BitVector) (pos : Word) : Option Word := do
  let block := pos / 64
  let shift := pos % 64
  let w ← at_ v.bits block
  let word ← shr (if neg then ~~~w else w) shift.toNat
  let word ← shl word shift.toNat
  succLoop neg v.bits v.bits.length block word

/-! ## `rs_bit_vector` -/

/-- `rs_bit_vector.hpp:66-68` -/
def rank0 (v : Machine.RSBitVector) (pos : Word) : Option Word := do
  let r ← rank v pos
  pure (pos - r)

/-- `rs_bit_vector.hpp:70-110` -/
def rsSelect (v : Machine.RSBitVector) (n : Word) : Option Word := do
  let nb := Machine.RSBitVector.numBlocks v.pairs
  let (a, b) ← Machine.RSBitVector.interval v.hints nb n
  let block ← Machine.RSBitVector.bsearch (Machine.RSBitVector.blockRank v.pairs) n (b - a).toNat a b
  let blockOffset := block * 8
  let curRank ← Machine.RSBitVector.blockRank v.pairs block
  let subRanks ← Machine.RSBitVector.subBlockRanks v.pairs block
  let off := Machine.RSBitVector.subBlockOffset subRanks (n - curRank)
  let x ← shr subRanks ((7 - off) * 9).toNat
  let curRank := curRank + (x &&& 0x1FF)
  let wordOffset := blockOffset + off
  let w ← at_ v.bv.bits wordOffset
  let s ← selectInWord w (n - curRank).toNat
  pure (wordOffset * 64 + BitVec.ofNat 64 s)

/-- `rs_bit_vector.hpp:113-152` -/
def rsSelect0 (v : Machine.RSBitVector) (n : Word) : Option Word := do
  let nb := Machine.RSBitVector.numBlocks v.pairs
  let (a, b) ← Machine.RSBitVector.interval v.hints0 nb n
  let block ← Machine.RSBitVector.bsearch (Machine.RSBitVector.blockRank0 v.pairs) n (b - a).toNat a b
  let blockOffset := block * 8
  let curRank ← Machine.RSBitVector.blockRank0 v.pairs block
  let sbr ← Machine.RSBitVector.subBlockRanks v.pairs block
  let subRanks := 64 * invCountStep9 - sbr
  let off := Machine.RSBitVector.subBlockOffset subRanks (n - curRank)
  let x ← shr subRanks ((7 - off) * 9).toNat
  let curRank := curRank + (x &&& 0x1FF)
  let wordOffset := blockOffset + off
  let w ← at_ v.bv.bits wordOffset
  let s ← selectInWord (~~~w) (n - curRank).toNat
  pure (wordOffset * 64 + BitVec.ofNat 64 s)

/-! ## `darray` and `darray64` -/

/-- the word loop of `select` (`darray.hpp:96-103`, `darray64.hpp:93-100`); `select_in_word` is called with `rem` below the number of ones -/
def selectLoop (get : Word → Option Word) : Nat → Word → Word → Word → Option Word
  | 0, _, _, _ => none
  | fuel + 1, word, idx, rem => do
    let popcnt := BitVec.ofNat 64 (popcount word)
    if rem < popcnt then
      let s ← selectInWord word rem.toNat
      pure (64 * idx + BitVec.ofNat 64 s)
    else
      let word ← get (idx + 1)
      selectLoop get fuel word (idx + 1) (rem - popcnt)

/-- `darray.hpp:89-104`, `darray64.hpp:86-101` -/
def selectFrom (get : Word → Option Word) (fuel : Nat) (start rem : Word) : Option Word :=
  if rem = 0 then some start
  else do
    let idx := start / 64
    let sh := start % 64
    let w ← get idx
    let m ← shl (BitVec.allOnes 64) sh.toNat
    selectLoop get fuel (w &&& m) idx rem

/-- `darray.hpp:74-105`; `block_pos < 0` is the sign bit -/
def daSelect (neg : Bool) (d : Machine.Darray) (bv : Machine.BitVector) (idx : Word) : Option Word := do
  let blockPos ← at_ d.inv.block (idx / 1024)
  if blockPos.toInt < 0 then
    at_ d.inv.overflow ((-blockPos - 1) + idx % 1024)
  else
    let sub ← at_ d.inv.subblock (idx / 32)
    selectFrom (Machine.Darray.getWord neg bv.bits) (bv.bits.length + 1) (blockPos + sub) (idx % 32)

/-- `darray64.hpp:76-102` -/
def da64Select (d : Machine.Darray64) (idx : Word) : Option Word := do
  let blockPos ← at_ d.block (idx / 1024)
  let sub ← at_ d.subblock (idx / 64)
  selectFrom (at_ d.bits.bits) (d.bits.bits.length + 1) (blockPos + sub) (idx % 64)

/-! ## `elias_fano` -/

variable (ov : Word → Nat → Word)

/-- `m_low_bits.get_bits(k * m_l, m_l)` (`elias_fano.hpp:121,135,152,175,180,194,196`) -/
def efLow (ef : Machine.EliasFano) (k : Word) : Option Word := bvGetBits ov ef.low (k * ef.l) ef.l

/-- `elias_fano.hpp:132-136` -/
def efSelect (ef : Machine.EliasFano) (n : Word) : Option Word := do
  let h ← daSelect false ef.d1 ef.high n
  let x ← shl (h - n) ef.l.toNat
  let low ← efLow ov ef n
  pure (x ||| low)

/-- the loop `elias_fano.hpp:117-129`; `fuel` bounds the number of iterations -/
def efAccessLoop (ef : Machine.EliasFano) (lpos : Word) : Nat → Word → Word → Option Bool
  | fuel, h, rank =>
    if h > 0 then do
      let b ← bvAccess ef.high (h - 1)
      if b then
        match fuel with
        | 0 => none
        | fuel + 1 => do
          let rank := rank - 1
          let h := h - 1
          let low ← efLow ov ef rank
          if low = lpos then pure true
          else if low < lpos then pure false
          else efAccessLoop ef lpos fuel h rank
      else pure false
    else some false

/-- `elias_fano.hpp:109-130` -/
def efAccess (ef : Machine.EliasFano) (pos : Word) : Option Bool := do
  let hRank ← shr pos ef.l.toNat
  let hPos ← daSelect true ef.d0 ef.high hRank
  let rank := hPos - hRank
  let mask ← Machine.EFBuilder.lowMask ef.l
  efAccessLoop ov ef (pos &&& mask) hPos.toNat hPos rank

/-- the loop `elias_fano.hpp:150-157`; `fuel` bounds the number of iterations -/
def efRankLoop (ef : Machine.EliasFano) (lpos : Word) : Nat → Word → Word → Option Word
  | fuel, h, rank =>
    if h > 0 then do
      let b ← bvAccess ef.high (h - 1)
      if b then
        let low ← efLow ov ef (rank - 1)
        if low ≥ lpos then
          match fuel with
          | 0 => none
          | fuel + 1 => efRankLoop ef lpos fuel (h - 1) (rank - 1)
        else pure rank
      else pure rank
    else some rank

/-- `elias_fano.hpp:138-158` -/
def efRank (ef : Machine.EliasFano) (pos : Word) : Option Word :=
  if pos = ef.size then some ef.numOnes
  else do
    let hRank ← shr pos ef.l.toNat
    let hPos ← daSelect true ef.d0 ef.high hRank
    let rank := hPos - hRank
    let mask ← Machine.EFBuilder.lowMask ef.l
    efRankLoop ov ef (pos &&& mask) hPos.toNat hPos rank

/-- `elias_fano.hpp:160-162` -/
def efPredecessor1 (ef : Machine.EliasFano) (pos : Word) : Option Word := do
  let r ← efRank ov ef (pos + 1)
  efSelect ov ef (r - 1)

/-- `elias_fano.hpp:164-166` -/
def efSuccessor1 (ef : Machine.EliasFano) (pos : Word) : Option Word := do
  let r ← efRank ov ef pos
  efSelect ov ef r

/-- `elias_fano.hpp:173-186` -/
def efDelta (ef : Machine.EliasFano) (n : Word) : Option Word := do
  let high ← daSelect false ef.d1 ef.high n
  let low ← efLow ov ef n
  if n ≠ 0 then
    let p ← bvPredecessor false ef.high (high - 1)
    let x ← shl (high - p - 1) ef.l.toNat
    let low' ← efLow ov ef (n - 1)
    pure (x + low - low')
  else
    let x ← shl (high - n) ef.l.toNat
    pure (x ||| low)

/-- `elias_fano.hpp:190-199` -/
def efSelectRange (ef : Machine.EliasFano) (n : Word) : Option (Word × Word) := do
  let hb ← daSelect false ef.d1 ef.high n
  let lb ← efLow ov ef n
  let he ← bvSuccessor false ef.high (hb + 1)
  let le ← efLow ov ef (n + 1)
  let xb ← shl (hb - n) ef.l.toNat
  let xe ← shl (he - n - 1) ef.l.toNat
  pure (xb ||| lb, xe ||| le)

end Release
end Succinct
