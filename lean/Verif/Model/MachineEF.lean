import Verif.Model.Machine
import Verif.Model.EliasFano

/-! # `darray.hpp`, `darray64.hpp` and `elias_fano.hpp` in 64-bit arithmetic

See `Verif/Model/Machine.lean`.  `int64_t` and `uint16_t` values are kept as `uint64_t` patterns. -/
namespace Succinct
namespace Machine
open Broadword

/-! ## `darray` -/

/-- `darray.hpp:23-25,140-142`; `block` holds the patterns of `int64_t` values, `subblock` `uint16_t` values -/
structure DInv where
  block : List Word
  subblock : List Word
  overflow : List Word
deriving DecidableEq, Repr

/-- `darray.hpp:139-142` -/
structure Darray where
  positions : Word
  inv : DInv
deriving DecidableEq, Repr

namespace Darray

/-- `WordGetter` (`darray.hpp:145-157`) -/
def getWord (neg : Bool) (data : List Word) (idx : Word) : Option Word := do
  let w ← at_ data idx
  pure (if neg then ~~~w else w)

/-- `uint16_t(cur_block_positions[i] - cur_block_positions.front())` (`darray.hpp:119`) -/
def subOffset (cur : List Word) (front : Word) (i : Nat) : Option Word := do
  let p ← rd cur i
  pure ((p - front) % 65536)

/-- `flush_cur_block` (`darray.hpp:113-131`).  The loops with `i += 32` are the list of the multiples of 32
below `size`; a block has at most 1024 positions. -/
def flush (cur : List Word) (d : DInv) : Option DInv := do
  let back ← cur.getLast?
  let front ← cur.head?
  let steps := List.range ((cur.length + 31) / 32)
  if back - front < 65536 then
    let offs ← steps.mapM fun k => subOffset cur front (32*k)
    pure ⟨d.block ++ [front], d.subblock ++ offs, d.overflow⟩
  else
    pure ⟨d.block ++ [-(vlen d.overflow) - 1], d.subblock ++ steps.map (fun _ => 65535), d.overflow ++ cur⟩

/-- local variables of the constructor `darray.hpp:22-25` -/
structure BuildState where
  cur : List Word
  inv : DInv
  positions : Word

/-- `darray.hpp:36-40,45` -/
def pushPos (st : BuildState) (pos : Word) : Option BuildState := do
  let cur := st.cur ++ [pos]
  if vlen cur = 1024 then
    let inv ← flush cur st.inv
    pure ⟨[], inv, st.positions + 1⟩
  else pure ⟨cur, st.inv, st.positions + 1⟩

/-- the loop over the bits of one word (`darray.hpp:31-46`); fuel 65 suffices -/
def scanWord (size : Word) : Nat → Word → Word → BuildState → Option BuildState
  | 0, _, _, _ => none
  | fuel + 1, w, pos, st =>
    match lsb w with
    | none => some st
    | some l =>
      let pos := pos + BitVec.ofNat 64 l
      let w := w >>> l
      if pos ≥ size then some st
      else do
        let st ← pushPos st pos
        scanWord size fuel (w >>> 1) (pos + 1) st

/-- the loop over the words (`darray.hpp:27-47`); `fuel` bounds the number of iterations -/
def scan (neg : Bool) (data : List Word) (size : Word) : Nat → Word → BuildState → Option BuildState
  | fuel, i, st =>
    if i < vlen data then
      match fuel with
      | 0 => none
      | fuel + 1 => do
        let w ← getWord neg data i
        let st ← scanWord size 65 w (i * 64) st
        scan neg data size fuel (i + 1) st
    else some st

/-- constructor `darray.hpp:17-55` -/
def build (neg : Bool) (bv : BitVector) : Option Darray := do
  let st ← scan neg bv.bits bv.size bv.bits.length 0 ⟨[], ⟨[], [], []⟩, 0⟩
  if vlen st.cur ≠ 0 then
    let inv ← flush st.cur st.inv
    pure ⟨st.positions, inv⟩
  else pure ⟨st.positions, st.inv⟩

/-- the word loop of `select` (`darray.hpp:96-103`, `darray64.hpp:93-100`) -/
def selectLoop (get : Word → Option Word) : Nat → Word → Word → Word → Option Word
  | 0, _, _, _ => none
  | fuel + 1, word, idx, rem => do
    let popcnt := BitVec.ofNat 64 (popcount word)
    if rem < popcnt then
      let s ← selectInWord word rem.toNat
      pure (64 * idx + BitVec.ofNat 64 s)
    else
      let word ← get (idx + 1)
      selectLoop get fuel word (idx + 1) (rem - popcnt)

/-- `darray.hpp:89-104`, `darray64.hpp:86-101` -/
def selectFrom (get : Word → Option Word) (fuel : Nat) (start rem : Word) : Option Word := do
  if rem = 0 then pure start
  else
    let idx := start / 64
    let sh := start % 64
    let w ← get idx
    let m ← shl (BitVec.allOnes 64) sh.toNat
    selectLoop get fuel (w &&& m) idx rem

/-- `darray.hpp:74-105`; `block_pos < 0` is the sign bit -/
def select (neg : Bool) (d : Darray) (bv : BitVector) (idx : Word) : Option Word := do
  assertP (idx < d.positions)
  let blockPos ← at_ d.inv.block (idx / 1024)
  if blockPos.toInt < 0 then
    at_ d.inv.overflow ((-blockPos - 1) + idx % 1024)
  else
    let sub ← at_ d.inv.subblock (idx / 32)
    selectFrom (getWord neg bv.bits) (bv.bits.length + 1) (blockPos + sub) (idx % 32)

end Darray

/-! ## `darray64` -/

/-- `darray64.hpp:109-112` -/
structure Darray64 where
  numOnes : Word
  bits : BitVector
  block : List Word
  subblock : List Word
deriving DecidableEq, Repr

/-- `darray64::builder` (`darray64.hpp:10-34`); `subblock` holds `uint16_t` values -/
structure Darray64Builder where
  nOnes : Word
  bits : Builder
  block : List Word
  subblock : List Word

/-- `darray64.hpp:11-13` -/
def Darray64.new : Option Darray64Builder := do
  let b ← Builder.new 0 false
  pure ⟨0, b, [], []⟩

/-- `darray64.hpp:23-25` -/
def Darray64.subblocks (b : Darray64Builder) (block : List Word) (last : Word) : Option (List Word) :=
  if b.nOnes % 64 = 0 then do
    let base ← at_ block (b.nOnes / 1024)
    pure (b.subblock ++ [(last - base) % 65536])
  else some b.subblock

/-- `darray64.hpp:15-28` -/
def Darray64.append1 (b : Darray64Builder) (skip0 : Word) : Option Darray64Builder := do
  let bits ← b.bits.appendBits 0 skip0
  let bits ← bits.pushBack true
  let last := bits.size - 1
  let block := if b.nOnes % 1024 = 0 then b.block ++ [last] else b.block
  let subblock ← subblocks b block last
  pure ⟨b.nOnes + 1, bits, block, subblock⟩

/-- constructor `darray64.hpp:40-46` -/
def Darray64.ofBuilder (b : Darray64Builder) : Option Darray64 := do
  let bits ← BitVector.ofBuilder b.bits
  pure ⟨b.nOnes, bits, b.block, b.subblock⟩

/-- `darray64.hpp:76-102` -/
def Darray64.select (d : Darray64) (idx : Word) : Option Word := do
  assertP (idx < d.numOnes)
  let blockPos ← at_ d.block (idx / 1024)
  let sub ← at_ d.subblock (idx / 64)
  Darray.selectFrom (at_ d.bits.bits) (d.bits.bits.length + 1) (blockPos + sub) (idx % 64)

/-! ## `elias_fano` -/

/-- `elias_fano_builder` (`elias_fano.hpp:42-48`) -/
structure EFBuilder where
  n : Word
  m : Word
  pos : Word
  last : Word
  l : Word
  high : Builder
  low : Builder

/-- `elias_fano.hpp:266-271` -/
structure EliasFano where
  size : Word
  high : BitVector
  d1 : Darray
  d0 : Darray
  low : BitVector
  l : Word
deriving DecidableEq, Repr

namespace EFBuilder

/-- `m_l` (`elias_fano.hpp:20`) -/
def lowLen (n m : Word) : Option Word :=
  if m ≠ 0 ∧ n / m ≠ 0 then (msb (n / m)).map (BitVec.ofNat 64) else some 0

/-- `elias_fano.hpp:15-25` -/
def new (n m : Word) : Option EFBuilder := do
  let l ← lowLen n m
  let h ← shr n l.toNat
  let high ← Builder.new ((m + 1) + h + 1) false
  assertP (l < 64)
  let low ← Builder.new 0 false
  pure ⟨n, m, 0, 0, l, high, low⟩

/-- `(1ULL << m_l) - 1` (`elias_fano.hpp:30,115,148,208`) -/
def lowMask (l : Word) : Option Word := do
  let x ← shl 1 l.toNat
  pure (x - 1)

/-- `elias_fano.hpp:32-34` -/
def appendLow (b : EFBuilder) (i mask : Word) : Option Builder :=
  if b.l ≠ 0 then b.low.appendBits (i &&& mask) b.l else some b.low

/-- `elias_fano.hpp:27-38` -/
def pushBack (b : EFBuilder) (i : Word) : Option EFBuilder := do
  assertP (b.last ≤ i ∧ i ≤ b.n)
  let mask ← lowMask b.l
  let low ← appendLow b i mask
  let h ← shr i b.l.toNat
  let high ← b.high.set (h + b.pos) true
  assertP (b.pos + 1 ≤ b.m)
  pure { b with last := i, low := low, high := high, pos := b.pos + 1 }

end EFBuilder

namespace EliasFano

/-- `build` (`elias_fano.hpp:255-264`) -/
def build (b : EFBuilder) (withRank : Bool) : Option EliasFano := do
  let high ← BitVector.ofBuilder b.high
  let d1 ← Darray.build false high
  let d0 ← if withRank then Darray.build true high else some ⟨0, ⟨[], [], []⟩⟩
  let low ← BitVector.ofBuilder b.low
  pure ⟨b.n, high, d1, d0, low, b.l⟩

/-- construct the builder for universe `n` and at most `m` values, push the values, build
(`elias_fano.hpp:15-38,75-78`) -/
def ofSeq (n m : Word) (xs : List Word) (withRank : Bool) : Option EliasFano := do
  let b ← EFBuilder.new n m
  let b ← xs.foldlM EFBuilder.pushBack b
  build b withRank

/-- `elias_fano.hpp:105-107` -/
def numOnes (ef : EliasFano) : Word := ef.d1.positions

variable (ov : Word → Nat → Word)

/-- `m_low_bits.get_bits(k * m_l, m_l)` (`elias_fano.hpp:121,135,152,175,180,194,196`) -/
def getLow (ef : EliasFano) (k : Word) : Option Word := ef.low.getBits ov (k * ef.l) ef.l

/-- `elias_fano.hpp:132-136` -/
def select (ef : EliasFano) (n : Word) : Option Word := do
  let h ← ef.d1.select false ef.high n
  let x ← shl (h - n) ef.l.toNat
  let low ← getLow ov ef n
  pure (x ||| low)

/-- the loop `elias_fano.hpp:117-129`; `fuel` bounds the number of iterations -/
def accessLoop (ef : EliasFano) (lpos : Word) : Nat → Word → Word → Option Bool
  | fuel, h, rank =>
    if h > 0 then do
      let b ← ef.high.access (h - 1)
      if b then
        match fuel with
        | 0 => none
        | fuel + 1 => do
          let rank := rank - 1
          let h := h - 1
          let low ← getLow ov ef rank
          if low = lpos then pure true
          else if low < lpos then pure false
          else accessLoop ef lpos fuel h rank
      else pure false
    else some false

/-- `elias_fano.hpp:109-130` -/
def access (ef : EliasFano) (pos : Word) : Option Bool := do
  assertP (pos < ef.size)
  assertP (ef.d0.positions ≠ 0)
  let hRank ← shr pos ef.l.toNat
  let hPos ← ef.d0.select true ef.high hRank
  let rank := hPos - hRank
  let mask ← EFBuilder.lowMask ef.l
  accessLoop ov ef (pos &&& mask) hPos.toNat hPos rank

/-- the loop `elias_fano.hpp:150-157`; `fuel` bounds the number of iterations -/
def rankLoop (ef : EliasFano) (lpos : Word) : Nat → Word → Word → Option Word
  | fuel, h, rank =>
    if h > 0 then do
      let b ← ef.high.access (h - 1)
      if b then
        let low ← getLow ov ef (rank - 1)
        if low ≥ lpos then
          match fuel with
          | 0 => none
          | fuel + 1 => rankLoop ef lpos fuel (h - 1) (rank - 1)
        else pure rank
      else pure rank
    else some rank

/-- `elias_fano.hpp:138-158` -/
def rank (ef : EliasFano) (pos : Word) : Option Word := do
  assertP (pos ≤ ef.size)
  assertP (ef.d0.positions ≠ 0)
  if pos = ef.size then pure ef.numOnes
  else
    let hRank ← shr pos ef.l.toNat
    let hPos ← ef.d0.select true ef.high hRank
    let rank := hPos - hRank
    let mask ← EFBuilder.lowMask ef.l
    rankLoop ov ef (pos &&& mask) hPos.toNat hPos rank

/-- `elias_fano.hpp:160-162` -/
def predecessor1 (ef : EliasFano) (pos : Word) : Option Word := do
  let r ← rank ov ef (pos + 1)
  select ov ef (r - 1)

/-- `elias_fano.hpp:164-166` -/
def successor1 (ef : EliasFano) (pos : Word) : Option Word := do
  let r ← rank ov ef pos
  select ov ef r

/-- `elias_fano.hpp:173-186` -/
def delta (ef : EliasFano) (n : Word) : Option Word := do
  let high ← ef.d1.select false ef.high n
  let low ← getLow ov ef n
  if n ≠ 0 then
    let p ← ef.high.predecessor false (high - 1)
    let x ← shl (high - p - 1) ef.l.toNat
    let low' ← getLow ov ef (n - 1)
    pure (x + low - low')
  else
    let x ← shl (high - n) ef.l.toNat
    pure (x ||| low)

/-- `elias_fano.hpp:190-199` -/
def selectRange (ef : EliasFano) (n : Word) : Option (Word × Word) := do
  assertP (n + 1 < ef.numOnes)
  let hb ← ef.d1.select false ef.high n
  let lb ← getLow ov ef n
  let he ← ef.high.successor false (hb + 1)
  let le ← getLow ov ef (n + 1)
  let xb ← shl (hb - n) ef.l.toNat
  let xe ← shl (he - n - 1) ef.l.toNat
  pure (xb ||| lb, xe ||| le)

end EliasFano
end Machine
end Succinct
