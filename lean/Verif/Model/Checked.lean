import Verif.Model.MachineTopK

/-! # What the assertions protect

The queries once more (arithmetic as in `Machine.lean`), with assertions enabled and told apart from everything else
that can end a run: the outcome is a value, a failed assertion, an access outside of an object, an operation that C++
leaves undefined although it touches no memory (an over-wide shift, a signed overflow), or a loop that does not end.
The objects are arbitrary: their fields need not come from the builders (a mapped file holds any bytes,
`mapper.hpp:126-145`), except that a vector has as many elements as its `m_size` says. -/
namespace Succinct
namespace Checked
open Broadword
open Machine (vlen EnumCall EnumRet)

/-- how a run ends: with a value, with a failing `assert`, with an access out of bounds, with an arithmetic operation
whose behaviour is undefined, or not at all (more iterations than the fuel of the loop).
Every `assert` is taken as in `bit_vector.hpp:244`. -/
inductive Run (α : Type) where
  | ok (a : α)
  | abort
  | mem
  | arith
  | loop
deriving DecidableEq, Repr

namespace Run

/-- one statement after the other, until the run ends (all functions below, e.g. `bit_vector.hpp:243-249`) -/
def bind {α β : Type} (x : Run α) (f : α → Run β) : Run β :=
  match x with
  | ok a => f a
  | abort => abort
  | mem => mem
  | arith => arith
  | loop => loop

instance : Monad Run where
  pure := ok
  bind := bind

/-- the value, if there is one (as in the other models, e.g. of `bit_vector.hpp:243-249`) -/
def toOption {α : Type} : Run α → Option α
  | ok a => some a
  | _ => none

end Run

/-- `assert(p)` (e.g. `bit_vector.hpp:244`) -/
def chk (p : Prop) [Decidable p] : Run Unit := if p then .ok () else .abort

/-- `data[i]` for a plain pointer or an array (e.g. `bit_vector.hpp:441`) -/
def raw {α : Type} (v : List α) (i : Nat) : Run α :=
  match v[i]? with
  | some x => .ok x
  | none => .mem

/-- `mappable_vector::operator[]` (`mappable_vector.hpp:101-104`): the assertion, then the access -/
def vat {α : Type} (v : List α) (i : Word) : Run α := do
  chk (i.toNat < v.length)
  raw v i.toNat

/-- `x << s` (e.g. `rs_bit_vector.hpp:61`); undefined for `s ≥ 64` -/
def sl (x : Word) (s : Nat) : Run Word := if s < 64 then .ok (x <<< s) else .arith

/-- `x >> s` (e.g. `bit_vector.hpp:248`); undefined for `s ≥ 64` -/
def sr (x : Word) (s : Nat) : Run Word := if s < 64 then .ok (x >>> s) else .arith

/-- `broadword::select_in_word` (`broadword.hpp:86-101`); the table is read at a computed index -/
def selWord (x : Word) (k : Nat) : Run Nat := do
  chk (k < popcount x)
  match selectFinish x k (selectPlace x k) with
  | some r => .ok r
  | none => .mem

/-- `broadword::lsb` with one argument (`broadword.hpp:177-183`) -/
def lsbW (x : Word) : Run Nat := do
  chk (x ≠ 0)
  match lsb x with
  | some r => .ok r
  | none => .mem

namespace BitVector

/-- `bit_vector.hpp:243-249` -/
def access (v : Machine.BitVector) (pos : Word) : Run Bool := do
  chk (pos < v.size)
  let block := pos / 64
  chk (block < vlen v.bits)
  let shift := pos % 64
  let w ← vat v.bits block
  let s ← sr w shift.toNat
  pure ((s &&& 1) ≠ 0)

/-- `bit_vector.hpp:251-264`; `ov` gives the value of an over-wide shift -/
def getBits (ov : Word → Nat → Word) (v : Machine.BitVector) (pos len : Word) : Run Word := do
  chk (pos + len ≤ v.size)
  if len = 0 then pure 0 else
    let block := pos / 64
    let shift := pos % 64
    let mask := negBool (len = 64) ||| (shlOv ov 1 len.toNat - 1)
    if shift + len ≤ 64 then
      let w ← vat v.bits block
      let lo ← sr w shift.toNat
      pure (lo &&& mask)
    else
      let w ← vat v.bits block
      let lo ← sr w shift.toNat
      let w1 ← vat v.bits (block + 1)
      let hi ← sl w1 (64 - shift).toNat
      pure (lo ||| (hi &&& mask))

/-- `bit_vector.hpp:267-277` -/
def getWord (v : Machine.BitVector) (pos : Word) : Run Word := do
  chk (pos < v.size)
  let block := pos / 64
  let shift := pos % 64
  let w ← vat v.bits block
  let word ← sr w shift.toNat
  if shift ≠ 0 ∧ block + 1 < vlen v.bits then
    let w1 ← vat v.bits (block + 1)
    let hi ← sl w1 (64 - shift).toNat
    pure (word ||| hi)
  else pure word

/-- the loops `bit_vector.hpp:294-299,324-329`; `fuel` bounds the number of iterations -/
def predLoop (neg : Bool) (bits : List Word) : Nat → Word → Word → Run Word
  | fuel, block, word =>
    match msb word with
    | some r => pure (block * 64 + BitVec.ofNat 64 r)
    | none => do
      chk (block ≠ 0)
      match fuel with
      | 0 => .loop
      | fuel + 1 => do
        let block := block - 1
        let w ← vat bits block
        predLoop neg bits fuel block (if neg then ~~~w else w)

/-- `bit_vector.hpp:287-300` (`neg = true`) and `317-330` (`neg = false`) -/
def predecessor (neg : Bool) (v : Machine.BitVector) (pos : Word) : Run Word := do
  chk (pos < v.size)
  let block := pos / 64
  let shift := 64 - pos % 64 - 1
  let w ← vat v.bits block
  let word := if neg then ~~~w else w
  let word ← sl word shift.toNat
  let word ← sr word shift.toNat
  predLoop neg v.bits v.bits.length block word

/-- the loops `bit_vector.hpp:308-314,338-344`; `fuel` bounds the number of iterations -/
def succLoop (neg : Bool) (bits : List Word) : Nat → Word → Word → Run Word
  | fuel, block, word =>
    match lsb word with
    | some r => pure (block * 64 + BitVec.ofNat 64 r)
    | none => do
      let block := block + 1
      chk (block < vlen bits)
      match fuel with
      | 0 => .loop
      | fuel + 1 => do
        let w ← vat bits block
        succLoop neg bits fuel block (if neg then ~~~w else w)

/-- `bit_vector.hpp:302-315` (`neg = true`) and `332-345` (`neg = false`) -/
def successor (neg : Bool) (v : Machine.BitVector) (pos : Word) : Run Word := do
  chk (pos < v.size)
  let block := pos / 64
  let shift := pos % 64
  let w ← vat v.bits block
  let word ← sr (if neg then ~~~w else w) shift.toNat
  let word ← sl word shift.toNat
  succLoop neg v.bits v.bits.length block word

end BitVector

namespace Enum

/-- `bit_vector.hpp:418-422` -/
def fillBuf (v : Machine.BitVector) (e : Machine.Enum) : Run Machine.Enum := do
  let w ← BitVector.getWord v e.pos
  pure ⟨e.pos, w, 64⟩

/-- `bit_vector.hpp:367-375` -/
def next (v : Machine.BitVector) (e : Machine.Enum) : Run (Bool × Machine.Enum) := do
  let e ← if e.avail = 0 then fillBuf v e else pure e
  let b := e.buf.getLsbD 0
  let buf ← sr e.buf 1
  pure (b, ⟨e.pos + 1, buf, e.avail - 1⟩)

/-- `bit_vector.hpp:380-389` -/
def takeAvail (e : Machine.Enum) (l : Word) : Run (Word × Machine.Enum) := do
  if l ≠ 64 then
    let m ← sl 1 l.toNat
    let val := e.buf &&& (m - 1)
    let buf ← sr e.buf l.toNat
    pure (val, ⟨e.pos + l, buf, e.avail - l⟩)
  else
    pure (e.buf, ⟨e.pos + l, e.buf, e.avail - l⟩)

/-- `bit_vector.hpp:377-390` -/
def take (v : Machine.BitVector) (e : Machine.Enum) (l : Word) : Run (Word × Machine.Enum) := do
  let e ← if e.avail < l then fillBuf v e else pure e
  takeAvail e l

/-- `bit_vector.hpp:396-401`; `fuel` bounds the number of iterations -/
def skipZerosLoop (v : Machine.BitVector) : Nat → Machine.Enum → Word → Run (Machine.Enum × Word)
  | fuel, e, zs =>
    if e.buf = 0 then
      match fuel with
      | 0 => .loop
      | fuel + 1 => do
        let e' ← fillBuf v ⟨e.pos + e.avail, e.buf, 0⟩
        skipZerosLoop v fuel e' (zs + e.avail)
    else pure (e, zs)

/-- `bit_vector.hpp:392-409` -/
def skipZeros (v : Machine.BitVector) (e : Machine.Enum) : Run (Word × Machine.Enum) := do
  let (e, zs) ← skipZerosLoop v (v.bits.length + 2) e 0
  let l ← lsbW e.buf
  let buf ← sr e.buf l
  let buf ← sr buf 1
  let l := BitVec.ofNat 64 l
  pure (zs + l, ⟨e.pos + (l + 1), buf, e.avail - (l + 1)⟩)

/-- one call (`bit_vector.hpp:367-409`) -/
def step (v : Machine.BitVector) (e : Machine.Enum) : EnumCall → Run (EnumRet × Machine.Enum)
  | .next => do let (b, e) ← next v e; pure (.bit b, e)
  | .take n => do let (w, e) ← take v e n; pure (.val w, e)
  | .skipZeros => do let (n, e) ← skipZeros v e; pure (.val n, e)

/-- a history of calls; answers with `position()` (`bit_vector.hpp:411-414`) after each -/
def run (v : Machine.BitVector) : Machine.Enum → List EnumCall → Run (List (EnumRet × Word))
  | _, [] => pure []
  | e, op :: ops => do
    let (o, e) ← step v e op
    let outs ← run v e ops
    pure ((o, e.pos) :: outs)

end Enum

namespace UEnum

/-- `bit_vector.hpp:437-444`; `m_data` is a plain pointer, no assertion looks at the index -/
def new (bits : List Word) (pos : Word) : Run Machine.UEnum := do
  let w ← raw bits (pos / 64).toNat
  let m ← sl (BitVec.allOnes 64) (pos % 64).toNat
  pure ⟨pos, w &&& m⟩

/-- `bit_vector.hpp:455-458`; returns `m_position`, `buf`, `pos_in_word` -/
def nextLoop (bits : List Word) : Nat → Word → Word → Run (Word × Word × Nat)
  | fuel, position, buf =>
    match lsb buf with
    | some r => pure (position, buf, r)
    | none =>
      match fuel with
      | 0 => .loop
      | fuel + 1 => do
        let w ← raw bits ((position + 64) / 64).toNat
        nextLoop bits fuel (position + 64) w

/-- `bit_vector.hpp:451-463` -/
def next (bits : List Word) (e : Machine.UEnum) : Run (Word × Machine.UEnum) := do
  let (position, buf, r) ← nextLoop bits bits.length e.position e.buf
  let position := (position &&& ~~~63) + BitVec.ofNat 64 r
  pure (position, ⟨position, buf &&& (buf - 1)⟩)

end UEnum

namespace RSBitVector

/-- `rs_bit_vector.hpp:160-162` -/
def blockRank (pairs : List Word) (block : Word) : Run Word := vat pairs (block * 2)

/-- `rs_bit_vector.hpp:173-175` -/
def subBlockRanks (pairs : List Word) (block : Word) : Run Word := vat pairs (block * 2 + 1)

/-- `rs_bit_vector.hpp:177-179` -/
def blockRank0 (pairs : List Word) (block : Word) : Run Word := do
  let r ← vat pairs (block * 2)
  pure (block * 8 * 64 - r)

/-- `rs_bit_vector.hpp:43-45`; `end() - 2` points before the array if there are fewer than two entries -/
def numOnes (v : Machine.RSBitVector) : Run Word := do
  if v.pairs.length < 2 then .mem else raw v.pairs (v.pairs.length - 2)

/-- `rs_bit_vector.hpp:47-49` -/
def numZeros (v : Machine.RSBitVector) : Run Word := do
  let o ← numOnes v
  pure (v.bv.size - o)

/-- `rs_bit_vector.hpp:164-171` -/
def subBlockRank (pairs : List Word) (subBlock : Word) : Run Word := do
  let block := subBlock / 8
  let r ← blockRank pairs block
  let left := subBlock % 8
  let s ← subBlockRanks pairs block
  let x ← sr s ((7 - left) * 9).toNat
  pure (r + (x &&& 0x1FF))

/-- `rs_bit_vector.hpp:51-64` -/
def rank (v : Machine.RSBitVector) (pos : Word) : Run Word := do
  chk (pos ≤ v.bv.size)
  if pos = v.bv.size then numOnes v
  else
    let subBlock := pos / 64
    let r ← subBlockRank v.pairs subBlock
    let subLeft := pos % 64
    if subLeft ≠ 0 then
      let w ← vat v.bv.bits subBlock
      let x ← sl w (64 - subLeft).toNat
      pure (r + BitVec.ofNat 64 (popcount x))
    else pure r

/-- `rs_bit_vector.hpp:66-68` -/
def rank0 (v : Machine.RSBitVector) (pos : Word) : Run Word := do
  let r ← rank v pos
  pure (pos - r)

/-- the binary search of `rs_bit_vector.hpp:84-94,127-137`; `fuel` bounds the number of iterations -/
def bsearch (rank : Word → Run Word) (n : Word) : Nat → Word → Word → Run Word
  | fuel, a, b =>
    if b - a > 1 then
      match fuel with
      | 0 => .loop
      | fuel + 1 => do
        let mid := a + (b - a) / 2
        let x ← rank mid
        if x ≤ n then bsearch rank n fuel mid b else bsearch rank n fuel a mid
    else pure a

/-- `rs_bit_vector.hpp:78-80,121-123` -/
def hintLow (hints : List Word) (chunk : Word) : Run Word :=
  if chunk ≠ 0 then vat hints (chunk - 1) else pure 0

/-- the choice of the search interval, `rs_bit_vector.hpp:74-82,117-125` -/
def interval (hints : List Word) (nb n : Word) : Run (Word × Word) := do
  if vlen hints ≠ 0 then
    let chunk := n / 1024
    let a ← hintLow hints chunk
    let b ← vat hints chunk
    pure (a, b + 1)
  else pure (0, nb)

/-- `rs_bit_vector.hpp:70-110` -/
def select (v : Machine.RSBitVector) (n : Word) : Run Word := do
  let ones ← numOnes v
  chk (n < ones)
  let nb := Machine.RSBitVector.numBlocks v.pairs
  let (a, b) ← interval v.hints nb n
  let block ← bsearch (blockRank v.pairs) n (b - a).toNat a b
  chk (block < nb)
  let blockOffset := block * 8
  let curRank ← blockRank v.pairs block
  chk (curRank ≤ n)
  let subRanks ← subBlockRanks v.pairs block
  let off := Machine.RSBitVector.subBlockOffset subRanks (n - curRank)
  let x ← sr subRanks ((7 - off) * 9).toNat
  let curRank := curRank + (x &&& 0x1FF)
  chk (curRank ≤ n)
  let wordOffset := blockOffset + off
  let w ← vat v.bv.bits wordOffset
  let s ← selWord w (n - curRank).toNat
  pure (wordOffset * 64 + BitVec.ofNat 64 s)

/-- `rs_bit_vector.hpp:113-152` -/
def select0 (v : Machine.RSBitVector) (n : Word) : Run Word := do
  let zeros ← numZeros v
  chk (n < zeros)
  let nb := Machine.RSBitVector.numBlocks v.pairs
  let (a, b) ← interval v.hints0 nb n
  let block ← bsearch (blockRank0 v.pairs) n (b - a).toNat a b
  chk (block < nb)
  let blockOffset := block * 8
  let curRank ← blockRank0 v.pairs block
  chk (curRank ≤ n)
  let sbr ← subBlockRanks v.pairs block
  let subRanks := 64 * invCountStep9 - sbr
  let off := Machine.RSBitVector.subBlockOffset subRanks (n - curRank)
  let x ← sr subRanks ((7 - off) * 9).toNat
  let curRank := curRank + (x &&& 0x1FF)
  chk (curRank ≤ n)
  let wordOffset := blockOffset + off
  let w ← vat v.bv.bits wordOffset
  let s ← selWord (~~~w) (n - curRank).toNat
  pure (wordOffset * 64 + BitVec.ofNat 64 s)

end RSBitVector

namespace Darray

/-- `WordGetter` (`darray.hpp:145-157`) -/
def getWord (neg : Bool) (data : List Word) (idx : Word) : Run Word := do
  let w ← vat data idx
  pure (if neg then ~~~w else w)

/-- the word loop of `select` (`darray.hpp:96-103`, `darray64.hpp:93-100`) -/
def selectLoop (get : Word → Run Word) : Nat → Word → Word → Word → Run Word
  | fuel, word, idx, rem => do
    let popcnt := BitVec.ofNat 64 (popcount word)
    if rem < popcnt then
      let s ← selWord word rem.toNat
      pure (64 * idx + BitVec.ofNat 64 s)
    else
      let word ← get (idx + 1)
      match fuel with
      | 0 => .loop
      | fuel + 1 => selectLoop get fuel word (idx + 1) (rem - popcnt)

/-- `darray.hpp:89-104`, `darray64.hpp:86-101` -/
def selectFrom (get : Word → Run Word) (fuel : Nat) (start rem : Word) : Run Word := do
  if rem = 0 then pure start
  else
    let idx := start / 64
    let sh := start % 64
    let w ← get idx
    let m ← sl (BitVec.allOnes 64) sh.toNat
    selectLoop get fuel (w &&& m) idx rem

/-- `darray.hpp:74-105`; `block_pos < 0` is the sign bit, `-block_pos` of the least `int64_t` overflows -/
def select (neg : Bool) (d : Machine.Darray) (bv : Machine.BitVector) (idx : Word) : Run Word := do
  chk (idx < d.positions)
  let blockPos ← vat d.inv.block (idx / 1024)
  if blockPos.toInt < 0 then
    if blockPos = BitVec.intMin 64 then .arith else
    vat d.inv.overflow ((-blockPos - 1) + idx % 1024)
  else
    let sub ← vat d.inv.subblock (idx / 32)
    selectFrom (getWord neg bv.bits) bv.bits.length (blockPos + sub) (idx % 32)

end Darray

/-- `darray64.hpp:76-102` -/
def Darray64.select (d : Machine.Darray64) (idx : Word) : Run Word := do
  chk (idx < d.numOnes)
  let blockPos ← vat d.block (idx / 1024)
  let sub ← vat d.subblock (idx / 64)
  Darray.selectFrom (vat d.bits.bits) d.bits.bits.length (blockPos + sub) (idx % 64)

namespace EFBuilder

/-- `(1ULL << m_l) - 1` (`elias_fano.hpp:30,115,148,208`) -/
def lowMask (l : Word) : Run Word := do
  let x ← sl 1 l.toNat
  pure (x - 1)

end EFBuilder

namespace EliasFano
variable (ov : Word → Nat → Word)

/-- `m_low_bits.get_bits(k * m_l, m_l)` (`elias_fano.hpp:121,135,152,175,180,194,196`) -/
def getLow (ef : Machine.EliasFano) (k : Word) : Run Word := BitVector.getBits ov ef.low (k * ef.l) ef.l

/-- `elias_fano.hpp:132-136` -/
def select (ef : Machine.EliasFano) (n : Word) : Run Word := do
  let h ← Darray.select false ef.d1 ef.high n
  let x ← sl (h - n) ef.l.toNat
  let low ← getLow ov ef n
  pure (x ||| low)

/-- the loop `elias_fano.hpp:117-129`; `fuel` bounds the number of iterations -/
def accessLoop (ef : Machine.EliasFano) (lpos : Word) : Nat → Word → Word → Run Bool
  | fuel, h, rank =>
    if h > 0 then do
      let b ← BitVector.access ef.high (h - 1)
      if b then
        match fuel with
        | 0 => .loop
        | fuel + 1 => do
          let rank := rank - 1
          let h := h - 1
          let low ← getLow ov ef rank
          if low = lpos then pure true
          else if low < lpos then pure false
          else accessLoop ef lpos fuel h rank
      else pure false
    else pure false

/-- `elias_fano.hpp:109-130` -/
def access (ef : Machine.EliasFano) (pos : Word) : Run Bool := do
  chk (pos < ef.size)
  chk (ef.d0.positions ≠ 0)
  let hRank ← sr pos ef.l.toNat
  let hPos ← Darray.select true ef.d0 ef.high hRank
  let rank := hPos - hRank
  let mask ← EFBuilder.lowMask ef.l
  accessLoop ov ef (pos &&& mask) hPos.toNat hPos rank

/-- the loop `elias_fano.hpp:150-157`; `fuel` bounds the number of iterations -/
def rankLoop (ef : Machine.EliasFano) (lpos : Word) : Nat → Word → Word → Run Word
  | fuel, h, rank =>
    if h > 0 then do
      let b ← BitVector.access ef.high (h - 1)
      if b then
        let low ← getLow ov ef (rank - 1)
        if low ≥ lpos then
          match fuel with
          | 0 => .loop
          | fuel + 1 => rankLoop ef lpos fuel (h - 1) (rank - 1)
        else pure rank
      else pure rank
    else pure rank

/-- `elias_fano.hpp:138-158` -/
def rank (ef : Machine.EliasFano) (pos : Word) : Run Word := do
  chk (pos ≤ ef.size)
  chk (ef.d0.positions ≠ 0)
  if pos = ef.size then pure ef.numOnes
  else
    let hRank ← sr pos ef.l.toNat
    let hPos ← Darray.select true ef.d0 ef.high hRank
    let rank := hPos - hRank
    let mask ← EFBuilder.lowMask ef.l
    rankLoop ov ef (pos &&& mask) hPos.toNat hPos rank

/-- `elias_fano.hpp:160-162` -/
def predecessor1 (ef : Machine.EliasFano) (pos : Word) : Run Word := do
  let r ← rank ov ef (pos + 1)
  select ov ef (r - 1)

/-- `elias_fano.hpp:164-166` -/
def successor1 (ef : Machine.EliasFano) (pos : Word) : Run Word := do
  let r ← rank ov ef pos
  select ov ef r

/-- `elias_fano.hpp:173-186` -/
def delta (ef : Machine.EliasFano) (n : Word) : Run Word := do
  let high ← Darray.select false ef.d1 ef.high n
  let low ← getLow ov ef n
  if n ≠ 0 then
    let p ← BitVector.predecessor false ef.high (high - 1)
    let x ← sl (high - p - 1) ef.l.toNat
    let low' ← getLow ov ef (n - 1)
    pure (x + low - low')
  else
    let x ← sl (high - n) ef.l.toNat
    pure (x ||| low)

/-- `elias_fano.hpp:190-199` -/
def selectRange (ef : Machine.EliasFano) (n : Word) : Run (Word × Word) := do
  chk (n + 1 < ef.numOnes)
  let hb ← Darray.select false ef.d1 ef.high n
  let lb ← getLow ov ef n
  let he ← BitVector.successor false ef.high (hb + 1)
  let le ← getLow ov ef (n + 1)
  let xb ← sl (hb - n) ef.l.toNat
  let xe ← sl (he - n - 1) ef.l.toNat
  pure (xb ||| lb, xe ||| le)

/-- `elias_fano.hpp:203-222` -/
def SelEnum.new (ef : Machine.EliasFano) (i : Word) : Run Machine.EliasFano.SelEnum := do
  let _ ← EFBuilder.lowMask ef.l
  let avail := if ef.l ≠ 0 then 0 else ef.numOnes
  if ef.numOnes = 0 then pure ⟨i, none, 0, avail⟩
  else
    let pos ← Darray.select false ef.d1 ef.high i
    let u ← UEnum.new ef.high.bits pos
    chk (ef.l < 64)
    pure ⟨i, some u, 0, avail⟩

end EliasFano

namespace EFList
variable (ov : Word → Nat → Word)

/-- `elias_fano_list.hpp:38-41` -/
def get (v : Machine.EliasFano) (i : Word) : Run Word := EliasFano.delta ov v i

end EFList

namespace EFCompressedList
variable (ov : Word → Nat → Word)

/-- `elias_fano_compressed_list.hpp:43-48` -/
def get (v : Machine.EFCompressedList) (i : Word) : Run Word := do
  let (a, b) ← EliasFano.selectRange ov v.ef i
  let l := b - a
  let one ← sl 1 l.toNat
  let x ← BitVector.getBits ov v.bits a l
  pure ((one ||| x) - 1)

end EFCompressedList

namespace GammaVector
variable (ov : Word → Nat → Word)

/-- `retrieve_value` (`gamma_vector.hpp:69-74`); returns the value and `l` -/
def retrieve (v : Machine.GammaVec) (idx pos : Word) : Run (Word × Word) := do
  let b ← BitVector.access v.high.bits pos
  chk (b = true)
  let w ← BitVector.getWord v.high.bits (pos + 1)
  let l ← lsbW w
  let one ← sl 1 l
  let x ← BitVector.getBits ov v.low (pos - idx) (BitVec.ofNat 64 l)
  pure ((one ||| x) - 1, BitVec.ofNat 64 l)

/-- `gamma_vector.hpp:41-46` -/
def get (v : Machine.GammaVec) (idx : Word) : Run Word := do
  let pos ← Darray64.select v.high idx
  let (x, _) ← retrieve ov v idx pos
  pure x

/-- `gamma_vector.hpp:86-97` -/
def enumNew (v : Machine.GammaVec) (idx : Word) : Run Machine.GammaEnum := do
  if idx < v.size then
    let pos ← Darray64.select v.high idx
    let u ← UEnum.new v.high.bits.bits (pos + 1)
    pure ⟨idx, pos, some u, Machine.Enum.new (pos - idx)⟩
  else pure ⟨idx, 0, none, Machine.Enum.new 0⟩

end GammaVector

namespace GammaBitVector
variable (ov : Word → Nat → Word)

/-- `retrieve_value` (`gamma_bit_vector.hpp:75-82`); returns the value and `l` -/
def retrieve (v : Machine.GammaVec) (pos : Word) : Run (Word × Word) := do
  let b ← BitVector.access v.high.bits pos
  chk (b = true)
  let w ← BitVector.getWord v.high.bits (pos + 1)
  let l ← lsbW w
  let l := BitVec.ofNat 64 l
  let chunk ← BitVector.getBits ov v.low pos (l + 1)
  let one ← sl 1 (l + 1).toNat
  pure ((one ||| chunk) - 2, l)

/-- `gamma_bit_vector.hpp:47-52` -/
def get (v : Machine.GammaVec) (idx : Word) : Run Word := do
  let pos ← Darray64.select v.high idx
  let (x, _) ← retrieve ov v pos
  pure x

/-- `gamma_bit_vector.hpp:95-106` -/
def enumNew (v : Machine.GammaVec) (idx : Word) : Run Machine.GammaEnum := do
  if idx < v.size then
    let pos ← Darray64.select v.high idx
    let u ← UEnum.new v.high.bits.bits (pos + 1)
    pure ⟨idx, pos, some u, Machine.Enum.new pos⟩
  else pure ⟨idx, 0, none, Machine.Enum.new 0⟩

end GammaBitVector

namespace NibbleVector

/-- `nibble_vector.hpp:58-61` -/
def get (v : Machine.NibbleVector) (pos : Word) : Run (BitVec 8) := do
  chk (pos < v.size)
  let b ← vat v.nibbles (pos / 2)
  pure ((b >>> ((pos % 2) * 4).toNat) &&& 0x0F)

end NibbleVector

namespace Vbyte

/-- the loop `vbyte.hpp:32-36`; as many iterations as there are bytes in the vector are enough, since `v[pos]` is checked -/
def decodeLoop (v : List (BitVec 8)) : Nat → Word → Word → Run (Word × Word)
  | fuel, pos, val => do
    let chunk ← vat v pos
    let val := val <<< 7
    let val := val ||| (chunk &&& 0x7F).setWidth 64
    if chunk &&& 0x80 ≠ 0 then
      match fuel with
      | 0 => .loop
      | fuel + 1 => decodeLoop v fuel (pos + 1) val
    else pure (val, pos + 1)

/-- `vbyte.hpp:26-39`: the decoded value and the returned number of bytes -/
def decode (v : List (BitVec 8)) (offset : Word) : Run (Word × Word) := do
  let (val, pos) ← decodeLoop v v.length offset 0
  pure (val, pos - offset)

end Vbyte

end Checked
end Succinct
