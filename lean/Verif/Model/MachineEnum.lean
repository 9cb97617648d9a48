import Verif.Model.MachineEF
import Verif.Model.Gamma

/-! # The enumerators, the Elias–Fano lists and the gamma vectors in 64-bit arithmetic

See `Verif/Model/Machine.lean`.  The enumerators keep counters that the code lets wrap around (`m_avail`,
`m_chunks_avail`); here they are 64-bit words. -/
namespace Succinct
namespace Machine
open Broadword

/-- a call of a member of `bit_vector::enumerator` (`bit_vector.hpp:367-409`) -/
inductive EnumCall where
  | next
  | take (l : Word)
  | skipZeros
deriving DecidableEq, Repr

/-- what a call returns (`bit_vector.hpp:374,389,408`) -/
inductive EnumRet where
  | bit (b : Bool)
  | val (w : Word)
deriving DecidableEq, Repr

/-- `bit_vector.hpp:424-427`; the vector is passed separately -/
structure Enum where
  pos : Word
  buf : Word
  avail : Word
deriving DecidableEq, Repr

namespace Enum

/-- `bit_vector.hpp:358-365`; the prefetch has no effect on the state -/
def new (pos : Word) : Enum := ⟨pos, 0, 0⟩

/-- `bit_vector.hpp:418-422` -/
def fillBuf (v : BitVector) (e : Enum) : Option Enum := do
  let w ← v.getWord e.pos
  pure ⟨e.pos, w, 64⟩

/-- `bit_vector.hpp:367-375` -/
def next (v : BitVector) (e : Enum) : Option (Bool × Enum) := do
  let e ← if e.avail = 0 then fillBuf v e else some e
  let b := e.buf.getLsbD 0
  let buf ← shr e.buf 1
  pure (b, ⟨e.pos + 1, buf, e.avail - 1⟩)

/-- `bit_vector.hpp:380-389` -/
def takeAvail (e : Enum) (l : Word) : Option (Word × Enum) := do
  if l ≠ 64 then
    let m ← shl 1 l.toNat
    let val := e.buf &&& (m - 1)
    let buf ← shr e.buf l.toNat
    pure (val, ⟨e.pos + l, buf, e.avail - l⟩)
  else
    pure (e.buf, ⟨e.pos + l, e.buf, e.avail - l⟩)

/-- `bit_vector.hpp:377-390` -/
def take (v : BitVector) (e : Enum) (l : Word) : Option (Word × Enum) := do
  let e ← if e.avail < l then fillBuf v e else some e
  takeAvail e l

/-- `bit_vector.hpp:396-401`; `fuel` bounds the number of iterations -/
def skipZerosLoop (v : BitVector) : Nat → Enum → Word → Option (Enum × Word)
  | fuel, e, zs =>
    if e.buf = 0 then
      match fuel with
      | 0 => none
      | fuel + 1 => do
        let e' ← fillBuf v ⟨e.pos + e.avail, e.buf, 0⟩
        skipZerosLoop v fuel e' (zs + e.avail)
    else some (e, zs)

/-- `bit_vector.hpp:392-409` -/
def skipZeros (v : BitVector) (e : Enum) : Option (Word × Enum) := do
  let (e, zs) ← skipZerosLoop v (v.bits.length + 2) e 0
  let l ← lsb e.buf
  let buf ← shr e.buf l
  let buf ← shr buf 1
  let l := BitVec.ofNat 64 l
  pure (zs + l, ⟨e.pos + (l + 1), buf, e.avail - (l + 1)⟩)

/-- one call (`bit_vector.hpp:367-409`) -/
def step (v : BitVector) (e : Enum) : EnumCall → Option (EnumRet × Enum)
  | .next => do let (b, e) ← next v e; pure (.bit b, e)
  | .take n => do let (w, e) ← take v e n; pure (.val w, e)
  | .skipZeros => do let (n, e) ← skipZeros v e; pure (.val n, e)

/-- a history of calls; answers with `position()` (`bit_vector.hpp:411-414`) after each -/
def run (v : BitVector) : Enum → List EnumCall → Option (List (EnumRet × Word))
  | _, [] => some []
  | e, op :: ops => do
    let (o, e) ← step v e op
    let outs ← run v e ops
    pure ((o, e.pos) :: outs)

end Enum

/-- a call of a member of `bit_vector::unary_enumerator` (`bit_vector.hpp:451-516`) -/
inductive UnaryCall where
  | next
  | skip (k : Word)
  | skipNoMove (k : Word)
  | skip0 (k : Word)
deriving DecidableEq, Repr

/-- `bit_vector.hpp:518-521`; the words are passed separately -/
structure UEnum where
  position : Word
  buf : Word
deriving DecidableEq, Repr

namespace UEnum

/-- `bit_vector.hpp:437-444` -/
def new (bits : List Word) (pos : Word) : Option UEnum := do
  let w ← at_ bits (pos / 64)
  let m ← shl (BitVec.allOnes 64) (pos % 64).toNat
  pure ⟨pos, w &&& m⟩

/-- `bit_vector.hpp:455-458`; returns `m_position`, `buf`, `pos_in_word` -/
def nextLoop (bits : List Word) : Nat → Word → Word → Option (Word × Word × Nat)
  | fuel, position, buf =>
    match lsb buf with
    | some r => some (position, buf, r)
    | none =>
      match fuel with
      | 0 => none
      | fuel + 1 => do
        let w ← at_ bits ((position + 64) / 64)
        nextLoop bits fuel (position + 64) w

/-- `bit_vector.hpp:451-463` -/
def next (bits : List Word) (e : UEnum) : Option (Word × UEnum) := do
  let (position, buf, r) ← nextLoop bits bits.length e.position e.buf
  let position := (position &&& ~~~63) + BitVec.ofNat 64 r
  pure (position, ⟨position, buf &&& (buf - 1)⟩)

/-- the loops `bit_vector.hpp:471-475, 489-493, 507-511`; `neg` for `skip0` -/
def skipLoop (neg : Bool) (bits : List Word) (k : Word) : Nat → Word → Word → Word → Option (Word × Word × Word)
  | fuel, position, skipped, buf =>
    let w := BitVec.ofNat 64 (popcount buf)
    if skipped + w ≤ k then
      match fuel with
      | 0 => none
      | fuel + 1 => do
        let b ← at_ bits ((position + 64) / 64)
        skipLoop neg bits k fuel (position + 64) (skipped + w) (if neg then ~~~b else b)
    else some (position, skipped, buf)

/-- `bit_vector.hpp:466-480` -/
def skip (bits : List Word) (e : UEnum) (k : Word) : Option UEnum := do
  let (position, skipped, buf) ← skipLoop false bits k bits.length e.position 0 e.buf
  assertP (buf ≠ 0)
  let r ← selectInWord buf (k - skipped).toNat
  let m ← shl (BitVec.allOnes 64) r
  pure ⟨(position &&& ~~~63) + BitVec.ofNat 64 r, buf &&& m⟩

/-- `bit_vector.hpp:483-498` -/
def skipNoMove (bits : List Word) (e : UEnum) (k : Word) : Option Word := do
  let (position, skipped, buf) ← skipLoop false bits k bits.length e.position 0 e.buf
  assertP (buf ≠ 0)
  let r ← selectInWord buf (k - skipped).toNat
  pure ((position &&& ~~~63) + BitVec.ofNat 64 r)

/-- `bit_vector.hpp:501-516` -/
def skip0 (bits : List Word) (e : UEnum) (k : Word) : Option UEnum := do
  let m ← shl (BitVec.allOnes 64) (e.position % 64).toNat
  let (position, skipped, buf) ← skipLoop true bits k bits.length e.position 0 (~~~e.buf &&& m)
  assertP (buf ≠ 0)
  let r ← selectInWord buf (k - skipped).toNat
  let m ← shl (BitVec.allOnes 64) r
  pure ⟨(position &&& ~~~63) + BitVec.ofNat 64 r, ~~~buf &&& m⟩

/-- one call (`bit_vector.hpp:451-516`) and what it returns -/
def step (bits : List Word) (e : UEnum) : UnaryCall → Option (Option Word × UEnum)
  | .next => do let (q, e) ← next bits e; pure (some q, e)
  | .skip k => do let e ← skip bits e k; pure (none, e)
  | .skipNoMove k => do let q ← skipNoMove bits e k; pure (some q, e)
  | .skip0 k => do let e ← skip0 bits e k; pure (none, e)

/-- a history of calls; answers with `position()` (`bit_vector.hpp:446-449`) after each -/
def run (bits : List Word) : UEnum → List UnaryCall → Option (List (Option Word × Word))
  | _, [] => some []
  | e, op :: ops => do
    let (o, e) ← step bits e op
    let outs ← run bits e ops
    pure ((o, e.position) :: outs)

end UEnum

/-! ## `elias_fano::select_enumerator` -/
namespace EliasFano

/-- `elias_fano.hpp:244-251`; `m_ef`, `m_l`, `m_low_mask` and `m_chunks_in_word` do not change and are not stored.
`high` is `none` while default constructed. -/
structure SelEnum where
  i : Word
  high : Option UEnum
  lowBuf : Word
  chunksAvail : Word
deriving DecidableEq, Repr

/-- `elias_fano.hpp:203-222` -/
def SelEnum.new (ef : EliasFano) (i : Word) : Option SelEnum := do
  let _ ← EFBuilder.lowMask ef.l
  let avail := if ef.l ≠ 0 then 0 else ef.numOnes
  if ef.numOnes = 0 then pure ⟨i, none, 0, avail⟩
  else
    let pos ← ef.d1.select false ef.high i
    let u ← UEnum.new ef.high.bits pos
    assertP (ef.l < 64)
    pure ⟨i, some u, 0, avail⟩

/-- `elias_fano.hpp:225-228` -/
def SelEnum.refill (ef : EliasFano) (e : SelEnum) : Option (Word × Word) :=
  if e.chunksAvail = 0 then do
    let w ← ef.low.getWord (e.i * ef.l)
    pure (w, (if ef.l ≠ 0 then 64 / ef.l else 0) - 1)
  else some (e.lowBuf, e.chunksAvail - 1)

/-- `elias_fano.hpp:224-240` -/
def SelEnum.next (ef : EliasFano) (e : SelEnum) : Option (Word × SelEnum) := do
  let (buf, avail) ← refill ef e
  let u ← e.high
  let (high, u) ← UEnum.next ef.high.bits u
  let s ← ef.d1.select false ef.high e.i
  assertP (high = s)
  let mask ← EFBuilder.lowMask ef.l
  let x ← shl (high - e.i) ef.l.toNat
  let buf' ← shr buf ef.l.toNat
  pure (x ||| (buf &&& mask), ⟨e.i + 1, some u, buf', avail⟩)

/-- `k` successive calls of `select_enumerator::next` (`elias_fano.hpp:224-240`) -/
def SelEnum.run (ef : EliasFano) : Nat → SelEnum → Option (List Word)
  | 0, _ => some []
  | k + 1, e => do
    let (x, e) ← next ef e
    let xs ← run ef k e
    pure (x :: xs)

end EliasFano

/-! ## `elias_fano_list` and `elias_fano_compressed_list` -/
namespace EFList

/-- second loop of the constructor (`elias_fano_list.hpp:29-34`) -/
def pushLoop : List Word → Word → EFBuilder → Option EFBuilder
  | [], _, b => some b
  | x :: xs, base, b => do
    let base := base + x
    let b ← b.pushBack base
    pushLoop xs base b

/-- `elias_fano_list.hpp:14-36`; the first loop adds up `s` and counts `n` -/
def build (ints : List Word) : Option EliasFano := do
  let (s, n) := ints.foldl (fun sn x => (sn.1 + x, sn.2 + 1)) ((0, 0) : Word × Word)
  let b ← EFBuilder.new (s + 1) n
  let b ← pushLoop ints 0 b
  EliasFano.build b false

variable (ov : Word → Nat → Word)

/-- `elias_fano_list.hpp:38-41` -/
def get (v : EliasFano) (i : Word) : Option Word := v.delta ov i

/-- `elias_fano_list.hpp:43-46` -/
def size (v : EliasFano) : Word := v.numOnes

/-- `elias_fano_list.hpp:48-50` -/
def sum (v : EliasFano) : Word := v.size - 1

end EFList

/-- `elias_fano_compressed_list.hpp:70-71` -/
structure EFCompressedList where
  ef : EliasFano
  bits : BitVector
deriving DecidableEq, Repr

namespace EFCompressedList

/-- first loop (`elias_fano_compressed_list.hpp:20-25`) -/
def sizeLoop : List Word → Word → Word → Option (Word × Word)
  | [], s, n => some (s, n)
  | x :: xs, s, n => do
    let l ← msb (x + 1)
    sizeLoop xs (s + BitVec.ofNat 64 l) (n + 1)

/-- second loop (`elias_fano_compressed_list.hpp:31-38`) -/
def pushLoop : List Word → Builder → EFBuilder → Option (Builder × EFBuilder)
  | [], bits, b => some (bits, b)
  | x :: xs, bits, b => do
    let val := x + 1
    let l ← msb val
    let one ← shl 1 l
    let bits ← bits.appendBits (val ^^^ one) (BitVec.ofNat 64 l)
    let b ← b.pushBack bits.size
    pushLoop xs bits b

/-- `elias_fano_compressed_list.hpp:14-41` -/
def build (ints : List Word) : Option EFCompressedList := do
  let (s, n) ← sizeLoop ints 0 0
  let b ← EFBuilder.new (s + 1) (n + 1)
  let bits ← Builder.new 0 false
  let b ← b.pushBack bits.size
  let (bits, b) ← pushLoop ints bits b
  let ef ← EliasFano.build b false
  let bits ← BitVector.ofBuilder bits
  pure ⟨ef, bits⟩

variable (ov : Word → Nat → Word)

/-- `elias_fano_compressed_list.hpp:43-48` -/
def get (v : EFCompressedList) (i : Word) : Option Word := do
  let (a, b) ← v.ef.selectRange ov i
  let l := b - a
  let one ← shl 1 l.toNat
  let x ← v.bits.getBits ov a l
  pure ((one ||| x) - 1)

/-- `elias_fano_compressed_list.hpp:50-53` -/
def size (v : EFCompressedList) : Word := v.ef.numOnes - 1

end EFCompressedList

/-! ## `gamma_vector` and `gamma_bit_vector` -/

/-- `gamma_vector.hpp:77-78`, `gamma_bit_vector.hpp:86-87` -/
structure GammaVec where
  high : Darray64
  low : BitVector
deriving DecidableEq, Repr

/-- `gamma_vector.hpp:48-51`, `gamma_bit_vector.hpp:54-57` -/
def GammaVec.size (v : GammaVec) : Word := v.high.numOnes - 1

/-- `gamma_vector.hpp:112-117`, `gamma_bit_vector.hpp:127-132`; the unary enumerator is `none` while default
constructed -/
structure GammaEnum where
  idx : Word
  pos : Word
  high : Option UEnum
  low : Enum

namespace GammaVector

/-- loop of the constructor (`gamma_vector.hpp:26-35`); `l` is a `uint8_t` -/
def loop : List Word → Darray64Builder → Builder → Option (Darray64Builder × Builder)
  | [], high, low => some (high, low)
  | x :: xs, high, low => do
    let val := x + 1
    let l ← msb1 val
    let l := BitVec.ofNat 64 l % 256
    let one ← shl 1 l.toNat
    let low ← low.appendBits (val ^^^ one) l
    let high ← Darray64.append1 high l
    loop xs high low

/-- `gamma_vector.hpp:18-39` -/
def build (ints : List Word) : Option GammaVec := do
  let high ← Darray64.new
  let low ← Builder.new 0 false
  let high ← Darray64.append1 high 0
  let (high, low) ← loop ints high low
  let high ← Darray64.ofBuilder high
  let low ← BitVector.ofBuilder low
  pure ⟨high, low⟩

variable (ov : Word → Nat → Word)

/-- `retrieve_value` (`gamma_vector.hpp:69-74`); returns the value and `l` -/
def retrieve (v : GammaVec) (idx pos : Word) : Option (Word × Word) := do
  let b ← v.high.bits.access pos
  assertP (b = true)
  let w ← v.high.bits.getWord (pos + 1)
  let l ← lsb1 w
  let one ← shl 1 l
  let x ← v.low.getBits ov (pos - idx) (BitVec.ofNat 64 l)
  pure ((one ||| x) - 1, BitVec.ofNat 64 l)

/-- `gamma_vector.hpp:41-46` -/
def get (v : GammaVec) (idx : Word) : Option Word := do
  let pos ← v.high.select idx
  let (x, _) ← retrieve ov v idx pos
  pure x

/-- `gamma_vector.hpp:86-97` -/
def enumNew (v : GammaVec) (idx : Word) : Option GammaEnum := do
  if idx < v.size then
    let pos ← v.high.select idx
    let u ← UEnum.new v.high.bits.bits (pos + 1)
    pure ⟨idx, pos, some u, Enum.new (pos - idx)⟩
  else pure ⟨idx, 0, none, Enum.new 0⟩

/-- `gamma_vector.hpp:99-109` -/
def enumNext (v : GammaVec) (e : GammaEnum) : Option (Word × GammaEnum) := do
  assertP (e.idx ≤ v.size)
  let u ← e.high
  let (nextPos, u) ← UEnum.next v.high.bits.bits u
  let l := nextPos - e.pos - 1
  let (chunk, low) ← Enum.take v.low e.low l
  let one ← shl 1 l.toNat
  pure ((chunk ||| one) - 1, ⟨e.idx + 1, nextPos, some u, low⟩)

/-- `k` calls of `next` (`gamma_vector.hpp:99-109`) -/
def enumRun (v : GammaVec) : Nat → GammaEnum → Option (List Word)
  | 0, _ => some []
  | k + 1, e => do
    let (x, e) ← enumNext v e
    let xs ← enumRun v k e
    pure (x :: xs)

end GammaVector

namespace GammaBitVector

/-- loop of the constructor (`gamma_bit_vector.hpp:31-41`); `l` is a `uint8_t` -/
def loop : List Word → Darray64Builder → Builder → Option (Darray64Builder × Builder)
  | [], high, low => some (high, low)
  | x :: xs, high, low => do
    let val := x + 2
    let l ← msb1 val
    let l := BitVec.ofNat 64 l % 256
    assertP (l > 0)
    let high ← Darray64.append1 high (l - 1)
    let one ← shl 1 l.toNat
    let low ← low.appendBits (val ^^^ one) l
    loop xs high low

/-- `gamma_bit_vector.hpp:23-45` -/
def build (vals : List Word) : Option GammaVec := do
  let high ← Darray64.new
  let low ← Builder.new 0 false
  let high ← Darray64.append1 high 0
  let (high, low) ← loop vals high low
  let high ← Darray64.ofBuilder high
  let low ← BitVector.ofBuilder low
  pure ⟨high, low⟩

variable (ov : Word → Nat → Word)

/-- `retrieve_value` (`gamma_bit_vector.hpp:75-82`); returns the value and `l` -/
def retrieve (v : GammaVec) (pos : Word) : Option (Word × Word) := do
  let b ← v.high.bits.access pos
  assertP (b = true)
  let w ← v.high.bits.getWord (pos + 1)
  let l ← lsb1 w
  let l := BitVec.ofNat 64 l
  let chunk ← v.low.getBits ov pos (l + 1)
  let one ← shl 1 (l + 1).toNat
  pure ((one ||| chunk) - 2, l)

/-- `gamma_bit_vector.hpp:47-52` -/
def get (v : GammaVec) (idx : Word) : Option Word := do
  let pos ← v.high.select idx
  let (x, _) ← retrieve ov v pos
  pure x

/-- `gamma_bit_vector.hpp:95-106` -/
def enumNew (v : GammaVec) (idx : Word) : Option GammaEnum := do
  if idx < v.size then
    let pos ← v.high.select idx
    let u ← UEnum.new v.high.bits.bits (pos + 1)
    pure ⟨idx, pos, some u, Enum.new pos⟩
  else pure ⟨idx, 0, none, Enum.new 0⟩

/-- `gamma_bit_vector.hpp:114-124` -/
def enumNext (v : GammaVec) (e : GammaEnum) : Option (Word × GammaEnum) := do
  assertP (e.idx ≤ v.size)
  let u ← e.high
  let (nextPos, u) ← UEnum.next v.high.bits.bits u
  let l := nextPos - e.pos - 1
  let (chunk, low) ← Enum.take v.low e.low (l + 1)
  let one ← shl 1 (l + 1).toNat
  pure ((chunk ||| one) - 2, ⟨e.idx + 1, nextPos, some u, low⟩)

/-- `skip` (`gamma_bit_vector.hpp:108-112`); the loop runs `k` times -/
def enumSkip (v : GammaVec) : Nat → GammaEnum → Option GammaEnum
  | 0, e => some e
  | k + 1, e => do
    let (_, e) ← enumNext v e
    enumSkip v k e

/-- a history of calls on the enumerator (`gamma_bit_vector.hpp:108-124`): `none` is `next()`, `some k` is `skip(k)`;
the results of the `next` calls -/
def enumRun (v : GammaVec) : List (Option Word) → GammaEnum → Option (List Word)
  | [], _ => some []
  | none :: ops, e => do
    let (x, e) ← enumNext v e
    let xs ← enumRun v ops e
    pure (x :: xs)
  | some k :: ops, e => do
    let e ← enumSkip v k.toNat e
    enumRun v ops e

end GammaBitVector
end Machine
end Succinct
