import Verif.Model.Darray
import Verif.Model.Enumerator

/-! # `elias_fano.hpp`, `elias_fano_list.hpp`, `elias_fano_compressed_list.hpp` -/
namespace Succinct
open Broadword

/-- `elias_fano_builder` (`elias_fano.hpp:42-48`).  Values and the universe `n` are `uint64_t`. -/
structure EFBuilder where
  n : Word
  m : Nat
  pos : Nat
  last : Word
  l : Nat
  high : Builder
  low : Builder

/-- `elias_fano.hpp:266-271` -/
structure EliasFano where
  size : Word
  high : BitVector
  d1 : Darray
  d0 : Darray
  low : BitVector
  l : Nat
deriving DecidableEq, Repr

namespace EFBuilder

/-- `m_l` (`elias_fano.hpp:20`) -/
def lowLen (n : Word) (m : Nat) : Option Nat :=
  if m ≠ 0 ∧ n.toNat / m ≠ 0 then msb (BitVec.ofNat 64 (n.toNat / m)) else some 0

/-- `elias_fano.hpp:15-25`.  The size of the high part is computed in 64-bit arithmetic, so it is
reduced modulo `2^64`.  `m_low_bits.reserve` acts on an empty builder and only changes the capacity,
which is not modelled. -/
def new (n : Word) (m : Nat) : Option EFBuilder := do
  let l ← lowLen n m
  let high ← Builder.new (((m + 1) + (n.toNat >>> l) + 1) % 2^64) false
  assertP (l < 64)
  let low ← Builder.new 0 false
  pure ⟨n, m, 0, 0, l, high, low⟩

/-- `(1ULL << m_l) - 1` (`elias_fano.hpp:30,115,148,208`) -/
def lowMask (l : Nat) : Option Word := do
  let x ← shl 1 l
  pure (x - 1)

/-- `elias_fano.hpp:32-34` -/
def appendLow (b : EFBuilder) (i mask : Word) : Option Builder :=
  if b.l ≠ 0 then b.low.appendBits (i &&& mask) b.l else some b.low

/-- `elias_fano.hpp:27-38` -/
def pushBack (b : EFBuilder) (i : Word) : Option EFBuilder := do
  assertP (b.last ≤ i ∧ i ≤ b.n)
  let mask ← lowMask b.l
  let low ← appendLow b i mask
  let h ← shr i b.l
  let high ← b.high.set (h.toNat + b.pos) true
  assertP (b.pos + 1 ≤ b.m)
  pure { b with last := i, low := low, high := high, pos := b.pos + 1 }

end EFBuilder

namespace EliasFano

/-- `build` (`elias_fano.hpp:255-264`); without rank index `m_high_bits_d0` stays default
constructed. -/
def build (b : EFBuilder) (withRank : Bool) : Option EliasFano := do
  let high ← BitVector.ofBuilder b.high
  let d1 ← Darray.build false high
  let d0 ← if withRank then Darray.build true high else some ⟨0, ⟨[], [], []⟩⟩
  let low ← BitVector.ofBuilder b.low
  pure ⟨b.n, high, d1, d0, low, b.l⟩

/-- the loop `elias_fano.hpp:66-70`, `k` values to go -/
def fillLoop (bv : BitVector) : Nat → Nat → EFBuilder → Option EFBuilder
  | 0, _, b => some b
  | k + 1, i, b => do
    let i ← bv.successor false i
    let b ← b.pushBack (BitVec.ofNat 64 i)
    fillLoop bv k (i + 1) b

/-- constructor from a bitmap (`elias_fano.hpp:52-73`); `move_bits` checks the size of the builder
and returns the words, which `bit_vector bv(bvb)` then takes over. -/
def ofBitmap (bvb : Builder) (withRank : Bool) : Option EliasFano := do
  let bv ← BitVector.ofBuilder bvb
  let m := (bv.bits.map popcount).sum
  let b ← EFBuilder.new (BitVec.ofNat 64 bv.size) m
  let b ← fillLoop bv m 0 b
  build b withRank

/-- `elias_fano.hpp:105-107` -/
def numOnes (ef : EliasFano) : Nat := ef.d1.positions

variable (ov : Word → Nat → Word)

/-- `m_low_bits.get_bits(k * m_l, m_l)` (`elias_fano.hpp:121,135,152,175,180,194,196`) -/
def getLow (ef : EliasFano) (k : Nat) : Option Word := ef.low.getBits ov (k * ef.l) ef.l

/-- `elias_fano.hpp:132-136` -/
def select (ef : EliasFano) (n : Nat) : Option Word := do
  let h ← ef.d1.select false ef.high n
  let d ← subU h n
  let x ← shl (BitVec.ofNat 64 d) ef.l
  let low ← getLow ov ef n
  pure (x ||| low)

/-- the loop `elias_fano.hpp:117-129` -/
def accessLoop (ef : EliasFano) (lpos : Word) : Nat → Nat → Option Bool
  | 0, _ => some false
  | h + 1, rank => do
    let b ← ef.high.access h
    if b then
      let rank ← subU rank 1
      let low ← getLow ov ef rank
      if low = lpos then pure true
      else if low < lpos then pure false
      else accessLoop ef lpos h rank
    else pure false

/-- `elias_fano.hpp:109-130` -/
def access (ef : EliasFano) (pos : Word) : Option Bool := do
  assertP (pos < ef.size)
  assertP (ef.d0.positions ≠ 0)
  let hRank ← shr pos ef.l
  let hPos ← ef.d0.select true ef.high hRank.toNat
  let rank ← subU hPos hRank.toNat
  let mask ← EFBuilder.lowMask ef.l
  accessLoop ov ef (pos &&& mask) hPos rank

/-- the loop `elias_fano.hpp:150-157` -/
def rankLoop (ef : EliasFano) (lpos : Word) : Nat → Nat → Option Nat
  | 0, rank => some rank
  | h + 1, rank => do
    let b ← ef.high.access h
    if b then
      let r1 ← subU rank 1
      let low ← getLow ov ef r1
      if lpos ≤ low then rankLoop ef lpos h r1
      else pure rank
    else pure rank

/-- `elias_fano.hpp:138-158` -/
def rank (ef : EliasFano) (pos : Word) : Option Nat := do
  assertP (pos ≤ ef.size)
  assertP (ef.d0.positions ≠ 0)
  if pos = ef.size then pure ef.numOnes
  else
    let hRank ← shr pos ef.l
    let hPos ← ef.d0.select true ef.high hRank.toNat
    let rank ← subU hPos hRank.toNat
    let mask ← EFBuilder.lowMask ef.l
    rankLoop ov ef (pos &&& mask) hPos rank

/-- `elias_fano.hpp:160-162` -/
def predecessor1 (ef : EliasFano) (pos : Word) : Option Word := do
  let r ← rank ov ef (pos + 1)
  let k ← subU r 1
  select ov ef k

/-- `elias_fano.hpp:164-166` -/
def successor1 (ef : EliasFano) (pos : Word) : Option Word := do
  let r ← rank ov ef pos
  select ov ef r

/-- `elias_fano.hpp:173-186` -/
def delta (ef : EliasFano) (n : Nat) : Option Word := do
  let high ← ef.d1.select false ef.high n
  let low ← getLow ov ef n
  if n ≠ 0 then
    let hm ← subU high 1
    let p ← ef.high.predecessor false hm
    let d ← subU high p
    let d ← subU d 1
    let x ← shl (BitVec.ofNat 64 d) ef.l
    let low' ← getLow ov ef (n - 1)
    pure (x + low - low')
  else
    let d ← subU high n
    let x ← shl (BitVec.ofNat 64 d) ef.l
    pure (x ||| low)

/-- `elias_fano.hpp:190-199` -/
def selectRange (ef : EliasFano) (n : Nat) : Option (Word × Word) := do
  assertP (n + 1 < ef.numOnes)
  let hb ← ef.d1.select false ef.high n
  let lb ← getLow ov ef n
  let he ← ef.high.successor false (hb + 1)
  let le ← getLow ov ef (n + 1)
  let db ← subU hb n
  let xb ← shl (BitVec.ofNat 64 db) ef.l
  let de ← subU he (n + 1)
  let xe ← shl (BitVec.ofNat 64 de) ef.l
  pure (xb ||| lb, xe ||| le)

/-- `select_enumerator` (`elias_fano.hpp:244-251`); `high` is `none` when it is left default
constructed.  `m_l`, `m_low_mask` and `m_chunks_in_word` are functions of the structure. -/
structure SelEnum where
  i : Nat
  high : Option UEnum
  lowBuf : Word
  chunksAvail : Nat
deriving DecidableEq, Repr

/-- `elias_fano.hpp:203-222` -/
def SelEnum.new (ef : EliasFano) (i : Nat) : Option SelEnum := do
  let _ ← EFBuilder.lowMask ef.l
  let avail := if ef.l ≠ 0 then 0 else ef.numOnes
  if ef.numOnes = 0 then pure ⟨i, none, 0, avail⟩
  else
    let pos ← ef.d1.select false ef.high i
    let u ← UEnum.new ef.high.bits pos
    assertP (ef.l < 64)
    pure ⟨i, some u, 0, avail⟩

/-- `elias_fano.hpp:225-228`: returns the new `m_low_buf` and `m_chunks_avail`.  `avail = 0` means
that `m_chunks_avail--` wraps, but it is overwritten; with `m_l = 0` there `m_chunks_in_word - 1`
would wrap, which `subU` reports. -/
def SelEnum.refill (ef : EliasFano) (e : SelEnum) : Option (Word × Nat) :=
  if e.chunksAvail = 0 then do
    let w ← ef.low.getWord (e.i * ef.l)
    let a ← subU (if ef.l ≠ 0 then 64 / ef.l else 0) 1
    pure (w, a)
  else some (e.lowBuf, e.chunksAvail - 1)

/-- `elias_fano.hpp:224-240` -/
def SelEnum.next (ef : EliasFano) (e : SelEnum) : Option (Word × SelEnum) := do
  let (buf, avail) ← refill ef e
  let u ← e.high
  let (high, u) ← UEnum.next ef.high.bits u
  let s ← ef.d1.select false ef.high e.i
  assertP (high = s)
  let mask ← EFBuilder.lowMask ef.l
  let d ← subU high e.i
  let x ← shl (BitVec.ofNat 64 d) ef.l
  let buf' ← shr buf ef.l
  pure (x ||| (buf &&& mask), ⟨e.i + 1, some u, buf', avail⟩)

/-- `k` successive calls of `select_enumerator::next` (`elias_fano.hpp:224-240`) -/
def SelEnum.run (ef : EliasFano) : Nat → SelEnum → Option (List Word)
  | 0, _ => some []
  | k + 1, e => do
    let (x, e) ← next ef e
    let xs ← run ef k e
    pure (x :: xs)

end EliasFano

/-- `elias_fano_list` (`elias_fano_list.hpp:65`) -/
structure EFList where
  ef : EliasFano
deriving DecidableEq, Repr

namespace EFList

/-- second loop of the constructor (`elias_fano_list.hpp:29-34`) -/
def pushLoop : List Word → Word → EFBuilder → Option EFBuilder
  | [], _, b => some b
  | x :: xs, base, b => do
    let base := base + x
    let b ← b.pushBack base
    pushLoop xs base b

/-- `elias_fano_list.hpp:14-36`; `size_t` sums wrap modulo `2^64` -/
def build (ints : List Word) : Option EFList := do
  let s := ints.foldl (· + ·) 0
  let b ← EFBuilder.new (s + 1) ints.length
  let b ← pushLoop ints 0 b
  let ef ← EliasFano.build b false
  pure ⟨ef⟩

variable (ov : Word → Nat → Word)

/-- `elias_fano_list.hpp:38-41` -/
def get (v : EFList) (i : Nat) : Option Word := v.ef.delta ov i

/-- `elias_fano_list.hpp:43-46` -/
def size (v : EFList) : Nat := v.ef.numOnes

/-- `elias_fano_list.hpp:48-50` -/
def sum (v : EFList) : Word := v.ef.size - 1

end EFList

/-- `elias_fano_compressed_list` (`elias_fano_compressed_list.hpp:70-71`) -/
structure EFCompressedList where
  ef : EliasFano
  bits : BitVector
deriving DecidableEq, Repr

namespace EFCompressedList

/-- first loop (`elias_fano_compressed_list.hpp:20-25`); `msb` asserts that `*iter + 1` is not 0.
`s` counts bits in memory. -/
def sizeLoop : List Word → Nat → Option Nat
  | [], s => some s
  | x :: xs, s => do
    let l ← msb (x + 1)
    sizeLoop xs (s + l)

/-- second loop (`elias_fano_compressed_list.hpp:31-38`) -/
def pushLoop : List Word → Builder → EFBuilder → Option (Builder × EFBuilder)
  | [], bits, b => some (bits, b)
  | x :: xs, bits, b => do
    let val := x + 1
    let l ← msb val
    let one ← shl 1 l
    let bits ← bits.appendBits (val ^^^ one) l
    let b ← b.pushBack (BitVec.ofNat 64 bits.size)
    pushLoop xs bits b

/-- `elias_fano_compressed_list.hpp:14-41` -/
def build (ints : List Word) : Option EFCompressedList := do
  let s ← sizeLoop ints 0
  let b ← EFBuilder.new (BitVec.ofNat 64 s + 1) (ints.length + 1)
  let bits ← Builder.new 0 false
  let b ← b.pushBack (BitVec.ofNat 64 bits.size)
  let (bits, b) ← pushLoop ints bits b
  let ef ← EliasFano.build b false
  let bits ← BitVector.ofBuilder bits
  pure ⟨ef, bits⟩

variable (ov : Word → Nat → Word)

/-- `elias_fano_compressed_list.hpp:43-48` -/
def get (v : EFCompressedList) (i : Nat) : Option Word := do
  let (a, b) ← v.ef.selectRange ov i
  let l := (b - a).toNat
  let one ← shl 1 l
  let x ← v.bits.getBits ov a.toNat l
  pure ((one ||| x) - 1)

/-- `elias_fano_compressed_list.hpp:50-53` -/
def size (v : EFCompressedList) : Option Nat := subU v.ef.numOnes 1

end EFCompressedList
end Succinct

/-- The usual way of using the builder: construct it for universe `n` and at most `m` values, push the
values in order, build (`elias_fano.hpp:15-38,75-78`). -/
def Succinct.EliasFano.ofSeq (n : Succinct.Word) (m : Nat) (xs : List Succinct.Word) (withRank : Bool) :
    Option Succinct.EliasFano := do
  let b ← Succinct.EFBuilder.new n m
  let b ← xs.foldlM Succinct.EFBuilder.pushBack b
  Succinct.EliasFano.build b withRank
