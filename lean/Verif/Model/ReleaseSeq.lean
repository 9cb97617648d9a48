import Verif.Model.MachineEnum
import Verif.Model.MachineTopK
import Verif.Model.ReleaseRank

/-! # Integer sequences and enumerators with assertions compiled out

The element access of `elias_fano_list`, `elias_fano_compressed_list`, `gamma_vector`, `gamma_bit_vector` and `nibble_vector`, the forward
enumerators, `elias_fano::select_enumerator` and the constructor of `nibble_vector`, in 64-bit arithmetic like `MachineEnum.lean` and
`MachineTopK.lean`, without any assertion.  `bit_vector::unary_enumerator` contains no assertion and its reads through `m_data` are not checked, so
the definitions of `MachineEnum.lean` serve here as well: `none` there is a read outside the array. -/
namespace Succinct
namespace Release
open Broadword
open Machine (at_)

variable (ov : Word → Nat → Word)

/-- `broadword.hpp:177-183`: for the word 0 the variable keeps the value `-1U`, of which `(uint8_t)ret` is 255 -/
def lsb1 (x : Word) : Nat := (lsb x).getD 255

/-! ## `elias_fano_list` and `elias_fano_compressed_list` -/

/-- `elias_fano_list.hpp:38-41` -/
def eflGet (v : Machine.EliasFano) (i : Word) : Option Word := efDelta ov v i

/-- `elias_fano_compressed_list.hpp:43-48` -/
def efclGet (v : Machine.EFCompressedList) (i : Word) : Option Word := do
  let (a, b) ← efSelectRange ov v.ef i
  let l := b - a
  let one ← shl 1 l.toNat
  let x ← bvGetBits ov v.bits a l
  pure ((one ||| x) - 1)

/-- `k` calls of `next` of the generic `forward_enumerator` (`forward_enumerator.hpp:15-18`), with `m_idx = i` before the first -/
def fwdRun (get : Word → Option Word) : Nat → Word → Option (List Word)
  | 0, _ => some []
  | k + 1, i => do
    let x ← get i
    let xs ← fwdRun get k (i + 1)
    pure (x :: xs)

/-! ## `bit_vector::enumerator` -/

/-- `bit_vector.hpp:418-422` -/
def fillBuf (v : Machine.BitVector) (e : Machine.Enum) : Option Machine.Enum := do
  let w ← bvGetWord v e.pos
  pure ⟨e.pos, w, 64⟩

/-- `bit_vector.hpp:377-390` -/
def take (v : Machine.BitVector) (e : Machine.Enum) (l : Word) : Option (Word × Machine.Enum) := do
  let e ← if e.avail < l then fillBuf v e else some e
  Machine.Enum.takeAvail e l

/-! ## `gamma_vector` -/

/-- `gamma_vector.hpp:41-46` with `retrieve_value` (`gamma_vector.hpp:69-74`) -/
def gvGet (v : Machine.GammaVec) (idx : Word) : Option Word := do
  let pos ← da64Select v.high idx
  let w ← bvGetWord v.high.bits (pos + 1)
  let l := lsb1 w
  let one ← shl 1 l
  let x ← bvGetBits ov v.low (pos - idx) (BitVec.ofNat 64 l)
  pure ((one ||| x) - 1)

/-- `gamma_vector.hpp:86-97` -/
def gvEnumNew (v : Machine.GammaVec) (idx : Word) : Option Machine.GammaEnum := do
  if idx < v.size then
    let pos ← da64Select v.high idx
    let u ← Machine.UEnum.new v.high.bits.bits (pos + 1)
    pure ⟨idx, pos, some u, Machine.Enum.new (pos - idx)⟩
  else pure ⟨idx, 0, none, Machine.Enum.new 0⟩

/-- `gamma_vector.hpp:99-109`; a default constructed `m_high_bits_enumerator` reads through a null pointer -/
def gvEnumNext (v : Machine.GammaVec) (e : Machine.GammaEnum) : Option (Word × Machine.GammaEnum) := do
  let u ← e.high
  let (nextPos, u) ← Machine.UEnum.next v.high.bits.bits u
  let l := nextPos - e.pos - 1
  let (chunk, low) ← take v.low e.low l
  let one ← shl 1 l.toNat
  pure ((chunk ||| one) - 1, ⟨e.idx + 1, nextPos, some u, low⟩)

/-- `k` calls of `next` (`gamma_vector.hpp:99-109`) -/
def gvEnumRun (v : Machine.GammaVec) : Nat → Machine.GammaEnum → Option (List Word)
  | 0, _ => some []
  | k + 1, e => do
    let (x, e) ← gvEnumNext v e
    let xs ← gvEnumRun v k e
    pure (x :: xs)

/-! ## `gamma_bit_vector` -/

/-- `gamma_bit_vector.hpp:47-52` with `retrieve_value` (`gamma_bit_vector.hpp:75-82`) -/
def gbvGet (v : Machine.GammaVec) (idx : Word) : Option Word := do
  let pos ← da64Select v.high idx
  let w ← bvGetWord v.high.bits (pos + 1)
  let l := BitVec.ofNat 64 (lsb1 w)
  let chunk ← bvGetBits ov v.low pos (l + 1)
  let one ← shl 1 (l + 1).toNat
  pure ((one ||| chunk) - 2)

/-- `gamma_bit_vector.hpp:95-106` -/
def gbvEnumNew (v : Machine.GammaVec) (idx : Word) : Option Machine.GammaEnum := do
  if idx < v.size then
    let pos ← da64Select v.high idx
    let u ← Machine.UEnum.new v.high.bits.bits (pos + 1)
    pure ⟨idx, pos, some u, Machine.Enum.new pos⟩
  else pure ⟨idx, 0, none, Machine.Enum.new 0⟩

/-- `gamma_bit_vector.hpp:114-124`; a default constructed `m_high_bits_enumerator` reads through a null pointer -/
def gbvEnumNext (v : Machine.GammaVec) (e : Machine.GammaEnum) : Option (Word × Machine.GammaEnum) := do
  let u ← e.high
  let (nextPos, u) ← Machine.UEnum.next v.high.bits.bits u
  let l := nextPos - e.pos - 1
  let (chunk, low) ← take v.low e.low (l + 1)
  let one ← shl 1 (l + 1).toNat
  pure ((chunk ||| one) - 2, ⟨e.idx + 1, nextPos, some u, low⟩)

/-- `skip` (`gamma_bit_vector.hpp:108-112`); the loop runs `k` times -/
def gbvEnumSkip (v : Machine.GammaVec) : Nat → Machine.GammaEnum → Option Machine.GammaEnum
  | 0, e => some e
  | k + 1, e => do
    let (_, e) ← gbvEnumNext v e
    gbvEnumSkip v k e

/-- a history of calls on the enumerator (`gamma_bit_vector.hpp:108-124`): `none` is `next()`, `some k` is `skip(k)`;
the results of the `next` calls -/
def gbvEnumRun (v : Machine.GammaVec) : List (Option Word) → Machine.GammaEnum → Option (List Word)
  | [], _ => some []
  | none :: ops, e => do
    let (x, e) ← gbvEnumNext v e
    let xs ← gbvEnumRun v ops e
    pure (x :: xs)
  | some k :: ops, e => do
    let e ← gbvEnumSkip v k.toNat e
    gbvEnumRun v ops e

/-! ## `elias_fano::select_enumerator` -/

/-- `elias_fano.hpp:203-222` -/
def selNew (ef : Machine.EliasFano) (i : Word) : Option Machine.EliasFano.SelEnum := do
  let _ ← Machine.EFBuilder.lowMask ef.l
  let avail := if ef.l ≠ 0 then 0 else ef.numOnes
  if ef.numOnes = 0 then pure ⟨i, none, 0, avail⟩
  else
    let pos ← daSelect false ef.d1 ef.high i
    let u ← Machine.UEnum.new ef.high.bits pos
    pure ⟨i, some u, 0, avail⟩

/-- `elias_fano.hpp:225-228` -/
def selRefill (ef : Machine.EliasFano) (e : Machine.EliasFano.SelEnum) : Option (Word × Word) :=
  if e.chunksAvail = 0 then do
    let w ← bvGetWord ef.low (e.i * ef.l)
    pure (w, (if ef.l ≠ 0 then 64 / ef.l else 0) - 1)
  else some (e.lowBuf, e.chunksAvail - 1)

/-- `elias_fano.hpp:224-240` -/
def selNext (ef : Machine.EliasFano) (e : Machine.EliasFano.SelEnum) : Option (Word × Machine.EliasFano.SelEnum) := do
  let (buf, avail) ← selRefill ef e
  let u ← e.high
  let (high, u) ← Machine.UEnum.next ef.high.bits u
  let mask ← Machine.EFBuilder.lowMask ef.l
  let x ← shl (high - e.i) ef.l.toNat
  let buf' ← shr buf ef.l.toNat
  pure (x ||| (buf &&& mask), ⟨e.i + 1, some u, buf', avail⟩)

/-- `k` successive calls of `select_enumerator::next` (`elias_fano.hpp:224-240`) -/
def selRun (ef : Machine.EliasFano) : Nat → Machine.EliasFano.SelEnum → Option (List Word)
  | 0, _ => some []
  | k + 1, e => do
    let (x, e) ← selNext ef e
    let xs ← selRun ef k e
    pure (x :: xs)

/-! ## `nibble_vector` -/

/-- loop body, `nibble_vector.hpp:28-34`, for a range of `uint64_t`; `|=` truncates to `uint8_t` -/
def nvStep (s : Machine.NibbleVector.St) (x : Word) : Machine.NibbleVector.St :=
  let cur := s.cur ||| (x <<< (s.parity.toNat * 4)).setWidth 8
  let parity := !s.parity
  if !parity then ⟨s.size + 1, s.nibbles ++ [cur], parity, 0⟩
  else ⟨s.size + 1, s.nibbles, parity, cur⟩

/-- `nibble_vector.hpp:17-40` -/
def nvBuild (from_ : List Word) : Machine.NibbleVector :=
  let s := from_.foldl nvStep ⟨0, [], false, 0⟩
  if s.parity then ⟨s.size, s.nibbles ++ [s.cur]⟩ else ⟨s.size, s.nibbles⟩

/-- `nibble_vector.hpp:58-61` -/
def nvGet (v : Machine.NibbleVector) (pos : Word) : Option (BitVec 8) := do
  let b ← at_ v.nibbles (pos / 2)
  pure ((b >>> ((pos % 2) * 4).toNat) &&& 0x0F)

end Release
end Succinct
