import Verif.Model.Darray
import Verif.Model.Enumerator

/-! # `gamma_vector.hpp`, `gamma_bit_vector.hpp`, `forward_enumerator.hpp` -/
namespace Succinct
open Broadword

/-- generic `forward_enumerator` (`forward_enumerator.hpp:15-18`), over the container's `operator[]`;
the state is `m_idx`. -/
def forwardNext {α : Type} (get : Nat → Option α) (idx : Nat) : Option (α × Nat) := do
  let x ← get idx
  pure (x, idx + 1)

/-- `k` calls of `next` of the generic `forward_enumerator` (`forward_enumerator.hpp:15-18`) -/
def forwardRun {α : Type} (get : Nat → Option α) : Nat → Nat → Option (List α)
  | 0, _ => some []
  | k + 1, idx => do
    let (x, idx) ← forwardNext get idx
    let xs ← forwardRun get k idx
    pure (x :: xs)

/-- `gamma_vector` (`gamma_vector.hpp:77-78`) and `gamma_bit_vector` (`gamma_bit_vector.hpp:86-87`) have
the same members. -/
structure GammaVec where
  high : Darray64
  low : BitVector
deriving DecidableEq, Repr

/-- Members of both specialisations of `forward_enumerator` (`gamma_vector.hpp:112-117`,
`gamma_bit_vector.hpp:127-132`) except `m_c`; the unary enumerator is `none` while default
constructed. -/
structure GammaEnum where
  idx : Nat
  pos : Nat
  high : Option UEnum
  low : Enum

namespace GammaVec

/-- `gamma_vector.hpp:48-51`, `gamma_bit_vector.hpp:54-57` -/
def size (v : GammaVec) : Option Nat := subU v.high.numOnes 1

end GammaVec

namespace GammaVector

/-- loop of the constructor (`gamma_vector.hpp:26-35`) -/
def loop : List Word → Darray64Builder → Builder → Option (Darray64Builder × Builder)
  | [], high, low => some (high, low)
  | x :: xs, high, low => do
    let val := x + 1
    let l ← msb1 val
    let one ← shl 1 l
    let low ← low.appendBits (val ^^^ one) l
    let high ← Darray64.append1 high l
    loop xs high low

/-- `gamma_vector.hpp:18-39` -/
def build (ints : List Word) : Option GammaVec := do
  let high ← Darray64.new
  let low ← Builder.new 0 false
  let high ← Darray64.append1 high 0
  let (high, low) ← loop ints high low
  let high ← Darray64.ofBuilder high
  let low ← BitVector.ofBuilder low
  pure ⟨high, low⟩

variable (ov : Word → Nat → Word)

/-- `retrieve_value` (`gamma_vector.hpp:69-74`); returns the value and `l` -/
def retrieve (v : GammaVec) (idx pos : Nat) : Option (Word × Nat) := do
  let b ← v.high.bits.access pos
  assertP (b = true)
  let w ← v.high.bits.getWord (pos + 1)
  let l ← lsb1 w
  let one ← shl 1 l
  let off ← subU pos idx
  let x ← v.low.getBits ov off l
  pure ((one ||| x) - 1, l)

/-- `gamma_vector.hpp:41-46` -/
def get (v : GammaVec) (idx : Nat) : Option Word := do
  let pos ← v.high.select idx
  let (x, _) ← retrieve ov v idx pos
  pure x

/-- `gamma_vector.hpp:86-97` -/
def enumNew (v : GammaVec) (idx : Nat) : Option GammaEnum := do
  let s ← v.size
  if idx < s then
    let pos ← v.high.select idx
    let u ← UEnum.new v.high.bits.bits (pos + 1)
    let off ← subU pos idx
    pure ⟨idx, pos, some u, Enum.new off⟩
  else pure ⟨idx, 0, none, Enum.new 0⟩

/-- `gamma_vector.hpp:99-109` -/
def enumNext (v : GammaVec) (e : GammaEnum) : Option (Word × GammaEnum) := do
  let s ← v.size
  assertP (e.idx ≤ s)
  let u ← e.high
  let (nextPos, u) ← UEnum.next v.high.bits.bits u
  let d ← subU nextPos e.pos
  let l ← subU d 1
  let (chunk, low) ← Enum.take v.low e.low l
  let one ← shl 1 l
  pure ((chunk ||| one) - 1, ⟨e.idx + 1, nextPos, some u, low⟩)

/-- `k` calls of `next` (`gamma_vector.hpp:99-109`) -/
def enumRun (v : GammaVec) : Nat → GammaEnum → Option (List Word)
  | 0, _ => some []
  | k + 1, e => do
    let (x, e) ← enumNext v e
    let xs ← enumRun v k e
    pure (x :: xs)

end GammaVector

namespace GammaBitVector

/-- loop of the constructor (`gamma_bit_vector.hpp:31-41`) -/
def loop : List Word → Darray64Builder → Builder → Option (Darray64Builder × Builder)
  | [], high, low => some (high, low)
  | x :: xs, high, low => do
    let val := x + 2
    let l ← msb1 val
    assertP (l > 0)
    let high ← Darray64.append1 high (l - 1)
    let one ← shl 1 l
    let low ← low.appendBits (val ^^^ one) l
    loop xs high low

/-- `gamma_bit_vector.hpp:23-45` -/
def build (vals : List Word) : Option GammaVec := do
  let high ← Darray64.new
  let low ← Builder.new 0 false
  let high ← Darray64.append1 high 0
  let (high, low) ← loop vals high low
  let high ← Darray64.ofBuilder high
  let low ← BitVector.ofBuilder low
  pure ⟨high, low⟩

variable (ov : Word → Nat → Word)

/-- `retrieve_value` (`gamma_bit_vector.hpp:75-82`); returns the value and `l` -/
def retrieve (v : GammaVec) (pos : Nat) : Option (Word × Nat) := do
  let b ← v.high.bits.access pos
  assertP (b = true)
  let w ← v.high.bits.getWord (pos + 1)
  let l ← lsb1 w
  let chunk ← v.low.getBits ov pos (l + 1)
  let one ← shl 1 (l + 1)
  pure ((one ||| chunk) - 2, l)

/-- `gamma_bit_vector.hpp:47-52` -/
def get (v : GammaVec) (idx : Nat) : Option Word := do
  let pos ← v.high.select idx
  let (x, _) ← retrieve ov v pos
  pure x

/-- `gamma_bit_vector.hpp:95-106` -/
def enumNew (v : GammaVec) (idx : Nat) : Option GammaEnum := do
  let s ← v.size
  if idx < s then
    let pos ← v.high.select idx
    let u ← UEnum.new v.high.bits.bits (pos + 1)
    pure ⟨idx, pos, some u, Enum.new pos⟩
  else pure ⟨idx, 0, none, Enum.new 0⟩

/-- `gamma_bit_vector.hpp:114-124` -/
def enumNext (v : GammaVec) (e : GammaEnum) : Option (Word × GammaEnum) := do
  let s ← v.size
  assertP (e.idx ≤ s)
  let u ← e.high
  let (nextPos, u) ← UEnum.next v.high.bits.bits u
  let d ← subU nextPos e.pos
  let l ← subU d 1
  let (chunk, low) ← Enum.take v.low e.low (l + 1)
  let one ← shl 1 (l + 1)
  pure ((chunk ||| one) - 2, ⟨e.idx + 1, nextPos, some u, low⟩)

/-- `skip` (`gamma_bit_vector.hpp:108-112`) -/
def enumSkip (v : GammaVec) : Nat → GammaEnum → Option GammaEnum
  | 0, e => some e
  | k + 1, e => do
    let (_, e) ← enumNext v e
    enumSkip v k e

/-- a history of calls on the enumerator (`gamma_bit_vector.hpp:108-124`): `none` is `next()`, `some k` is `skip(k)`; the results of the
`next` calls -/
def enumRun (v : GammaVec) : List (Option Nat) → GammaEnum → Option (List Word)
  | [], _ => some []
  | none :: ops, e => do
    let (x, e) ← enumNext v e
    let xs ← enumRun v ops e
    pure (x :: xs)
  | some k :: ops, e => do
    let e ← enumSkip v k e
    enumRun v ops e

end GammaBitVector
end Succinct
