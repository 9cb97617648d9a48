import Verif.Model.BitVector
import Verif.Spec.Enumerator

/-! # `bit_vector.hpp:352-522`: the two enumerators -/
namespace Succinct
open Broadword Spec

/-- `uint64_t` subtraction of counters with wrap-around, for `m_avail` (`bit_vector.hpp:372,387,406`) -/
def wsub (a b : Nat) : Nat := if b ≤ a then a - b else a + 2^64 - b

/-- State of `bit_vector::enumerator` (`bit_vector.hpp:424-427`); the vector is passed separately. -/
structure Enum where
  pos : Nat
  buf : Word
  avail : Nat
deriving DecidableEq, Repr

namespace Enum

/-- `bit_vector.hpp:358-365`.  The prefetch has no effect on the state. -/
def new (pos : Nat) : Enum := ⟨pos, 0, 0⟩

/-- `bit_vector.hpp:418-422` -/
def fillBuf (v : BitVector) (e : Enum) : Option Enum := do
  let w ← v.getWord e.pos
  pure ⟨e.pos, w, 64⟩

/-- `bit_vector.hpp:367-375` -/
def next (v : BitVector) (e : Enum) : Option (Bool × Enum) := do
  let e ← if e.avail = 0 then fillBuf v e else some e
  let b := e.buf.getLsbD 0
  let buf ← shr e.buf 1
  pure (b, ⟨e.pos + 1, buf, wsub e.avail 1⟩)

/-- `bit_vector.hpp:380-389`: `take` when the buffer holds enough bits -/
def takeAvail (e : Enum) (l : Nat) : Option (Word × Enum) := do
  if l ≠ 64 then
    let m ← shl 1 l
    let val := e.buf &&& (m - 1)
    let buf ← shr e.buf l
    pure (val, ⟨e.pos + l, buf, wsub e.avail l⟩)
  else
    pure (e.buf, ⟨e.pos + l, e.buf, wsub e.avail l⟩)

/-- `bit_vector.hpp:377-390` -/
def take (v : BitVector) (e : Enum) (l : Nat) : Option (Word × Enum) := do
  let e ← if e.avail < l then fillBuf v e else some e
  takeAvail e l

/-- `bit_vector.hpp:396-401` -/
def skipZerosLoop (v : BitVector) : Nat → Enum → Nat → Option (Enum × Nat)
  | fuel, e, zs =>
    if e.buf = 0 then
      match fuel with
      | 0 => none
      | fuel + 1 => do
        let e' ← fillBuf v ⟨e.pos + e.avail, e.buf, 0⟩
        skipZerosLoop v fuel e' (zs + e.avail)
    else some (e, zs)

/-- `bit_vector.hpp:392-409` -/
def skipZeros (v : BitVector) (e : Enum) : Option (Nat × Enum) := do
  let (e, zs) ← skipZerosLoop v (v.bits.length + 2) e 0
  let l ← lsb e.buf
  let buf ← shr e.buf l
  let buf ← shr buf 1
  pure (zs + l, ⟨e.pos + (l + 1), buf, wsub e.avail (l + 1)⟩)

/-- One call; `position()` (`bit_vector.hpp:411-414`) is the `pos` field of the new state. -/
def step (v : BitVector) (e : Enum) : EnumOp → Option (EnumOut × Enum)
  | .next => do let (b, e) ← next v e; pure (.bit b, e)
  | .take n => do let (w, e) ← take v e n; pure (.val w.toNat, e)
  | .skipZeros => do let (n, e) ← skipZeros v e; pure (.val n, e)

/-- A history of calls of `bit_vector::enumerator` (`bit_vector.hpp:352-428`); answers with `position()` after each. -/
def run (v : BitVector) : Enum → List EnumOp → Option (List (EnumOut × Nat))
  | _, [] => some []
  | e, op :: ops => do
    let (o, e) ← step v e op
    let outs ← run v e ops
    pure ((o, e.pos) :: outs)

end Enum

/-- State of `bit_vector::unary_enumerator` (`bit_vector.hpp:518-521`); the words are passed
separately. -/
structure UEnum where
  position : Nat
  buf : Word
deriving DecidableEq, Repr

namespace UEnum

/-- `bit_vector.hpp:437-444` -/
def new (bits : List Word) (pos : Nat) : Option UEnum := do
  let w ← rd bits (pos / 64)
  let m ← shl (BitVec.allOnes 64) (pos % 64)
  pure ⟨pos, w &&& m⟩

/-- `bit_vector.hpp:454-458`; returns `m_position`, `buf`, `pos_in_word` -/
def nextLoop (bits : List Word) : Nat → Nat → Word → Option (Nat × Word × Nat)
  | fuel, position, buf =>
    match lsb buf with
    | some r => some (position, buf, r)
    | none =>
      match fuel with
      | 0 => none
      | fuel + 1 => do
        let w ← rd bits ((position + 64) / 64)
        nextLoop bits fuel (position + 64) w

/-- `bit_vector.hpp:451-463`; `m_position & ~63` is `64 * (m_position / 64)` -/
def next (bits : List Word) (e : UEnum) : Option (Nat × UEnum) := do
  let (position, buf, r) ← nextLoop bits bits.length e.position e.buf
  let position := 64 * (position / 64) + r
  pure (position, ⟨position, buf &&& (buf - 1)⟩)

/-- The loops of `bit_vector.hpp:471-475, 489-493, 507-511`; `neg` for `skip0`. Returns the
position, `skipped` and `buf`. -/
def skipLoop (neg : Bool) (bits : List Word) (k : Nat) : Nat → Nat → Nat → Word → Option (Nat × Nat × Word)
  | fuel, position, skipped, buf =>
    let w := popcount buf
    if skipped + w ≤ k then
      match fuel with
      | 0 => none
      | fuel + 1 => do
        let b ← rd bits ((position + 64) / 64)
        skipLoop neg bits k fuel (position + 64) (skipped + w) (if neg then ~~~b else b)
    else some (position, skipped, buf)

/-- `bit_vector.hpp:466-480` -/
def skip (bits : List Word) (e : UEnum) (k : Nat) : Option UEnum := do
  let (position, skipped, buf) ← skipLoop false bits k bits.length e.position 0 e.buf
  assertP (buf ≠ 0)
  let s ← subU k skipped
  let r ← selectInWord buf s
  let m ← shl (BitVec.allOnes 64) r
  pure ⟨64 * (position / 64) + r, buf &&& m⟩

/-- `bit_vector.hpp:483-498` -/
def skipNoMove (bits : List Word) (e : UEnum) (k : Nat) : Option Nat := do
  let (position, skipped, buf) ← skipLoop false bits k bits.length e.position 0 e.buf
  assertP (buf ≠ 0)
  let s ← subU k skipped
  let r ← selectInWord buf s
  pure (64 * (position / 64) + r)

/-- `bit_vector.hpp:501-516` -/
def skip0 (bits : List Word) (e : UEnum) (k : Nat) : Option UEnum := do
  let m ← shl (BitVec.allOnes 64) (e.position % 64)
  let (position, skipped, buf) ← skipLoop true bits k bits.length e.position 0 (~~~e.buf &&& m)
  assertP (buf ≠ 0)
  let s ← subU k skipped
  let r ← selectInWord buf s
  let m ← shl (BitVec.allOnes 64) r
  pure ⟨64 * (position / 64) + r, ~~~buf &&& m⟩

/-- One call of a member of `unary_enumerator` (`bit_vector.hpp:451-516`) and what it returns. -/
def step (bits : List Word) (e : UEnum) : UnaryOp → Option (Option Nat × UEnum)
  | .next => do let (q, e) ← next bits e; pure (some q, e)
  | .skip k => do let e ← skip bits e k; pure (none, e)
  | .skipNoMove k => do let q ← skipNoMove bits e k; pure (some q, e)
  | .skip0 k => do let e ← skip0 bits e k; pure (none, e)

/-- A history of calls of `unary_enumerator` (`bit_vector.hpp:430-522`) and what they return. -/
def run (bits : List Word) : UEnum → List UnaryOp → Option (List (Option Nat))
  | _, [] => some []
  | e, op :: ops => do
    let (o, e) ← step bits e op
    let outs ← run bits e ops
    pure (o :: outs)

/-- The same with `position()` (`bit_vector.hpp:446-449`) after each call. -/
def runPos (bits : List Word) : UEnum → List UnaryOp → Option (List (Option Nat × Nat))
  | _, [] => some []
  | e, op :: ops => do
    let (o, e) ← step bits e op
    let outs ← runPos bits e ops
    pure ((o, e.position) :: outs)

end UEnum
end Succinct
