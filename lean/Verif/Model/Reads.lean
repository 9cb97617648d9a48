import Verif.Model.Enumerator

/-! # The words the enumerators read

The functions of `Model/Enumerator` once more; `UEnum` with the list of the words it reads, in order, `Enum` with the number of
calls of `fill_buf`. -/
namespace Succinct
open Broadword Spec

namespace UEnum

/-- `bit_vector.hpp:437-444`; reads the word `pos / 64` -/
def newR (bits : List Word) (pos : Nat) : Option (UEnum × List Nat) := do
  let w ← rd bits (pos / 64)
  let m ← shl (BitVec.allOnes 64) (pos % 64)
  pure (⟨pos, w &&& m⟩, [pos / 64])

/-- `bit_vector.hpp:454-458`; the last result lists the indices `m_position / 64` read -/
def nextLoopR (bits : List Word) : Nat → Nat → Word → Option (Nat × Word × Nat × List Nat)
  | fuel, position, buf =>
    match lsb buf with
    | some r => some (position, buf, r, [])
    | none =>
      match fuel with
      | 0 => none
      | fuel + 1 => do
        let w ← rd bits ((position + 64) / 64)
        let (p, b, r, t) ← nextLoopR bits fuel (position + 64) w
        pure (p, b, r, (position + 64) / 64 :: t)

/-- `bit_vector.hpp:451-463` -/
def nextR (bits : List Word) (e : UEnum) : Option (Nat × UEnum × List Nat) := do
  let (position, buf, r, t) ← nextLoopR bits bits.length e.position e.buf
  let position := 64 * (position / 64) + r
  pure (position, ⟨position, buf &&& (buf - 1)⟩, t)

/-- `bit_vector.hpp:471-475, 489-493, 507-511` -/
def skipLoopR (neg : Bool) (bits : List Word) (k : Nat) : Nat → Nat → Nat → Word → Option (Nat × Nat × Word × List Nat)
  | fuel, position, skipped, buf =>
    let w := popcount buf
    if skipped + w ≤ k then
      match fuel with
      | 0 => none
      | fuel + 1 => do
        let b ← rd bits ((position + 64) / 64)
        let (p, s, c, t) ← skipLoopR neg bits k fuel (position + 64) (skipped + w) (if neg then ~~~b else b)
        pure (p, s, c, (position + 64) / 64 :: t)
    else some (position, skipped, buf, [])

/-- `bit_vector.hpp:466-480` -/
def skipR (bits : List Word) (e : UEnum) (k : Nat) : Option (UEnum × List Nat) := do
  let (position, skipped, buf, t) ← skipLoopR false bits k bits.length e.position 0 e.buf
  assertP (buf ≠ 0)
  let s ← subU k skipped
  let r ← selectInWord buf s
  let m ← shl (BitVec.allOnes 64) r
  pure (⟨64 * (position / 64) + r, buf &&& m⟩, t)

/-- `bit_vector.hpp:483-498` -/
def skipNoMoveR (bits : List Word) (e : UEnum) (k : Nat) : Option (Nat × List Nat) := do
  let (position, skipped, buf, t) ← skipLoopR false bits k bits.length e.position 0 e.buf
  assertP (buf ≠ 0)
  let s ← subU k skipped
  let r ← selectInWord buf s
  pure (64 * (position / 64) + r, t)

/-- `bit_vector.hpp:501-516` -/
def skip0R (bits : List Word) (e : UEnum) (k : Nat) : Option (UEnum × List Nat) := do
  let m ← shl (BitVec.allOnes 64) (e.position % 64)
  let (position, skipped, buf, t) ← skipLoopR true bits k bits.length e.position 0 (~~~e.buf &&& m)
  assertP (buf ≠ 0)
  let s ← subU k skipped
  let r ← selectInWord buf s
  let m ← shl (BitVec.allOnes 64) r
  pure (⟨64 * (position / 64) + r, ~~~buf &&& m⟩, t)

/-- One call of a member of `unary_enumerator` (`bit_vector.hpp:451-516`), what it returns and reads. -/
def stepR (bits : List Word) (e : UEnum) : UnaryOp → Option (Option Nat × UEnum × List Nat)
  | .next => do let (q, e, t) ← nextR bits e; pure (some q, e, t)
  | .skip k => do let (e, t) ← skipR bits e k; pure (none, e, t)
  | .skipNoMove k => do let (q, t) ← skipNoMoveR bits e k; pure (some q, e, t)
  | .skip0 k => do let (e, t) ← skip0R bits e k; pure (none, e, t)

/-- A history of calls (`bit_vector.hpp:430-522`): what each returns with `position()` after it, and the words each reads. -/
def runR (bits : List Word) : UEnum → List UnaryOp → Option (List (Option Nat × Nat) × List (List Nat))
  | _, [] => some ([], [])
  | e, op :: ops => do
    let (o, e, t) ← stepR bits e op
    let p := e.position
    let (outs, ts) ← runR bits e ops
    pure ((o, p) :: outs, t :: ts)

end UEnum

namespace Enum

/-- `bit_vector.hpp:367-375`, with the number of calls of `fill_buf` -/
def nextF (v : BitVector) (e : Enum) : Option (Bool × Enum × Nat) := do
  let (e, f) ← if e.avail = 0 then (fillBuf v e).map (·, 1) else some (e, 0)
  let b := e.buf.getLsbD 0
  let buf ← shr e.buf 1
  pure (b, ⟨e.pos + 1, buf, wsub e.avail 1⟩, f)

/-- `bit_vector.hpp:377-390`, with the number of calls of `fill_buf` -/
def takeF (v : BitVector) (e : Enum) (l : Nat) : Option (Word × Enum × Nat) := do
  let (e, f) ← if e.avail < l then (fillBuf v e).map (·, 1) else some (e, 0)
  let (w, e) ← takeAvail e l
  pure (w, e, f)

/-- `bit_vector.hpp:396-401`, with the number of calls of `fill_buf` -/
def skipZerosLoopF (v : BitVector) : Nat → Enum → Nat → Option (Enum × Nat × Nat)
  | fuel, e, zs =>
    if e.buf = 0 then
      match fuel with
      | 0 => none
      | fuel + 1 => do
        let e' ← fillBuf v ⟨e.pos + e.avail, e.buf, 0⟩
        let (e', zs, f) ← skipZerosLoopF v fuel e' (zs + e.avail)
        pure (e', zs, f + 1)
    else some (e, zs, 0)

/-- `bit_vector.hpp:392-409`, with the number of calls of `fill_buf` -/
def skipZerosF (v : BitVector) (e : Enum) : Option (Nat × Enum × Nat) := do
  let (e, zs, f) ← skipZerosLoopF v (v.bits.length + 2) e 0
  let l ← lsb e.buf
  let buf ← shr e.buf l
  let buf ← shr buf 1
  pure (zs + l, ⟨e.pos + (l + 1), buf, wsub e.avail (l + 1)⟩, f)

/-- One call (`bit_vector.hpp:367-409`). -/
def stepF (v : BitVector) (e : Enum) : EnumOp → Option (EnumOut × Enum × Nat)
  | .next => do let (b, e, f) ← nextF v e; pure (.bit b, e, f)
  | .take n => do let (w, e, f) ← takeF v e n; pure (.val w.toNat, e, f)
  | .skipZeros => do let (n, e, f) ← skipZerosF v e; pure (.val n, e, f)

/-- A history of calls of `bit_vector::enumerator` (`bit_vector.hpp:352-428`), with the number of calls of `fill_buf`. -/
def runF (v : BitVector) : Enum → List EnumOp → Option (List (EnumOut × Nat) × Nat)
  | _, [] => some ([], 0)
  | e, op :: ops => do
    let (o, e, f) ← stepF v e op
    let p := e.pos
    let (outs, f') ← runF v e ops
    pure ((o, p) :: outs, f + f')

end Enum
end Succinct
