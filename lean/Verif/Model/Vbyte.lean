import Verif.Model.BitVector

/-! # `vbyte.hpp`

The vector is a list of bytes.  Not modelled: allocation failure in `push_back`. -/
namespace Succinct.Vbyte
open Broadword

/-- `util.hpp:265-271`, for arguments whose sum does not wrap -/
def ceilDiv (dividend divisor : Nat) : Nat := (dividend + divisor - 1) / divisor

/-- `vbyte.hpp:7-12`, with `ceil_div` of `util.hpp:265-271` -/
def vbyteSize (val : Word) : Nat :=
  let bits := (msb val).getD 0
  ceilDiv (bits + 1) 7

/-- the loop `vbyte.hpp:18-22` for `b` below the first argument -/
def appendLoop (val : Word) : Nat → List (BitVec 8) → Option (List (BitVec 8))
  | 0, v => some v
  | b + 1, v => do
    let s ← shr val (b * 7)
    let chunk : BitVec 8 := (s &&& 0x7F).setWidth 8
    let chunk := chunk ||| (if b ≠ 0 then 0x80 else 0)
    appendLoop val b (v ++ [chunk])

/-- `vbyte.hpp:14-24`: the vector afterwards and the returned number of bytes -/
def append (v : List (BitVec 8)) (val : Word) : Option (List (BitVec 8) × Nat) := do
  let chunks := vbyteSize val
  let v ← appendLoop val chunks v
  pure (v, chunks)

/-- the loop `vbyte.hpp:32-36`.  The first argument bounds the number of iterations by the number of
bytes from `pos` on; a further iteration would read outside the vector. -/
def decodeLoop (v : List (BitVec 8)) : Nat → Nat → Word → Option (Word × Nat)
  | 0, _, _ => none
  | fuel + 1, pos, val => do
    let chunk ← rd v pos
    let val := val <<< 7
    let val := val ||| (chunk &&& 0x7F).setWidth 64
    if chunk &&& 0x80 ≠ 0 then decodeLoop v fuel (pos + 1) val else pure (val, pos + 1)

/-- `vbyte.hpp:26-39`: the decoded value and the returned number of bytes -/
def decode (v : List (BitVec 8)) (offset : Nat) : Option (Word × Nat) := do
  let (val, pos) ← decodeLoop v (v.length - offset) offset 0
  pure (val, pos - offset)

end Succinct.Vbyte
