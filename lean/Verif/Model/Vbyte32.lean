import Verif.Model.Vbyte
import Verif.Model.Nibble
import Verif.Model.TopK

/-! # `vbyte.hpp`, `nibble_vector.hpp` and `topk_vector::topk` where `size_t` has 32 bits

The definitions are those of `Model/Vbyte`, `Model/Nibble` and `Model/TopK` with the variables of type `size_t` kept modulo
`2^32`.  `uint64_t` parameters (`nibble_vector.hpp:58`, `topk_vector.hpp:150`) stay 64 bits wide. -/
namespace Succinct
open Broadword

namespace Vbyte

/-- `vbyte.hpp:7-12` for a `size_t` of 32 bits; `msb` takes a `uint64_t` (`broadword.hpp:131`) -/
def vbyteSize32 (val : BitVec 32) : Nat :=
  let bits := (msb (val.setWidth 64)).getD 0
  ceilDiv (bits + 1) 7

/-- the loop `vbyte.hpp:18-22` for `b` below the first argument; the shift is of a 32-bit number, so a distance of 32 or more
is undefined -/
def appendLoop32 (val : BitVec 32) : Nat → List (BitVec 8) → Option (List (BitVec 8))
  | 0, v => some v
  | b + 1, v => do
    assertP (b * 7 < 32)
    let chunk : BitVec 8 := ((val >>> (b * 7)) &&& 0x7F).setWidth 8
    let chunk := chunk ||| (if b ≠ 0 then 0x80 else 0)
    appendLoop32 val b (v ++ [chunk])

/-- `vbyte.hpp:14-24` -/
def append32 (v : List (BitVec 8)) (val : BitVec 32) : Option (List (BitVec 8) × Nat) := do
  let chunks := vbyteSize32 val
  let v ← appendLoop32 val chunks v
  pure (v, chunks)

/-- the loop `vbyte.hpp:32-36`; `pos++` and `val <<= 7` are on 32 bits.  The first argument bounds the iterations as in
`decodeLoop`. -/
def decodeLoop32 (v : List (BitVec 8)) : Nat → Nat → BitVec 32 → Option (BitVec 32 × Nat)
  | 0, _, _ => none
  | fuel + 1, pos, val => do
    let chunk ← rd v pos
    let val := val <<< 7
    let val := val ||| (chunk &&& 0x7F).setWidth 32
    if chunk &&& 0x80 ≠ 0 then decodeLoop32 v fuel ((pos + 1) % 2^32) val else pure (val, (pos + 1) % 2^32)

/-- `vbyte.hpp:26-39` -/
def decode32 (v : List (BitVec 8)) (offset : Nat) : Option (BitVec 32 × Nat) := do
  let (val, pos) ← decodeLoop32 v (v.length - offset) offset 0
  pure (val, (pos + 2^32 - offset) % 2^32)

end Vbyte

namespace NibbleVector

/-- loop body, `nibble_vector.hpp:27-34`, where `m_size` (`64`) has 32 bits -/
def step32 (s : St) (x : Nat) : Option St := do
  assertP (x < 16)
  let cur := s.cur ||| BitVec.ofNat 8 (x <<< (s.parity.toNat * 4))
  let parity := !s.parity
  if parity = false then
    pure ⟨(s.size + 1) % 2^32, s.nibbles ++ [cur], parity, 0⟩
  else
    pure ⟨(s.size + 1) % 2^32, s.nibbles, parity, cur⟩

/-- `nibble_vector.hpp:17-40` -/
def build32 (from_ : List Nat) : Option NibbleVector := do
  let s ← from_.foldlM step32 ⟨0, [], false, 0⟩
  if s.parity then
    pure ⟨s.size, s.nibbles ++ [s.cur]⟩
  else
    pure ⟨s.size, s.nibbles⟩

end NibbleVector

namespace TopK
variable {α : Type}

/-- `topk_vector.hpp:149-165`: `b - a + 1` is computed on 64 bits and cut to a `size_t` of 32 -/
def topk32 (h : HeapOps (QElem α)) (t : TopK α) (a b k : Nat) : Option (List (α × Nat)) := do
  let n := min ((b + 2^64 - a + 1) % 2^64 % 2^32) k
  let e ← getEnumerator t a b TopKEnum.new
  let (ret, e) ← topkLoop h n e []
  topkCheck h n k e
  pure ret

end TopK
end Succinct
