import Verif.Model.BitVector

/-! # `nibble_vector.hpp` -/
namespace Succinct

/-- `nibble_vector.hpp:64-65` -/
structure NibbleVector where
  size : Nat
  nibbles : List (BitVec 8)
deriving DecidableEq, Repr

namespace NibbleVector

/-- local variables of the constructor (`nibble_vector.hpp:19-23`) -/
structure St where
  size : Nat
  nibbles : List (BitVec 8)
  parity : Bool
  cur : BitVec 8
deriving DecidableEq, Repr

/-- loop body, `nibble_vector.hpp:27-34`.  The elements are non-negative integers; `|=` truncates to
`uint8_t`. -/
def step (s : St) (x : Nat) : Option St := do
  assertP (x < 16)
  let cur := s.cur ||| BitVec.ofNat 8 (x <<< (s.parity.toNat * 4))
  let parity := !s.parity
  if !parity then
    pure ⟨s.size + 1, s.nibbles ++ [cur], parity, 0⟩
  else
    pure ⟨s.size + 1, s.nibbles, parity, cur⟩

/-- `nibble_vector.hpp:17-40`: the range is traversed by the loop of lines 24-35 -/
def build (from_ : List Nat) : Option NibbleVector := do
  let s ← from_.foldlM step ⟨0, [], false, 0⟩
  if s.parity then
    pure ⟨s.size, s.nibbles ++ [s.cur]⟩
  else
    pure ⟨s.size, s.nibbles⟩

/-- `nibble_vector.hpp:13-15` -/
def empty : NibbleVector := ⟨0, []⟩

/-- `nibble_vector.hpp:58-61` -/
def get (v : NibbleVector) (pos : Nat) : Option (BitVec 8) := do
  assertP (pos < v.size)
  let b ← rd v.nibbles (pos / 2)
  pure ((b >>> ((pos % 2) * 4)) &&& 0x0F)

end NibbleVector
end Succinct
