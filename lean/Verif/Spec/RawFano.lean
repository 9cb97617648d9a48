import Verif.Spec.RawBuilder

/-!
# What a compressed sequence is made of when its values are not checked

Every value is split into `w` low bits, which are kept in a list, and a high part, which is kept as a mark in a bit sequence: the `j`-th
value, with high part `h`, marks position `h + j`.
-/
namespace Succinct.Spec

/-- the number of low bits for a universe `n` and a capacity `m` -/
def lowWidth (n m : Nat) : Nat := Nat.log2 (n / m)

/-- the number of positions for marks -/
def highSize (n m : Nat) : Nat := m + n / 2^lowWidth n m + 2

/-- the positions marked, in 64-bit arithmetic -/
def markPos (w : Nat) (xs : List (BitVec 64)) : List Nat := xs.mapIdx fun j x => (x.toNat / 2^w + j) % 2^64

/-- the bit sequence of length `size` with marks at the given positions, as far as they are inside -/
def marks (size : Nat) (ps : List Nat) : List Bool := (List.range size).map fun p => decide (p ∈ ps)

/-- the positions of the ones -/
def onesOf (l : List Bool) : List Nat := (List.range l.length).filter fun i => l.getD i false

/-- the sums of the first `1, 2, …` values, in 64-bit arithmetic -/
def prefixSums (v : List (BitVec 64)) : List (BitVec 64) :=
  (List.range v.length).map fun k => BitVec.ofNat 64 ((v.take (k + 1)).map BitVec.toNat).sum

end Succinct.Spec
