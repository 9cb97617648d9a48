import Verif.Spec.Reads

/-! # What it takes to enumerate a sequence -/
namespace Succinct.Spec

/-- the bits at which to read a word of fields of `l` bits to get at the fields `i, …, i + k - 1`, as many as possible at a time -/
def fieldReads (l i k : Nat) : List Nat :=
  if l = 0 then [] else (List.range ((k + (64 / l - 1)) / (64 / l))).map fun j => (i + j * (64 / l)) * l

/-- bits taken by the binary parts of the codes of the values `i, …, i + k - 1` (`c = 1`: of gamma codes) -/
def codeBits (c : Nat) (v : List Nat) (i k : Nat) : Nat := (((v.drop i).take k).map fun x => Nat.log2 (x + c)).sum

end Succinct.Spec
