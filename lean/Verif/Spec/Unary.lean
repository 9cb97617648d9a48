/-! # Unary codes -/
namespace Succinct.Spec

/-- the sequence `0^k 1` for every `k` of the list -/
def unary (ks : List Nat) : List Bool := ks.flatMap fun k => List.replicate k false ++ [true]

/-- the position of the one number `i` of `unary ks` -/
def onePos (ks : List Nat) (i : Nat) : Nat := (ks.take (i+1)).sum + i

end Succinct.Spec
