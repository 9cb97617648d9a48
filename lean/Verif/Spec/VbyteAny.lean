/-! # The numbers written in base 128 -/
namespace Succinct.Spec

/-- the number whose digits in base 128 are the low seven bits of the given bytes, the most significant first -/
def digits128 (bs : List (BitVec 8)) : Nat := bs.foldl (fun a b => 128 * a + b.toNat % 128) 0

/-- bytes that form one code: all but the last one have the top bit set -/
def OneCode (bs : List (BitVec 8)) : Prop := ∃ cs c, bs = cs ++ [c] ∧ (∀ b ∈ cs, 128 ≤ b.toNat) ∧ c.toNat < 128

end Succinct.Spec
