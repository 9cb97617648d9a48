/-! # C++ integer types of a range -/
namespace Succinct.Spec

/-- an integer type of `bits` bits -/
structure IntType where
  bits : Nat
  signed : Bool
deriving DecidableEq, Repr

namespace IntType

/-- the fixed-width types -/
def Std (t : IntType) : Prop := t.bits = 8 ∨ t.bits = 16 ∨ t.bits = 32 ∨ t.bits = 64

/-- least value -/
def min (t : IntType) : Int := if t.signed then -2^(t.bits - 1) else 0
/-- greatest value -/
def max (t : IntType) : Int := if t.signed then 2^(t.bits - 1) - 1 else 2^t.bits - 1

/-- `x` is a value of the type -/
def Has (t : IntType) (x : Int) : Prop := t.min ≤ x ∧ x ≤ t.max

/-- integral promotion: types narrower than `int` become `int` -/
def promote (t : IntType) : IntType := if t.bits < 32 then ⟨32, true⟩ else t

/-- the values a compressed list that stores `x + k` can take from a range of this type -/
def Storable (t : IntType) (k : Nat) (x : Int) : Prop := x + k ≤ t.promote.max ∧ ¬ (-(k : Int) ≤ x ∧ x < 0)

end IntType
end Succinct.Spec
