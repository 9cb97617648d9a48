/-! # Lines that both readers of `util.hpp` return alike -/
namespace Succinct.Spec

/-- A line that trimming all carriage returns and removing just one give the same for: before its newline there are no two carriage
returns.  If it has no newline, it must end with a carriage return and its length must be 1 modulo 65535. -/
def SameLine (l : List (BitVec 8)) : Prop :=
  ∃ u, (l = u ++ [10] ∨ (l = u ∧ (10 : BitVec 8) ∉ u ∧ u.getLast? = some 13 ∧ u.length % 65535 = 1)) ∧ ¬ [13, 13] <:+ u

end Succinct.Spec
