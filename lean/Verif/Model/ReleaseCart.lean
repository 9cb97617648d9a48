import Verif.Model.ReleaseBp
import Verif.Model.ReleaseRmq

/-! # Construction of a `cartesian_tree` with assertions compiled out

`push_back` of the builder (`cartesian_tree.hpp:49-61`) calls only `push_back` of the bit vector builder and of the stack, which have no assertions;
it is that of `MachineBp.lean`. -/
namespace Succinct
namespace Release
variable {α : Type}

/-- `bit_vector.hpp:148-165`, in 64-bit arithmetic -/
def mReverse (b : Machine.Builder) : Option Machine.Builder := do
  let shift := 64 - b.size % 64
  let (ws, _) ← Builder.reverseLoop shift.toNat b.bits 0
  pure { b with bits := ws.reverse }

/-- `cartesian_tree.hpp:63-75` -/
def cartFinalize (s : Machine.CartesianBuilder α) : Option Machine.Builder := do
  let b ← s.bp.pushBack false
  let b ← Machine.CartesianBuilder.drainLoop s.stack b
  let b ← b.pushBack true
  mReverse b

/-- `cartesian_tree.hpp:163-176` with the constructors `85-89` and `bit_vector.hpp:222-225` -/
def cartBuild (comp : α → α → Bool) (v : List α) : Option Machine.CartesianTree := do
  let s ← Machine.CartesianBuilder.new
  let s ← Machine.CartesianBuilder.pushAll comp v s
  let b ← cartFinalize s
  let t ← bpBuild ⟨b.size, b.bits⟩ false true
  pure ⟨t⟩

end Release
end Succinct
