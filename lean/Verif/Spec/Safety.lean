import Verif.Model.Checked

/-! # What a caller with untrusted data needs -/
namespace Succinct.Spec
open Succinct.Checked (Run)

/-- the run stays inside of the objects and comes to an end -/
def Contained {α : Type} (x : Run α) : Prop := x ≠ .mem ∧ x ≠ .loop

/-- the run ends with a value or with a failed assertion, without undefined behaviour -/
def Guarded {α : Type} (x : Run α) : Prop := (∃ a, x = .ok a) ∨ x = .abort

/-- `y` has the value `x` has, and has one whenever `x` has one unless it meets undefined arithmetic -/
def SameValue {α : Type} (y : Run α) (x : Option α) : Prop :=
  ∀ a, (y = .ok a → x = some a) ∧ (x = some a → y = .ok a ∨ y = .arith)

end Succinct.Spec
