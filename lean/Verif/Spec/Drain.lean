/-! # Enumerations that are interrupted -/
namespace Succinct.Spec

/-- What a caller gets who goes on after exceptions: `s` is the ranking of the entries still there; each call is recorded as whether it threw and the entry it
made current (none at the end).  A call that throws still makes the next entry current, but the entries of a non-empty interval `(x.2, c]` of indices just behind it are lost. -/
inductive Drained {α : Type} : List (α × Nat) → List (Bool × Option (α × Nat)) → Prop
  | nil {s} : Drained s []
  | done {outs} : Drained [] outs → Drained [] ((false, none) :: outs)
  | next {x s outs} : Drained s outs → Drained (x :: s) ((false, some x) :: outs)
  | lost {x s outs} (c : Nat) : x.2 < c → (∀ i, x.2 < i → i ≤ c → ∃ y ∈ s, y.2 = i) →
      Drained (s.filter fun y => !(decide (x.2 < y.2) && decide (y.2 ≤ c))) outs → Drained (x :: s) ((true, some x) :: outs)

end Succinct.Spec
