/-! # The elements that are still in the running, for a comparator that need not be an order -/
namespace Succinct.Spec

/-- `x` is preferred to `y`, both being there -/
def prefers {α : Type} (comp : α → α → Bool) : Option α → Option α → Bool
  | some x, some y => comp x y
  | _, _ => false

/-- the indices in the running after the first `i` elements of `v`, the last one first: a new element puts out those before it, one after the
other, as long as it is preferred to the one whose turn it is -/
def running {α : Type} (comp : α → α → Bool) (v : List α) : Nat → List Nat
  | 0 => []
  | i + 1 => i :: (running comp v i).dropWhile fun k => prefers comp v[i]? v[k]?

/-- `m` is the first index from `a` on that is in the running after `v[b]` -/
def IsFirstRunning {α : Type} (comp : α → α → Bool) (v : List α) (a b m : Nat) : Prop :=
  a ≤ m ∧ m ∈ running comp v (b + 1) ∧ ∀ i ∈ running comp v (b + 1), a ≤ i → m ≤ i

/-- the position of the closing parenthesis of index `i` in the sequence of parentheses of a cartesian tree, which runs from the last element to
the first: each of the `i` elements before it has a closing parenthesis, and an opening one unless it is still in the running -/
def closingPos {α : Type} (comp : α → α → Bool) (v : List α) (i : Nat) : Nat :=
  2 * v.length + 1 + (running comp v i).length - 2 * i

end Succinct.Spec
