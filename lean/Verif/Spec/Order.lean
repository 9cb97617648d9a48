/-!
# Specification vocabulary for range minimum and top-k queries
-/
namespace Succinct.Spec

/-- `lt` is a strict weak order (the requirement of the C++ standard on comparators) -/
structure StrictWeak {α : Type} (lt : α → α → Bool) : Prop where
  irrefl : ∀ a, lt a a = false
  trans : ∀ a b c, lt a b = true → lt b c = true → lt a c = true
  incomp : ∀ a b c, lt a b = false → lt b a = false → lt b c = false → lt c b = false → lt a c = false ∧ lt c a = false

/-- no element of `v[a..b]` is smaller than the element at index `m` of that range -/
def IsMinAt {α : Type} (lt : α → α → Bool) (v : List α) (a b m : Nat) : Prop :=
  a ≤ m ∧ m ≤ b ∧ ∃ x, v[m]? = some x ∧ ∀ k y, a ≤ k → k ≤ b → v[k]? = some y → lt y x = false

/-- `m` is the smallest index of the range `[a, b]` holding a minimum -/
def IsLeftmostMin {α : Type} (lt : α → α → Bool) (v : List α) (a b m : Nat) : Prop :=
  IsMinAt lt v a b m ∧ ∀ k, k < m → ¬ IsMinAt lt v a b k

end Succinct.Spec

namespace Succinct.Spec

/-- `lt` and `eq` are the operators `<` and `==` of a totally preordered type: values are equal exactly
if neither is smaller -/
structure TotalOrder {α : Type} (lt eq : α → α → Bool) : Prop where
  weak : StrictWeak lt
  eqv : ∀ a b, eq a b = true ↔ lt a b = false ∧ lt b a = false

/-- entries are ranked by decreasing value, then by increasing index -/
def Before {α : Type} (lt : α → α → Bool) (p q : α × Nat) : Prop :=
  lt q.1 p.1 = true ∨ (lt p.1 q.1 = false ∧ lt q.1 p.1 = false ∧ p.2 < q.2)

/-- the pairs `(v[i], i)` with `a ≤ i ≤ b`, in order of the index -/
def entries {α : Type} (v : List α) (a b : Nat) : List (α × Nat) :=
  (List.range' a (b + 1 - a)).filterMap fun i => v[i]?.map fun x => (x, i)

/-- `s` lists the entries of the range by decreasing value, then by increasing index -/
def IsRanking {α : Type} (lt : α → α → Bool) (v : List α) (a b : Nat) (s : List (α × Nat)) : Prop :=
  s.Perm (entries v a b) ∧ s.Pairwise (Before lt)

end Succinct.Spec

namespace Succinct.Spec

/-- `m` is the largest index of the range `[a, b]` holding a minimum -/
def IsRightmostMin {α : Type} (lt : α → α → Bool) (v : List α) (a b m : Nat) : Prop :=
  IsMinAt lt v a b m ∧ ∀ k, m < k → ¬ IsMinAt lt v a b k

end Succinct.Spec
