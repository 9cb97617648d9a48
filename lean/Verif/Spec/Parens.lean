/-!
# Specification vocabulary for balanced parentheses

`true` is an opening, `false` a closing parenthesis.  Balance is defined by the usual grammar, not by
counting.
-/
namespace Succinct.Spec

/-- balanced sequences: `ε` or `( A ) B` with `A` and `B` balanced -/
inductive Bal : List Bool → Prop
  | nil : Bal []
  | node {a b : List Bool} : Bal a → Bal b → Bal (true :: a ++ false :: b)

/-- the part of `l` strictly between positions `i` and `j` -/
def between (l : List Bool) (i j : Nat) : List Bool := (l.take j).drop (i + 1)

/-- `i` and `j` are matching parentheses -/
def Matching (l : List Bool) (i j : Nat) : Prop :=
  i < j ∧ l[i]? = some true ∧ l[j]? = some false ∧ Bal (between l i j)

/-- opening minus closing parentheses among the first `p` positions -/
def excess (l : List Bool) (p : Nat) : Int := (l.take p).count true - (l.take p).count false

/-- `p` is the leftmost position in `[a, b]` of minimal excess -/
def IsExcessRmq (l : List Bool) (a b p : Nat) : Prop :=
  a ≤ p ∧ p ≤ b ∧ (∀ q, a ≤ q → q ≤ b → excess l p ≤ excess l q) ∧ ∀ q, a ≤ q → q < p → excess l p < excess l q

/-- `p` opens the nearest pair strictly containing the pair `(i, j)` -/
def IsEnclose (l : List Bool) (i j p : Nat) : Prop :=
  ∃ q, Matching l p q ∧ p < i ∧ j < q ∧ ∀ p' q', Matching l p' q' → p' < i → j < q' → p' ≤ p ∧ q ≤ q'

end Succinct.Spec
