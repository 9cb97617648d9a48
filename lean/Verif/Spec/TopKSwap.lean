import Verif.Spec.GammaSwap
import Verif.Spec.Order

/-! # Listing the largest entries of a range while sequences are exchanged -/
namespace Succinct.Spec

/-- an entry `val` at `idx` that stands for the positions `lo … hi` -/
structure Pending (α : Type) where
  val : α
  idx : Nat
  lo : Nat
  hi : Nat

/-- the entry of `c` ranked first among positions `lo … hi` -/
def First {α : Type} (lt : α → α → Bool) (c : List α) (lo hi : Nat) (p : Pending α) : Prop :=
  p.lo = lo ∧ p.hi = hi ∧ (p.val, p.idx) ∈ entries c lo hi ∧ ∀ e ∈ entries c lo hi, e.2 ≠ p.idx → Before lt (p.val, p.idx) e

/-- `p` removed, the positions left and right of it are represented by their first entries in `c` -/
def Split {α : Type} (lt : α → α → Bool) (c : List α) (p : Pending α) (new : List (Pending α)) : Prop :=
  ∃ l r, new = l ++ r ∧
    ((p.idx = p.lo ∧ l = []) ∨ (p.idx ≠ p.lo ∧ ∃ q, l = [q] ∧ First lt c p.lo (p.idx - 1) q)) ∧
    ((p.idx = p.hi ∧ r = []) ∨ (p.idx ≠ p.hi ∧ ∃ q, r = [q] ∧ First lt c (p.idx + 1) p.hi q))

/-- Listing through object `i` while the contents `a` of the objects change.  The entry delivered is the pending one ranked first; only the entries that
replace it are looked up in what object `i` holds by then. -/
inductive PickMix {α : Type} (lt : α → α → Bool) (i : Nat) :
    (Nat → List α) → List (Pending α) → List SeqOp → List (Option (α × Nat)) → Prop
  | nil {a bag} : PickMix lt i a bag [] []
  | swap {a bag ops outs x y} : PickMix lt i (swapped a x y) bag ops outs → PickMix lt i a bag (.swap x y :: ops) outs
  | done {a ops outs} : PickMix lt i a [] ops outs → PickMix lt i a [] (.next :: ops) (none :: outs)
  | pick {a bag p rest new ops outs} : bag.Perm (p :: rest) → (∀ r ∈ rest, Before lt (p.val, p.idx) (r.val, r.idx)) → Split lt (a i) p new →
      PickMix lt i a (new ++ rest) ops outs → PickMix lt i a bag (.next :: ops) (some (p.val, p.idx) :: outs)

/-- what object `i` holds in the course of a history -/
def heldIn {α : Type} (i : Nat) : (Nat → List α) → List SeqOp → List (List α)
  | a, [] => [a i]
  | a, .swap x y :: ops => a i :: heldIn i (swapped a x y) ops
  | a, .next :: ops => heldIn i a ops

end Succinct.Spec
