import Verif.Spec.Enumerator

/-! # Reading from a vector while vectors are exchanged -/
namespace Succinct.Spec

/-- A call: the contents of two objects are exchanged, an object is emptied, or something is read. -/
inductive SwapOp (α : Type) where
  | swap (x y : Nat)
  | drop (x : Nat)
  | read (op : α)
deriving DecidableEq, Repr

/-- the reads of a history -/
def reads {α : Type} : List (SwapOp α) → List α
  | [] => []
  | .read op :: ops => op :: reads ops
  | _ :: ops => reads ops

/-- the list with entries `x` and `y` exchanged -/
def exchange {α : Type} (a : List α) (x y : Nat) : List α :=
  a.mapIdx fun k b => (a[if k = x then y else if k = y then x else k]?).getD b

/-- how many bits a read consumes, if that does not depend on the bits -/
def EnumOp.need : EnumOp → Option Nat
  | .next => some 1
  | .take n => some n
  | .skipZeros => none

/-- a vector is read as if zeros followed it -/
def zeroTail (l : List Bool) : List Bool := l ++ List.replicate 64 false

/-- Reads through object `i` while the contents `a` of the objects change.  The reader holds `left` bits of `src` that follow
position `p`.  A read that they suffice for is a read of `src`; any other is a read of what object `i` holds by then, of which it
keeps the rest of 64 bits. -/
inductive SwapStream (i : Nat) : List (List Bool) → List Bool → Nat → Nat → List (SwapOp EnumOp) → List (EnumOut × Nat) → Prop
  | nil {a src left p} : SwapStream i a src left p [] []
  | swap {a src left p ops outs x y} : x < a.length → y < a.length → SwapStream i (exchange a x y) src left p ops outs →
      SwapStream i a src left p (.swap x y :: ops) outs
  | drop {a src left p ops outs x} : x < a.length → SwapStream i (a.set x []) src left p ops outs →
      SwapStream i a src left p (.drop x :: ops) outs
  | held {a src left p ops outs op n o p'} : op.need = some n → n ≤ left → StreamStep src p op o p' →
      SwapStream i a src (left - n) p' ops outs → SwapStream i a src left p (.read op :: ops) ((o, p') :: outs)
  | fresh {a src left p ops outs op n o p' l} : op.need = some n → left < n → a[i]? = some l → p < l.length →
      StreamStep (zeroTail l) p op o p' → SwapStream i a (zeroTail l) (64 - n) p' ops outs →
      SwapStream i a src left p (.read op :: ops) ((o, p') :: outs)
  | zerosHeld {a src left p ops outs q} : IsSucc true src p q → q < p + left →
      SwapStream i a src (p + left - (q+1)) (q+1) ops outs →
      SwapStream i a src left p (.read .skipZeros :: ops) ((.val (q - p), q+1) :: outs)
  | zerosFresh {a src left p ops outs l q} : (∀ k, p ≤ k → k < p + left → src[k]? ≠ some true) → a[i]? = some l →
      IsSucc true l (p + left) q → SwapStream i a (zeroTail l) (63 - (q - (p + left)) % 64) (q+1) ops outs →
      SwapStream i a src left p (.read .skipZeros :: ops) ((.val (q - p), q+1) :: outs)

end Succinct.Spec
