import Verif.Spec.Mappable

/-! # Which object holds the elements that an iterator points to -/
namespace Succinct.Spec
open Mappable
variable {α : Type}

/-- The object that holds certain elements after an operation: `swap` moves them, and they are given up when their holder is cleared,
assigned to, filled anew or destroyed. -/
def holderStep (h : Option Nat) : Cmd α → Option Nat
  | .swap i j => h.map fun k => if k = i then j else if k = j then i else k
  | .steal i _ => if h = some i then none else h
  | .clear i => if h = some i then none else h
  | .assign i _ => if h = some i then none else h
  | .assignVec i _ => if h = some i then none else h
  | .map i _ => if h = some i then none else h
  | .destroy i => if h = some i then none else h
  | .new _ => h
  | .newRange _ _ => h
  | .newVec _ _ => h

/-- the same for a program -/
def holder (h : Option Nat) (cs : List (Cmd α)) : Option Nat := cs.foldl holderStep h

end Succinct.Spec
