import Verif.Model.Mappable

/-! # What the operations on vectors should do to their contents -/
namespace Succinct.Spec
open Succinct.Mappable (Cmd)
variable {α : Type}

/-- the contents of the live vectors -/
abbrev Contents (α : Type) := Nat → Option (List α)

/-- update -/
def Contents.set (a : Contents α) (i : Nat) (x : Option (List α)) : Contents α := fun k => if k = i then x else a k

/-- effect of an operation on the contents.  An object is constructed only when it is not alive and used
only while it is.  A vector is not assigned a range of itself. -/
inductive Step (a : Contents α) : Cmd α → Contents α → Prop
  | new (i : Nat) : a i = none → Step a (.new i) (a.set i (some []))
  | newRange (i : Nat) (xs : List α) : a i = none → Step a (.newRange i xs) (a.set i (some xs))
  | newVec (i j : Nat) (xs : List α) : a i = none → a j = some xs → Step a (.newVec i j) (a.set i (some xs))
  | steal (i : Nat) (xs ys : List α) : a i = some ys → Step a (.steal i xs) (a.set i (some xs))
  | swap (i j : Nat) (xs ys : List α) : a i = some xs → a j = some ys → Step a (.swap i j) ((a.set i (some ys)).set j (some xs))
  | clear (i : Nat) (ys : List α) : a i = some ys → Step a (.clear i) (a.set i (some []))
  | assign (i : Nat) (xs ys : List α) : a i = some ys → Step a (.assign i xs) (a.set i (some xs))
  | assignVec (i j : Nat) (xs ys : List α) : i ≠ j → a i = some ys → a j = some xs → Step a (.assignVec i j) (a.set i (some xs))
  | map (i : Nat) (xs ys : List α) : a i = some ys → Step a (.map i xs) (a.set i (some xs))
  | destroy (i : Nat) (ys : List α) : a i = some ys → Step a (.destroy i) (a.set i none)

/-- a run of operations -/
inductive Run : Contents α → List (Cmd α) → Contents α → Prop
  | nil (a : Contents α) : Run a [] a
  | cons {a b c : Contents α} {x : Cmd α} {xs : List (Cmd α)} : Step a x b → Run b xs c → Run a (x :: xs) c

end Succinct.Spec
