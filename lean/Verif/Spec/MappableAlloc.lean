import Verif.Model.MappableAlloc

/-! # What operations on vectors do to their contents when memory runs out or an iterator throws -/
namespace Succinct.Spec
open Succinct.Mappable (Cmd Fault)
variable {α : Type}

/-- a vector holds a list, or has a `size()` and no elements -/
inductive Val (α : Type)
  | ok (xs : List α)
  | broken (n : Nat)

/-- the live vectors -/
abbrev Vals (α : Type) := Nat → Option (Val α)

/-- update -/
def Vals.set (a : Vals α) (i : Nat) (x : Option (Val α)) : Vals α := fun k => if k = i then x else a k

/-- effect of an operation: the vectors afterwards, whether it threw, and the number of buffers lost.  `none` if the operation is not allowed: an
object is constructed only when it is not alive and used only while it is; a broken vector is not read; a vector is not assigned a range of
itself. -/
def effect (a : Vals α) : Cmd α → Fault → Option (Vals α × Bool × Nat)
  | .new i, _ => match a i with
    | none => some (a.set i (some (.ok [])), false, 0)
    | some _ => none
  | .newRange i xs, f => match a i with
    | none =>
      if f = .alloc then some (a, true, 0)
      else if f = .copy ∧ xs ≠ [] then some (a, true, 1)
      else some (a.set i (some (.ok xs)), false, 0)
    | some _ => none
  | .newVec i j, f => match a i, a j with
    | none, some (.ok xs) => if f = .alloc then some (a, true, 0) else some (a.set i (some (.ok xs)), false, 0)
    | _, _ => none
  | .steal i xs, f => match a i with
    | some _ => if f = .alloc ∧ xs ≠ [] then some (a.set i (some (.broken xs.length)), true, 0) else some (a.set i (some (.ok xs)), false, 0)
    | none => none
  | .swap i j, _ => match a i, a j with
    | some x, some y => some ((a.set i (some y)).set j (some x), false, 0)
    | _, _ => none
  | .clear i, _ => match a i with
    | some _ => some (a.set i (some (.ok [])), false, 0)
    | none => none
  | .assign i xs, f => match a i with
    | some _ =>
      if f = .alloc then some (a.set i (some (.ok [])), true, 0)
      else if f = .copy ∧ xs ≠ [] then some (a.set i (some (.ok [])), true, 1)
      else some (a.set i (some (.ok xs)), false, 0)
    | none => none
  | .assignVec i j, f => match a i, a j with
    | some _, some (.ok xs) =>
      if i = j then none
      else if f = .alloc then some (a.set i (some (.ok [])), true, 0) else some (a.set i (some (.ok xs)), false, 0)
    | _, _ => none
  | .map i xs, _ => match a i with
    | some _ => some (a.set i (some (.ok xs)), false, 0)
    | none => none
  | .destroy i, _ => match a i with
    | some _ => some (a.set i none, false, 0)
    | none => none

/-- effect of a program: the vectors, which operations threw, and how many buffers were lost -/
def effects (a : Vals α) : List (Cmd α × Fault) → Option (Vals α × List Bool × Nat)
  | [] => some (a, [], 0)
  | (c, f) :: cs => do
    let (a, t, n) ← effect a c f
    let (a, ts, m) ← effects a cs
    pure (a, t :: ts, n + m)

end Succinct.Spec
