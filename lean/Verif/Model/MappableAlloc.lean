import Verif.Model.Mappable

/-! # `mappable_vector.hpp` when memory runs out or an iterator throws

The operations of `Model/Mappable`, each with a fault: `alloc` lets the `new` of the operation throw `std::bad_alloc`, `copy` lets an iterator of the
range throw during `std::copy`.  The caller catches the exception and goes on.  The elements of the library are copied without throwing, and
the ranges `[v.begin(), v.end())` consist of pointers, so `copy` has no effect on `newVec` and `assignVec`.  Assigning the deleter to
`m_deleter` (`mappable_vector.hpp:46,78`) is taken not to throw: the functor holds one pointer, which `boost::function` stores without allocating. -/
namespace Succinct.Mappable
variable {α : Type}

/-- what goes wrong in an operation (`mappable_vector.hpp:45,48-50,76`) -/
inductive Fault
  | none
  | alloc
  | copy
deriving DecidableEq

/-- constructor from a range, `mappable_vector.hpp:39-53`, if it throws: out of line 45, or out of line 48 when the buffer has been allocated.  The
destructor of an object whose constructor throws does not run, and destroying `m_deleter` does not call it.  (How many elements have been
written into the buffer does not matter, as nothing refers to it.) -/
def ctorThrows (h : Heap α) (xs : List α) : Fault → Option (Heap α)
  | .alloc => some h
  | .copy => if xs = [] then Option.none else some (alloc h xs).1
  | .none => Option.none

/-- `mappable_vector.hpp:72-76`, line 76 throwing; `none` if it is not reached -/
def stealThrows (h : Heap α) (v : Vec α) (xs : List α) : Option (Option (Heap α × Vec α)) := do
  let (h, v) ← clear h v
  let v := { v with size := xs.length }
  if v.size ≠ 0 then pure (some (h, v)) else pure none

/-- one operation with a fault (`mappable_vector.hpp:33-87`): the state afterwards and whether an exception was thrown.  Line 44 only subtracts the pointers
of `newVec` and `assignVec`; the elements are not read before line 45 throws. -/
def stepA (s : State α) (c : Cmd α) (f : Fault) : Option (State α × Bool) :=
  let normal := (step s c).map fun s => (s, false)
  match c with
  | .newRange i xs =>
    match ctorThrows s.heap xs f with
    | some h => if (s.vecs i).isSome then none else some (⟨h, s.vecs⟩, true)
    | none => normal
  | .newVec i j =>
    if f = .alloc then do
      let _ ← s.vecs j
      if (s.vecs i).isSome then none else some (s, true)
    else normal
  | .steal i xs =>
    if f = .alloc then do
      let v ← s.vecs i
      match ← stealThrows s.heap v xs with
      | some (h, v) => pure (⟨h, setAt s.vecs i (some v)⟩, true)
      | none => normal
    else normal
  | .assign i xs => do
    let v ← s.vecs i
    let (h, v) ← clear s.heap v
    match ctorThrows h xs f with
    | some h => pure (⟨h, setAt s.vecs i (some v)⟩, true)
    | none => normal
  | .assignVec i j =>
    if f = .alloc then do
      let _ ← s.vecs j
      let v ← s.vecs i
      let (h, v) ← clear s.heap v
      pure (⟨h, setAt s.vecs i (some v)⟩, true)
    else normal
  | _ => normal

/-- a program run (`mappable_vector.hpp:33-87`): the final state and which operations threw -/
def runA (s : State α) : List (Cmd α × Fault) → Option (State α × List Bool)
  | [] => some (s, [])
  | (c, f) :: cs => do
    let (s, t) ← stepA s c f
    let (s, ts) ← runA s cs
    pure (s, t :: ts)

end Succinct.Mappable
