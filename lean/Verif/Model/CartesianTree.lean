import Verif.Model.BpVector

/-! # `cartesian_tree.hpp`

The value type and the comparator are arbitrary.  `comp a b` is the C++ `comp(a, b)`. -/
namespace Succinct

/-- `cartesian_tree::builder<T>` (`cartesian_tree.hpp:40-81`).  `stack` is `m_stack` with `back()` as
the head of the list. -/
structure CartesianBuilder (α : Type) where
  stack : List α
  bp : Builder
deriving Repr

namespace CartesianBuilder
variable {α : Type}

/-- `cartesian_tree.hpp:42-47`.  `reserve` is called on the empty `m_bp`; `reallocates` as in
`Builder.reserve`. -/
def new (expectedSize : Nat) (reallocates : Bool) : Option (CartesianBuilder α) := do
  let b ← Builder.new 0 false
  if expectedSize ≠ 0 then do
    let b ← b.reserve reallocates
    pure ⟨[], b⟩
  else pure ⟨[], b⟩

/-- the loop `cartesian_tree.hpp:54-58` -/
def popLoop (comp : α → α → Bool) (val : α) : List α → Builder → Option (List α × Builder)
  | [], b => some ([], b)
  | top :: rest, b =>
    if comp val top then do
      let b ← b.pushBack true
      popLoop comp val rest b
    else some (top :: rest, b)

/-- `cartesian_tree.hpp:49-61` -/
def pushBack (comp : α → α → Bool) (s : CartesianBuilder α) (val : α) : Option (CartesianBuilder α) := do
  let b ← s.bp.pushBack false
  let (st, b) ← popLoop comp val s.stack b
  pure ⟨val :: st, b⟩

/-- the loop `cartesian_tree.hpp:67-70` -/
def drainLoop : List α → Builder → Option Builder
  | [], b => some b
  | _ :: rest, b => do
    let b ← b.pushBack true
    drainLoop rest b

/-- `cartesian_tree.hpp:63-75` -/
def finalize (s : CartesianBuilder α) : Option Builder := do
  let b ← s.bp.pushBack false
  let b ← drainLoop s.stack b
  let b ← b.pushBack true
  b.reverse

/-- a run of `push_back` over a sequence, `cartesian_tree.hpp:172-174` -/
def pushAll (comp : α → α → Bool) : List α → CartesianBuilder α → Option (CartesianBuilder α)
  | [], s => some s
  | x :: rest, s => do
    let s ← pushBack comp s x
    pushAll comp rest s

end CartesianBuilder

/-- `cartesian_tree` (`cartesian_tree.hpp:179`) -/
structure CartesianTree where
  bp : BpVector
deriving Repr

namespace CartesianTree
variable {α : Type}

/-- constructor `cartesian_tree.hpp:85-89` -/
def ofBuilder (s : CartesianBuilder α) : Option CartesianTree := do
  let b ← s.finalize
  let bv ← BitVector.ofBuilder b
  let v ← BpVector.build bv false true
  pure ⟨v⟩

/-- `cartesian_tree.hpp:163-176`, used by the constructors `91-101` -/
def build (comp : α → α → Bool) (v : List α) : Option CartesianTree := do
  let s ← CartesianBuilder.new 0 false
  let s ← CartesianBuilder.pushAll comp v s
  ofBuilder s

/-- `cartesian_tree.hpp:144-147` -/
def size (t : CartesianTree) : Option Nat := subU (t.bp.rs.bv.size / 2) 1

/-- `cartesian_tree.hpp:124`: `(w - uint64_t(exc_w)) / 2`.  The subtraction is modulo `2^64`; the model
refuses to continue if the mathematical difference is negative. -/
def rank0At (w : Nat) (exc : Int) : Option Nat := do
  assertP (0 ≤ (w : Int) - exc)
  pure (((w : Int) - exc).toNat / 2)

/-- `cartesian_tree.hpp:127-132` -/
def pick (n b : Nat) (excW excT1 : Int) (rank0 : Nat) : Option Nat :=
  if excW ≥ excT1 then some b else subU n rank0

/-- `cartesian_tree.hpp:113-136` -/
def rmqDistinct (t : CartesianTree) (a b : Nat) : Option Nat := do
  let n ← size t
  let nb ← subU n b
  let nb1 ← subU nb 1
  let tp ← t.bp.rs.select0 nb1
  let excT := toI32 ((tp : Int) - 2 * nb1)
  let excT1 ← i32 (excT - 1)
  let e ← t.bp.excess (tp + 1)
  assertP (excT1 = e)
  let x ← t.bp.rs.select0 nb
  let na ← subU n a
  let y ← t.bp.rs.select0 na
  let (w, excW) ← t.bp.excessRmq x y
  let rank0 ← rank0At w excW
  let w1 ← subU w 1
  let bit ← t.bp.rs.bv.access w1
  assertP (bit = false)
  let ret ← pick n b excW excT1 rank0
  assertP (ret ≥ a)
  assertP (ret ≤ b)
  pure ret

/-- `cartesian_tree.hpp:106-137` -/
def rmq (t : CartesianTree) (a b : Nat) : Option Nat := do
  assertP (a ≤ b)
  if a = b then pure a else rmqDistinct t a b

end CartesianTree
end Succinct
