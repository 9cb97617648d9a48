import Verif.Model.TopK

/-! # The top-k enumerator when memory runs out

`m_q.push_back` throws `std::bad_alloc` if the vector is full and no memory is to be had, and leaves the vector as it was; `next()` does not catch it.
The capacity of a vector does not change when elements are removed. -/
namespace Succinct

namespace TopKEnum
variable {α : Type}

/-- `m_q.push_back(y); push_heap` (`topk_vector.hpp:67-68,73-74`) with capacity `cap`, no memory if `deny`: the queue, and whether an exception was thrown -/
def pushA (h : HeapOps (QElem α)) (cap : Nat) (deny : Bool) (q : List (QElem α)) (y : QElem α) : Option (List (QElem α) × Bool) :=
  if cap < q.length + 1 ∧ deny = true then some (q, true)
  else do
    let q ← h.pushHeap (q ++ [y])
    pure (q, false)

/-- `topk_vector.hpp:65-69` -/
def pushLeftA (h : HeapOps (QElem α)) (cap : Nat) (deny : Bool) (t : Option (TopK α)) (x : QElem α) (q : List (QElem α)) : Option (List (QElem α) × Bool) :=
  if x.mid ≠ x.a then do
    let t ← t
    let m1 ← subU x.mid 1
    let y ← elemFor t x.a m1
    pushA h cap deny q y
  else some (q, false)

/-- `topk_vector.hpp:71-75` -/
def pushRightA (h : HeapOps (QElem α)) (cap : Nat) (deny : Bool) (t : Option (TopK α)) (x : QElem α) (q : List (QElem α)) : Option (List (QElem α) × Bool) :=
  if x.mid ≠ x.b then do
    let t ← t
    let y ← elemFor t (x.mid + 1) x.b
    pushA h cap deny q y
  else some (q, false)

/-- `topk_vector.hpp:51-78`: the state after the call or the exception, whether an exception was thrown, and otherwise what is returned.  `spare` is the
number of elements `m_q` has room for at the beginning of the call without allocating; `m_cur` (line 63) is set before anything can throw. -/
def nextA (h : HeapOps (QElem α)) (spare : Nat) (deny : Bool) (e : TopKEnum α) : Option (TopKEnum α × Bool × Bool) :=
  if e.q = [] then some (e, false, false)
  else do
    let q ← h.popHeap e.q
    let x ← q.getLast?
    let (q, threw) ← pushLeftA h (e.q.length + spare) deny e.topkv x q.dropLast
    if threw then pure ({ e with q := q, cur := some (x.val, x.mid) }, true, false)
    else do
      let (q, threw) ← pushRightA h (e.q.length + spare) deny e.topkv x q
      pure ({ e with q := q, cur := some (x.val, x.mid) }, threw, !threw)

/-- a caller who catches the exceptions and goes on (`topk_vector.hpp:51-83`); for each call whether it threw, and `value()` if it did or returned true -/
def nextsA (h : HeapOps (QElem α)) : List (Nat × Bool) → TopKEnum α → Option (List (Bool × Option (α × Nat)))
  | [], _ => some []
  | (spare, deny) :: env, e => do
    let (e, threw, r) ← nextA h spare deny e
    let rest ← nextsA h env e
    pure ((threw, if threw || r then e.cur else none) :: rest)

end TopKEnum
end Succinct
