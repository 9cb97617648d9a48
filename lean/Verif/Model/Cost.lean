import Verif.Model.Work

/-! # Counting calls of the comparator and range queries

The functions of `Model/CartesianTree` and `Model/TopK` once more, with the calls of the comparator listed in order and the calls of `rmq` counted. -/
namespace Succinct

namespace CartesianBuilder
variable {α : Type}

/-- the loop `cartesian_tree.hpp:54-58`; the third result lists the calls `comp(x, y)` as pairs -/
def popLoopC (comp : α → α → Bool) (val : α) : List α → Builder → Option (List α × Builder × List (α × α))
  | [], b => some ([], b, [])
  | top :: rest, b =>
    if comp val top then do
      let b ← b.pushBack true
      let (st, b, c) ← popLoopC comp val rest b
      pure (st, b, (val, top) :: c)
    else some (top :: rest, b, [(val, top)])

/-- `cartesian_tree.hpp:49-61` -/
def pushBackC (comp : α → α → Bool) (s : CartesianBuilder α) (val : α) : Option (CartesianBuilder α × List (α × α)) := do
  let b ← s.bp.pushBack false
  let (st, b, c) ← popLoopC comp val s.stack b
  pure (⟨val :: st, b⟩, c)

/-- `cartesian_tree.hpp:172-174` -/
def pushAllC (comp : α → α → Bool) : List α → CartesianBuilder α → Option (CartesianBuilder α × List (α × α))
  | [], s => some (s, [])
  | x :: rest, s => do
    let (s, c) ← pushBackC comp s x
    let (s, c') ← pushAllC comp rest s
    pure (s, c ++ c')

end CartesianBuilder

namespace CartesianTree

/-- `cartesian_tree.hpp:163-176`; `finalize` (`63-75`) and `bp_vector` do not compare values -/
def buildC {α : Type} (comp : α → α → Bool) (v : List α) : Option (CartesianTree × List (α × α)) := do
  let s ← CartesianBuilder.new 0 false
  let (s, c) ← CartesianBuilder.pushAllC comp v s
  let t ← ofBuilder s
  pure (t, c)

end CartesianTree

namespace TopKEnum
variable {α : Type}

/-- `topk_vector.hpp:65-69`, with the number of calls of `rmq` -/
def pushLeftC (h : HeapOps (QElem α)) (t : Option (TopK α)) (x : QElem α) (q : List (QElem α)) : Option (List (QElem α) × Nat) :=
  if x.mid ≠ x.a then do
    let t ← t
    let m1 ← subU x.mid 1
    let y ← elemFor t x.a m1
    let q ← h.pushHeap (q ++ [y])
    pure (q, 1)
  else some (q, 0)

/-- `topk_vector.hpp:71-75`, with the number of calls of `rmq` -/
def pushRightC (h : HeapOps (QElem α)) (t : Option (TopK α)) (x : QElem α) (q : List (QElem α)) : Option (List (QElem α) × Nat) :=
  if x.mid ≠ x.b then do
    let t ← t
    let y ← elemFor t (x.mid + 1) x.b
    let q ← h.pushHeap (q ++ [y])
    pure (q, 1)
  else some (q, 0)

/-- `topk_vector.hpp:51-78`, with the number of calls of `rmq` -/
def nextC (h : HeapOps (QElem α)) (e : TopKEnum α) : Option (TopKEnum α × Nat) :=
  if e.q = [] then some (e, 0)
  else do
    let q ← h.popHeap e.q
    let x ← q.getLast?
    let (q, m) ← pushLeftC h e.topkv x q.dropLast
    let (q, n) ← pushRightC h e.topkv x q
    pure ({ e with q := q, cur := some (x.val, x.mid) }, m + n)

/-- `k` calls of `next()` (`topk_vector.hpp:51-78`) with the number of calls of `rmq` -/
def afterC (h : HeapOps (QElem α)) : Nat → TopKEnum α → Option (TopKEnum α × Nat)
  | 0, e => some (e, 0)
  | k + 1, e => do
    let (e, m) ← nextC h e
    let (e, n) ← afterC h k e
    pure (e, m + n)

/-- `get_topk_enumerator` (`topk_vector.hpp:97-105,137-140`), one call of `rmq`, and then `k` calls of `next()` -/
def enumerateC (h : HeapOps (QElem α)) (t : TopK α) (a b k : Nat) (e : TopKEnum α) : Option (TopKEnum α × Nat) := do
  let e ← e.set t a b
  let (e, n) ← afterC h k e
  pure (e, 1 + n)

end TopKEnum
end Succinct
