import Verif.Model.CartesianTree

/-! # `topk_vector.hpp`

The value type is arbitrary; `Ops` holds its comparison operators.  The underlying `Vector` is modelled by the list
of its values with checked access.

`std::push_heap` and `std::pop_heap` are not code of the library: they are arbitrary functions
(`HeapOps`), and theorems assume of them what the C++ standard promises (`HeapOps.Valid`). -/
namespace Succinct

/-- the operators `<` and `==` of `value_type` (`topk_vector.hpp:28,116-117`); `>` is the converse of `<` -/
structure Ops (α : Type) where
  lt : α → α → Bool
  eq : α → α → Bool

/-- `std::push_heap` and `std::pop_heap` for a fixed comparator, on the whole vector (`topk_vector.hpp:59,68,74`) -/
structure HeapOps (β : Type) where
  pushHeap : List β → Option (List β)
  popHeap : List β → Option (List β)

/-- `std::is_heap`, the invariant of `m_q` (`topk_vector.hpp:131`): no element is greater than its parent -/
def IsHeap {β : Type} (cmp : β → β → Bool) (q : List β) : Prop :=
  ∀ i x y, 0 < i → q[(i-1)/2]? = some x → q[i]? = some y → cmp x y = false

/-- [alg.heap.operations] of the C++ standard, for the calls `topk_vector.hpp:59,68,74`.  `push_heap` requires that all but the last element form
a heap and makes the whole range one; `pop_heap` requires a non-empty heap, moves its first element to
the end and makes a heap of the others. -/
structure HeapOps.Valid {β : Type} (h : HeapOps β) (cmp : β → β → Bool) : Prop where
  push : ∀ q x, IsHeap cmp q → ∃ q', h.pushHeap (q ++ [x]) = some q' ∧ IsHeap cmp q' ∧ q'.Perm (q ++ [x])
  pop : ∀ x q, IsHeap cmp (x :: q) → ∃ q', h.popHeap (x :: q) = some (q' ++ [x]) ∧ IsHeap cmp q' ∧ q'.Perm q

/-- `queue_element_type` (`topk_vector.hpp:107`) -/
structure QElem (α : Type) where
  val : α
  mid : Nat
  a : Nat
  b : Nat
deriving DecidableEq, Repr

/-- `value_index_comparator` (`topk_vector.hpp:109-120`) -/
def viComp {α : Type} (o : Ops α) (x y : QElem α) : Bool :=
  o.lt x.val y.val || (o.eq x.val y.val && decide (x.mid > y.mid))

/-- `topk_vector` (`topk_vector.hpp:184-185`) -/
structure TopK (α : Type) where
  v : List α
  tree : CartesianTree

/-- `topk_vector::enumerator` (`topk_vector.hpp:130-132`); `cur` is `none` while `m_cur` is default
constructed -/
structure TopKEnum (α : Type) where
  topkv : Option (TopK α)
  q : List (QElem α)
  cur : Option (α × Nat)

namespace TopK
variable {α : Type}

/-- constructor `topk_vector.hpp:25-31`; `std::greater` is `fun x y => y < x` -/
def build (o : Ops α) (v : List α) : Option (TopK α) := do
  let t ← CartesianTree.build (fun x y => o.lt y x) v
  pure ⟨v, t⟩

end TopK

namespace TopKEnum
variable {α : Type}

/-- default constructor `topk_vector.hpp:47-49` -/
def new : TopKEnum α := ⟨none, [], none⟩

/-- `topk_vector.hpp:123-127` -/
def clear (e : TopKEnum α) : TopKEnum α := { e with topkv := none, q := [] }

/-- `queue_element_type(m_v[m], m, a, b)` with `m = rmq(a, b)`, `topk_vector.hpp:66-67,72-73,103-104` -/
def elemFor (t : TopK α) (a b : Nat) : Option (QElem α) := do
  let m ← t.tree.rmq a b
  let x ← rd t.v m
  pure ⟨x, m, a, b⟩

/-- `topk_vector.hpp:97-105` -/
def set (e : TopKEnum α) (t : TopK α) (a b : Nat) : Option (TopKEnum α) := do
  assertP (a ≤ b)
  let e := { clear e with topkv := some t }
  let x ← elemFor t a b
  pure { e with q := e.q ++ [x] }

/-- `topk_vector.hpp:65-69` -/
def pushLeft (h : HeapOps (QElem α)) (t : Option (TopK α)) (x : QElem α) (q : List (QElem α)) : Option (List (QElem α)) :=
  if x.mid ≠ x.a then do
    let t ← t
    let m1 ← subU x.mid 1
    let y ← elemFor t x.a m1
    h.pushHeap (q ++ [y])
  else some q

/-- `topk_vector.hpp:71-75` -/
def pushRight (h : HeapOps (QElem α)) (t : Option (TopK α)) (x : QElem α) (q : List (QElem α)) : Option (List (QElem α)) :=
  if x.mid ≠ x.b then do
    let t ← t
    let y ← elemFor t (x.mid + 1) x.b
    h.pushHeap (q ++ [y])
  else some q

/-- `topk_vector.hpp:51-78` -/
def next (h : HeapOps (QElem α)) (e : TopKEnum α) : Option (Bool × TopKEnum α) :=
  if e.q = [] then some (false, e)
  else do
    let q ← h.popHeap e.q
    let x ← q.getLast?
    let q ← pushLeft h e.topkv x q.dropLast
    let q ← pushRight h e.topkv x q
    pure (true, { e with q := q, cur := some (x.val, x.mid) })

/-- what a caller sees from `k` calls of `next()` (`topk_vector.hpp:51-83`): `value()` if it returned true, nothing otherwise -/
def nexts (h : HeapOps (QElem α)) : Nat → TopKEnum α → Option (List (Option (α × Nat)))
  | 0, _ => some []
  | k + 1, e => do
    let (r, e) ← next h e
    if r then do
      let x ← e.cur
      let rest ← nexts h k e
      pure (some x :: rest)
    else do
      let rest ← nexts h k e
      pure (none :: rest)

end TopKEnum

namespace TopK
variable {α : Type}

/-- `topk_vector.hpp:137-140`, with the previous state of the enumerator passed by the caller -/
def getEnumerator (t : TopK α) (a b : Nat) (e : TopKEnum α) : Option (TopKEnum α) := e.set t a b

/-- the loop `topk_vector.hpp:156-160` for the remaining `n` entries -/
def topkLoop (h : HeapOps (QElem α)) : Nat → TopKEnum α → List (α × Nat) → Option (List (α × Nat) × TopKEnum α)
  | 0, e, acc => some (acc, e)
  | n + 1, e, acc => do
    let (hasnext, e) ← e.next h
    assertP (hasnext = true)
    let x ← e.cur
    topkLoop h n e (acc ++ [x])

/-- the assertion `topk_vector.hpp:162` -/
def topkCheck (h : HeapOps (QElem α)) (len k : Nat) (e : TopKEnum α) : Option Unit :=
  if len = k then some ()
  else do
    let (r, _) ← e.next h
    assertP (r = false)

/-- `topk_vector.hpp:149-165` -/
def topk (h : HeapOps (QElem α)) (t : TopK α) (a b k : Nat) : Option (List (α × Nat)) := do
  let d ← subU b a
  let n := min (d + 1) k
  let e ← getEnumerator t a b TopKEnum.new
  let (ret, e) ← topkLoop h n e []
  topkCheck h n k e
  pure ret

end TopK
end Succinct
