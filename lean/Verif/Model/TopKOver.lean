import Verif.Model.TopK
import Verif.Model.EliasFano
import Verif.Model.Gamma
import Verif.Model.Mapper

/-! # `topk_vector.hpp` over a container

`Model/TopK` takes the underlying `Vector` for the list of its values.  Here it is a container of the library with its own constructor and
`operator[]`; the range the `topk_vector` is built from has its own value type, which `std::greater` compares
(`topk_vector.hpp:28`), and is converted to the value type of the container (`topk_vector.hpp:30`).  For the containers of the library this is
a range of 64-bit integers; `*iter + 1` may wrap for narrower ones. -/
namespace Succinct

/-- what `topk_vector.hpp:30,36,41` uses of a `Vector`: the constructor from a range, `operator[]` and `size()` -/
structure Container (V α : Type) where
  build : List α → Option V
  get : V → Nat → Option α
  size : V → Option Nat

/-- `topk_vector<Vector>` (`topk_vector.hpp:184-185`) -/
structure TopKOver (V : Type) where
  v : V
  tree : CartesianTree

/-- `topk_vector<Vector>::enumerator` (`topk_vector.hpp:130-132`), see `TopKEnum` -/
structure TopKOverEnum (V α : Type) where
  topkv : Option (TopKOver V)
  q : List (QElem α)
  cur : Option (α × Nat)

namespace TopKOverEnum
variable {V α : Type} (c : Container V α)

/-- default constructor `topk_vector.hpp:47-49` -/
def new : TopKOverEnum V α := ⟨none, [], none⟩

/-- `topk_vector.hpp:123-127` -/
def clear (e : TopKOverEnum V α) : TopKOverEnum V α := { e with topkv := none, q := [] }

/-- `queue_element_type(m_v[m], m, a, b)` with `m = rmq(a, b)`, `topk_vector.hpp:66-67,72-73,103-104` -/
def elemFor (t : TopKOver V) (a b : Nat) : Option (QElem α) := do
  let m ← t.tree.rmq a b
  let x ← c.get t.v m
  pure ⟨x, m, a, b⟩

/-- `topk_vector.hpp:97-105` -/
def set (e : TopKOverEnum V α) (t : TopKOver V) (a b : Nat) : Option (TopKOverEnum V α) := do
  assertP (a ≤ b)
  let e := { clear e with topkv := some t }
  let x ← elemFor c t a b
  pure { e with q := e.q ++ [x] }

/-- `topk_vector.hpp:65-69` -/
def pushLeft (h : HeapOps (QElem α)) (t : Option (TopKOver V)) (x : QElem α) (q : List (QElem α)) : Option (List (QElem α)) :=
  if x.mid ≠ x.a then do
    let t ← t
    let m1 ← subU x.mid 1
    let y ← elemFor c t x.a m1
    h.pushHeap (q ++ [y])
  else some q

/-- `topk_vector.hpp:71-75` -/
def pushRight (h : HeapOps (QElem α)) (t : Option (TopKOver V)) (x : QElem α) (q : List (QElem α)) : Option (List (QElem α)) :=
  if x.mid ≠ x.b then do
    let t ← t
    let y ← elemFor c t (x.mid + 1) x.b
    h.pushHeap (q ++ [y])
  else some q

/-- `topk_vector.hpp:51-78` -/
def next (h : HeapOps (QElem α)) (e : TopKOverEnum V α) : Option (Bool × TopKOverEnum V α) :=
  if e.q = [] then some (false, e)
  else do
    let q ← h.popHeap e.q
    let x ← q.getLast?
    let q ← pushLeft c h e.topkv x q.dropLast
    let q ← pushRight c h e.topkv x q
    pure (true, { e with q := q, cur := some (x.val, x.mid) })

/-- what a caller sees from `k` calls of `next()` (`topk_vector.hpp:51-83`) -/
def nexts (h : HeapOps (QElem α)) : Nat → TopKOverEnum V α → Option (List (Option (α × Nat)))
  | 0, _ => some []
  | k + 1, e => do
    let (r, e) ← next c h e
    if r then do
      let x ← e.cur
      let rest ← nexts h k e
      pure (some x :: rest)
    else do
      let rest ← nexts h k e
      pure (none :: rest)

end TopKOverEnum

namespace TopKOver
variable {V α : Type} (c : Container V α)

/-- constructor `topk_vector.hpp:25-31`; `lt` is `<` of the range's value type, `conv` the conversion to the container's -/
def build {ρ : Type} (lt : ρ → ρ → Bool) (conv : ρ → α) (r : List ρ) : Option (TopKOver V) := do
  let t ← CartesianTree.build (fun x y => lt y x) r
  let v ← c.build (r.map conv)
  pure ⟨v, t⟩

/-- `topk_vector.hpp:33-37` -/
def get (t : TopKOver V) (i : Nat) : Option α := c.get t.v i

/-- `topk_vector.hpp:39-42` -/
def size (t : TopKOver V) : Option Nat := c.size t.v

/-- `topk_vector.hpp:137-140` -/
def getEnumerator (t : TopKOver V) (a b : Nat) (e : TopKOverEnum V α) : Option (TopKOverEnum V α) := e.set c t a b

/-- the loop `topk_vector.hpp:156-160` for the remaining `n` entries -/
def topkLoop (h : HeapOps (QElem α)) : Nat → TopKOverEnum V α → List (α × Nat) → Option (List (α × Nat) × TopKOverEnum V α)
  | 0, e, acc => some (acc, e)
  | n + 1, e, acc => do
    let (hasnext, e) ← e.next c h
    assertP (hasnext = true)
    let x ← e.cur
    topkLoop h n e (acc ++ [x])

/-- the assertion `topk_vector.hpp:162` -/
def topkCheck (h : HeapOps (QElem α)) (len k : Nat) (e : TopKOverEnum V α) : Option Unit :=
  if len = k then some ()
  else do
    let (r, _) ← e.next c h
    assertP (r = false)

/-- `topk_vector.hpp:149-165` -/
def topk (h : HeapOps (QElem α)) (t : TopKOver V) (a b k : Nat) : Option (List (α × Nat)) := do
  let d ← subU b a
  let n := min (d + 1) k
  let e ← getEnumerator c t a b TopKOverEnum.new
  let (ret, e) ← topkLoop c h n e []
  topkCheck c h n k e
  pure ret

end TopKOver

namespace Container

/-- `mappable_vector<T>` (`mappable_vector.hpp:39-53,89-91,101-104`): the values themselves -/
def mappableVector {α : Type} : Container (List α) α := ⟨some, fun v i => rd v i, fun v => some v.length⟩

/-- `elias_fano_list` (`elias_fano_list.hpp:13-46`) -/
def efList (ov : Word → Nat → Word) : Container EFList Word := ⟨EFList.build, fun t i => t.get ov i, fun t => some t.size⟩

/-- `elias_fano_compressed_list` (`elias_fano_compressed_list.hpp:13-53`) -/
def efCompressedList (ov : Word → Nat → Word) : Container EFCompressedList Word := ⟨EFCompressedList.build, fun t i => t.get ov i, EFCompressedList.size⟩

/-- `gamma_vector` (`gamma_vector.hpp:17-51`) -/
def gammaVector (ov : Word → Nat → Word) : Container GammaVec Word := ⟨GammaVector.build, fun t i => GammaVector.get ov t i, GammaVec.size⟩

/-- `gamma_bit_vector` (`gamma_bit_vector.hpp:22-57`) -/
def gammaBitVector (ov : Word → Nat → Word) : Container GammaVec Word :=
  ⟨GammaBitVector.build, fun t i => GammaBitVector.get ov t i, GammaVec.size⟩

end Container

namespace Mapper.Codec

/-- `topk_vector::map`, `topk_vector.hpp:168-174`; `c` is the field for the underlying vector -/
def topKOver {V : Type} (c : Codec V) : Codec (TopKOver V) :=
  iso (c ⊳ obj "m_cartesian_tree" cartesianTree) (fun p => ⟨p.1, p.2⟩) (fun t => (t.v, t.tree))

end Mapper.Codec
end Succinct
