import Verif.Model.MachineBp
import Verif.Model.MachineEnum
import Verif.Model.TopK

/-! # `topk_vector.hpp`, `nibble_vector.hpp` and `vbyte.hpp` in 64-bit arithmetic

The second transcription of `Machine.lean` continued: indices, counters and numbers of bytes are `BitVec 64` and wrap around.  The underlying vector of
a `topk_vector` is a container of the library as in `TopKOver.lean`, again in 64-bit arithmetic. -/
namespace Succinct
namespace Machine
open Broadword

/-- what `topk_vector.hpp:30,36,41` uses of a `Vector`: the constructor from a range, `operator[]` and `size()` -/
structure Container (V α : Type) where
  build : List α → Option V
  get : V → Word → Option α
  size : V → Word

/-- `queue_element_type` (`topk_vector.hpp:107`) -/
structure QElem (α : Type) where
  val : α
  mid : Word
  a : Word
  b : Word
deriving DecidableEq, Repr

/-- `value_index_comparator` (`topk_vector.hpp:109-120`) -/
def viComp {α : Type} (o : Ops α) (x y : QElem α) : Bool :=
  o.lt x.val y.val || (o.eq x.val y.val && decide (x.mid > y.mid))

/-- `topk_vector<Vector>` (`topk_vector.hpp:184-185`) -/
structure TopK (V : Type) where
  v : V
  tree : CartesianTree

/-- `topk_vector<Vector>::enumerator` (`topk_vector.hpp:130-132`); `cur` is `none` while `m_cur` is default constructed -/
structure TopKEnum (V α : Type) where
  topkv : Option (TopK V)
  q : List (QElem α)
  cur : Option (α × Word)

namespace TopKEnum
variable {V α : Type} (c : Container V α)

/-- default constructor `topk_vector.hpp:47-49` -/
def new : TopKEnum V α := ⟨none, [], none⟩

/-- `topk_vector.hpp:123-127` -/
def clear (e : TopKEnum V α) : TopKEnum V α := { e with topkv := none, q := [] }

/-- `queue_element_type(m_v[m], m, a, b)` with `m = rmq(a, b)`, `topk_vector.hpp:66-67,72-73,103-104` -/
def elemFor (t : TopK V) (a b : Word) : Option (QElem α) := do
  let m ← t.tree.rmq a b
  let x ← c.get t.v m
  pure ⟨x, m, a, b⟩

/-- `topk_vector.hpp:97-105` -/
def set (e : TopKEnum V α) (t : TopK V) (a b : Word) : Option (TopKEnum V α) := do
  assertP (a ≤ b)
  let e := { clear e with topkv := some t }
  let x ← elemFor c t a b
  pure { e with q := e.q ++ [x] }

/-- `topk_vector.hpp:65-69` -/
def pushLeft (h : HeapOps (QElem α)) (t : Option (TopK V)) (x : QElem α) (q : List (QElem α)) : Option (List (QElem α)) :=
  if x.mid ≠ x.a then do
    let t ← t
    let y ← elemFor c t x.a (x.mid - 1)
    h.pushHeap (q ++ [y])
  else some q

/-- `topk_vector.hpp:71-75` -/
def pushRight (h : HeapOps (QElem α)) (t : Option (TopK V)) (x : QElem α) (q : List (QElem α)) : Option (List (QElem α)) :=
  if x.mid ≠ x.b then do
    let t ← t
    let y ← elemFor c t (x.mid + 1) x.b
    h.pushHeap (q ++ [y])
  else some q

/-- `topk_vector.hpp:51-78` -/
def next (h : HeapOps (QElem α)) (e : TopKEnum V α) : Option (Bool × TopKEnum V α) :=
  if e.q = [] then some (false, e)
  else do
    let q ← h.popHeap e.q
    let x ← q.getLast?
    let q ← pushLeft c h e.topkv x q.dropLast
    let q ← pushRight c h e.topkv x q
    pure (true, { e with q := q, cur := some (x.val, x.mid) })

/-- what a caller sees from `k` calls of `next()` (`topk_vector.hpp:51-83`) -/
def nexts (h : HeapOps (QElem α)) : Nat → TopKEnum V α → Option (List (Option (α × Word)))
  | 0, _ => some []
  | k + 1, e => do
    let (r, e) ← next c h e
    if r then do
      let x ← e.cur
      let rest ← nexts h k e
      pure (some x :: rest)
    else do
      let rest ← nexts h k e
      pure (none :: rest)

end TopKEnum

namespace TopK
variable {V α : Type} (c : Container V α)

/-- constructor `topk_vector.hpp:25-31`, for a range whose values have the type of the container's -/
def build (o : Ops α) (r : List α) : Option (TopK V) := do
  let t ← CartesianTree.build (fun x y => o.lt y x) r
  let v ← c.build r
  pure ⟨v, t⟩

/-- `topk_vector.hpp:33-37` -/
def get (t : TopK V) (i : Word) : Option α := c.get t.v i

/-- `topk_vector.hpp:39-42` -/
def size (t : TopK V) : Word := c.size t.v

/-- `topk_vector.hpp:137-140` -/
def getEnumerator (t : TopK V) (a b : Word) (e : TopKEnum V α) : Option (TopKEnum V α) := e.set c t a b

/-- the loop `topk_vector.hpp:156-160`; `n` is `ret.size()`, `acc` the entries assigned so far -/
def topkLoop (h : HeapOps (QElem α)) (n : Word) : Nat → Word → TopKEnum V α → List (α × Word) → Option (List (α × Word) × TopKEnum V α)
  | fuel, i, e, acc =>
    if i < n then
      match fuel with
      | 0 => none
      | fuel + 1 => do
        let (hasnext, e) ← e.next c h
        assertP (hasnext = true)
        let x ← e.cur
        topkLoop h n fuel (i + 1) e (acc ++ [x])
    else some (acc, e)

/-- the assertion `topk_vector.hpp:162` -/
def topkCheck (h : HeapOps (QElem α)) (n k : Word) (e : TopKEnum V α) : Option Unit :=
  if n = k then some ()
  else do
    let (r, _) ← e.next c h
    assertP (r = false)

/-- `topk_vector.hpp:149-165`; `b - a + 1` wraps for `b < a`, and for the largest range to 0.
Allocation of `ret`, which comes first and fails for ranges far outside the vector, is not modelled. -/
def topk (h : HeapOps (QElem α)) (t : TopK V) (a b k : Word) : Option (List (α × Word)) := do
  let n := BpVector.minW (b - a + 1) k
  let e ← getEnumerator c t a b TopKEnum.new
  let (ret, e) ← topkLoop c h n n.toNat 0 e []
  topkCheck c h n k e
  pure ret

end TopK

namespace Container

/-- `mappable_vector<T>` (`mappable_vector.hpp:39-53,89-91,101-104`) -/
def mappableVector {α : Type} : Container (List α) α := ⟨some, at_, vlen⟩

/-- `elias_fano_list` (`elias_fano_list.hpp:13-46`) -/
def efList (ov : Word → Nat → Word) : Container EliasFano Word := ⟨EFList.build, EFList.get ov, EFList.size⟩

/-- `elias_fano_compressed_list` (`elias_fano_compressed_list.hpp:13-53`) -/
def efCompressedList (ov : Word → Nat → Word) : Container EFCompressedList Word := ⟨EFCompressedList.build, EFCompressedList.get ov, EFCompressedList.size⟩

/-- `gamma_vector` (`gamma_vector.hpp:17-51`) -/
def gammaVector (ov : Word → Nat → Word) : Container GammaVec Word := ⟨GammaVector.build, GammaVector.get ov, GammaVec.size⟩

/-- `gamma_bit_vector` (`gamma_bit_vector.hpp:22-57`) -/
def gammaBitVector (ov : Word → Nat → Word) : Container GammaVec Word := ⟨GammaBitVector.build, GammaBitVector.get ov, GammaVec.size⟩

end Container

/-! ## `nibble_vector` -/

/-- `nibble_vector.hpp:64-65` -/
structure NibbleVector where
  size : Word
  nibbles : List (BitVec 8)
deriving DecidableEq, Repr

namespace NibbleVector

/-- local variables of the constructor (`nibble_vector.hpp:19-23`) -/
structure St where
  size : Word
  nibbles : List (BitVec 8)
  parity : Bool
  cur : BitVec 8
deriving DecidableEq, Repr

/-- loop body, `nibble_vector.hpp:27-34`, for a range of `uint64_t`; `|=` truncates to `uint8_t` -/
def step (s : St) (x : Word) : Option St := do
  assertP (x < 16)
  let cur := s.cur ||| (x <<< (s.parity.toNat * 4)).setWidth 8
  let parity := !s.parity
  if !parity then
    pure ⟨s.size + 1, s.nibbles ++ [cur], parity, 0⟩
  else
    pure ⟨s.size + 1, s.nibbles, parity, cur⟩

/-- `nibble_vector.hpp:17-40` -/
def build (from_ : List Word) : Option NibbleVector := do
  let s ← from_.foldlM step ⟨0, [], false, 0⟩
  if s.parity then
    pure ⟨s.size, s.nibbles ++ [s.cur]⟩
  else
    pure ⟨s.size, s.nibbles⟩

/-- `nibble_vector.hpp:58-61` -/
def get (v : NibbleVector) (pos : Word) : Option (BitVec 8) := do
  assertP (pos < v.size)
  let b ← at_ v.nibbles (pos / 2)
  pure ((b >>> ((pos % 2) * 4).toNat) &&& 0x0F)

end NibbleVector

/-! ## `vbyte.hpp` -/
namespace Vbyte

/-- `vbyte.hpp:7-12` -/
def vbyteSize (val : Word) : Word :=
  let bits : Word := BitVec.ofNat 64 ((msb val).getD 0)
  ceilDiv (bits + 1) 7

/-- the loop `vbyte.hpp:18-22`; it ends when `b` has wrapped to the largest number -/
def appendLoop (val : Word) : Nat → Word → List (BitVec 8) → Option (List (BitVec 8))
  | fuel, b, v =>
    if b + 1 > 0 then
      match fuel with
      | 0 => none
      | fuel + 1 => do
        let s ← shr val (b * 7).toNat
        let chunk : BitVec 8 := (s &&& 0x7F).setWidth 8
        let chunk := chunk ||| (if b ≠ 0 then 0x80 else 0)
        appendLoop val fuel (b - 1) (v ++ [chunk])
    else some v

/-- `vbyte.hpp:14-24`: the vector afterwards and the returned number of bytes -/
def append (v : List (BitVec 8)) (val : Word) : Option (List (BitVec 8) × Word) := do
  let chunks := vbyteSize val
  let v ← appendLoop val chunks.toNat (chunks - 1) v
  pure (v, chunks)

/-- the loop `vbyte.hpp:32-36`; as many iterations as there are bytes in the vector are enough, since `v[pos]` is checked -/
def decodeLoop (v : List (BitVec 8)) : Nat → Word → Word → Option (Word × Word)
  | 0, _, _ => none
  | fuel + 1, pos, val => do
    let chunk ← at_ v pos
    let val := val <<< 7
    let val := val ||| (chunk &&& 0x7F).setWidth 64
    if chunk &&& 0x80 ≠ 0 then decodeLoop v fuel (pos + 1) val else pure (val, pos + 1)

/-- `vbyte.hpp:26-39`: the decoded value and the returned number of bytes -/
def decode (v : List (BitVec 8)) (offset : Word) : Option (Word × Word) := do
  let (val, pos) ← decodeLoop v v.length offset 0
  pure (val, pos - offset)

end Vbyte
end Machine
end Succinct
