import Verif.Model.MachineTopK
import Verif.Model.ReleaseSeq

/-! # `excess_rmq`, `cartesian_tree::rmq` and `topk_vector` with assertions compiled out

The queries of `bp_vector.cpp:365-625`, `cartesian_tree.hpp:106-137` and `topk_vector.hpp:44-165` in 64-bit arithmetic like `MachineBp.lean` and
`MachineTopK.lean`, without any assertion.  `none` is undefined behaviour: a read outside the arrays, an over-wide shift, overflow of `excess_t`, an
operation on an empty `std::vector`; or a loop that does not end, which can only be the one of `minLeaf` at node 0.  The other
loops get more iterations than they can make: they move through an array, or `h` passes 63 and the shift is undefined. -/
namespace Succinct
namespace Release
open Broadword
open Machine (at_ s32 vlen)
open Machine.Bp (Rmq rmqInWord)
open Machine.BpVector (Walk betterNode minLeaf padA padB minW)

/-! ## `bp_vector::excess_rmq` -/

/-- `bp_vector.cpp:365-379`; `rmqWords` has no assertion -/
def rmqInBlock (bits : List Word) (start stop : Word) (s : Rmq) : Option Rmq :=
  if start = stop then pure s
  else Machine.BpVector.rmqWords bits stop (bits.length + 4) start s

/-- `bp_vector.cpp:381-400`; `rmqBlocks` has no assertion -/
def rmqInSuperblock (v : Machine.BpVector) (start stop : Word) (s : Int × Word) : Option (Int × Word) :=
  if start = stop then pure s
  else do
    let superblock := start / 32
    let superExc ← blockExcess v.rs (superblock * 32)
    Machine.BpVector.rmqBlocks v.blockMin superExc stop (v.blockMin.length + 32) start s

/-- the loop `bp_vector.cpp:428-450` -/
def walkUp (tree : List Int) (stop : Word) : Nat → Walk → Option Walk
  | 0, _ => none
  | fuel + 1, s => do
    if s.node &&& 1 = 0 then do
      let p ← shl 1 s.h.toNat
      let span := s.span + p
      let best ← betterNode tree (span < stop) (s.node + 1) s.best
      if span ≥ stop - 1 then pure ⟨s.node + 1, span, s.h, best⟩
      else walkUp tree stop fuel ⟨s.node / 2, span, s.h + 1, best⟩
    else walkUp tree stop fuel ⟨s.node / 2, s.span, s.h + 1, s.best⟩

/-- the loop `bp_vector.cpp:455-475` -/
def walkDown (tree : List Int) (stop : Word) : Nat → Walk → Option Walk
  | fuel, s =>
    if s.span > stop - 1 then
      match fuel with
      | 0 => none
      | fuel + 1 => do
        let h := s.h - 1
        let left := s.node * 2
        let p ← shl 1 h.toNat
        if s.span - p ≥ stop - 1 then walkDown tree stop fuel ⟨left, s.span - p, h, s.best⟩
        else do
          let best ← betterNode tree true left s.best
          walkDown tree stop fuel ⟨left + 1, s.span, h, best⟩
    else some s

/-- `bp_vector.cpp:403-506` -/
def findMinSuperblock (v : Machine.BpVector) (start stop : Word) (s : Int × Word) : Option (Int × Word) :=
  if start = stop then pure s
  else do
    let node := v.internalNodes + start
    let m ← at_ v.superMin node
    if stop - start = 1 then pure (m, start)
    else do
      let u ← walkUp v.superMin stop (node.toNat + 66) ⟨node, start, 0, (m, node)⟩
      let w ← walkDown v.superMin stop (u.h.toNat + 1) u
      let best ← betterNode v.superMin (w.span < stop) w.node w.best
      if best.1 < s.1 then do
        let leaf ← minLeaf v.superMin v.internalNodes v.internalNodes.toNat best.2
        pure (best.1, leaf - v.internalNodes)
      else pure s

/-- `bp_vector.cpp:582-587` -/
def rmqSuper (v : Machine.BpVector) (t : Int × Word) (m : Int) (s : Int × Word) : Option (Int × Word) :=
  if t.1 < m then rmqInSuperblock v (t.2 * 32) ((t.2 + 1) * 32) s else some s

/-- `bp_vector.cpp:559-594` -/
def rmqMiddle (v : Machine.BpVector) (ba bb : Word) (m : Int) : Option (Int × Word) := do
  let sa := (ba + 1) / 32
  let sb := bb / 32
  if sa = sb then rmqInSuperblock v (ba + 1) bb (m, 4294967295)
  else do
    let s ← rmqInSuperblock v (ba + 1) ((sa + 1) * 32) (m, 4294967295)
    let t ← findMinSuperblock v (sa + 1) sb (m, 4294967295)
    let s ← rmqSuper v t m s
    rmqInSuperblock v (sb * 32) bb s

/-- `bp_vector.cpp:596-602` -/
def rmqBest (v : Machine.BpVector) (b : Int × Word) (s : Rmq) : Option Rmq :=
  if b.1 < s.min then do
    let e ← blockExcess v.rs b.2
    rmqInBlock v.rs.bv.bits (b.2 * 4) ((b.2 + 1) * 4) ⟨e, s.min, s.idx⟩
  else some s

/-- `bp_vector.cpp:543-608` -/
def rmqInner (v : Machine.BpVector) (wa wb : Word) (s : Rmq) : Option Rmq := do
  let ba := wa / 4
  let bb := wb / 4
  if ba = bb then rmqInBlock v.rs.bv.bits (wa + 1) wb s
  else do
    let s ← rmqInBlock v.rs.bv.bits (wa + 1) ((ba + 1) * 4) s
    let b ← rmqMiddle v ba bb s.min
    let s ← rmqBest v b s
    let e ← blockExcess v.rs bb
    rmqInBlock v.rs.bv.bits (bb * 4) wb ⟨e, s.min, s.idx⟩

/-- `bp_vector.cpp:508-625`: the returned position and `min_exc` -/
def excessRmq (v : Machine.BpVector) (a b : Word) : Option (Word × Int) := do
  let cur ← excess v a
  if a = b then pure (a, cur)
  else do
    let rangeLen := b - a
    let wa := a / 64
    let wb := (b - 1) / 64
    let shiftA := a % 64
    let w ← at_ v.rs.bv.bits wa
    let lenA := minW (64 - shiftA) rangeLen
    let padded ← padA (w >>> shiftA.toNat) lenA
    let s ← rmqInWord padded a ⟨cur, cur, a⟩
    if wa = wb then pure (s.idx, s.min)
    else do
      let e ← i32 (s.exc - (64 - s32 lenA))
      let s ← rmqInner v wa wb ⟨e, s.min, s.idx⟩
      let w ← at_ v.rs.bv.bits wb
      let padded ← padB w (b % 64)
      let s ← rmqInWord padded (wb * 64) s
      pure (s.idx, s.min)

/-! ## `cartesian_tree` -/

/-- `cartesian_tree.hpp:106-137` -/
def cartRmq (t : Machine.CartesianTree) (a b : Word) : Option Word :=
  if a = b then pure a
  else do
    let n := t.size
    let tp ← rsSelect0 t.bp.rs (n - b - 1)
    let excT := s32 (tp - 2 * (n - b - 1))
    let x ← rsSelect0 t.bp.rs (n - b)
    let y ← rsSelect0 t.bp.rs (n - a)
    let (w, excW) ← excessRmq t.bp x y
    let rank0 := (w - BitVec.ofInt 64 excW) / 2
    let excT1 ← i32 (excT - 1)
    pure (if excW ≥ excT1 then b else n - rank0)

/-! ## `topk_vector` -/
namespace TopK
variable {V α : Type} (c : Machine.Container V α)

/-- `queue_element_type(m_v[m], m, a, b)` with `m = rmq(a, b)`, `topk_vector.hpp:66-67,72-73,103-104` -/
def elemFor (t : Machine.TopK V) (a b : Word) : Option (Machine.QElem α) := do
  let m ← cartRmq t.tree a b
  let x ← c.get t.v m
  pure ⟨x, m, a, b⟩

/-- `topk_vector.hpp:97-105` with `137-140` -/
def getEnumerator (t : Machine.TopK V) (a b : Word) (e : Machine.TopKEnum V α) : Option (Machine.TopKEnum V α) := do
  let e := { e.clear with topkv := some t }
  let x ← elemFor c t a b
  pure { e with q := e.q ++ [x] }

/-- `topk_vector.hpp:65-69` -/
def pushLeft (h : HeapOps (Machine.QElem α)) (t : Option (Machine.TopK V)) (x : Machine.QElem α) (q : List (Machine.QElem α)) :
    Option (List (Machine.QElem α)) :=
  if x.mid ≠ x.a then do
    let t ← t
    let y ← elemFor c t x.a (x.mid - 1)
    h.pushHeap (q ++ [y])
  else some q

/-- `topk_vector.hpp:71-75` -/
def pushRight (h : HeapOps (Machine.QElem α)) (t : Option (Machine.TopK V)) (x : Machine.QElem α) (q : List (Machine.QElem α)) :
    Option (List (Machine.QElem α)) :=
  if x.mid ≠ x.b then do
    let t ← t
    let y ← elemFor c t (x.mid + 1) x.b
    h.pushHeap (q ++ [y])
  else some q

/-- `topk_vector.hpp:51-78` -/
def next (h : HeapOps (Machine.QElem α)) (e : Machine.TopKEnum V α) : Option (Bool × Machine.TopKEnum V α) :=
  if e.q = [] then some (false, e)
  else do
    let q ← h.popHeap e.q
    let x ← q.getLast?
    let q ← pushLeft c h e.topkv x q.dropLast
    let q ← pushRight c h e.topkv x q
    pure (true, { e with q := q, cur := some (x.val, x.mid) })

/-- what a caller sees from `k` calls of `next()` (`topk_vector.hpp:51-83`) -/
def nexts (h : HeapOps (Machine.QElem α)) : Nat → Machine.TopKEnum V α → Option (List (Option (α × Word)))
  | 0, _ => some []
  | k + 1, e => do
    let (r, e) ← next c h e
    if r then do
      let x ← e.cur
      let rest ← nexts h k e
      pure (some x :: rest)
    else do
      let rest ← nexts h k e
      pure (none :: rest)

/-- the loop `topk_vector.hpp:156-160`; the first call of `next` finds the entry put there by `set`, so that `m_cur` has a value -/
def topkLoop (h : HeapOps (Machine.QElem α)) (n : Word) : Nat → Word → Machine.TopKEnum V α → List (α × Word) → Option (List (α × Word))
  | fuel, i, e, acc =>
    if i < n then
      match fuel with
      | 0 => none
      | fuel + 1 => do
        let (_, e) ← next c h e
        let x ← e.cur
        topkLoop h n fuel (i + 1) e (acc ++ [x])
    else some acc

/-- `topk_vector.hpp:149-165`; allocation of `ret` is not modelled -/
def topk (h : HeapOps (Machine.QElem α)) (t : Machine.TopK V) (a b k : Word) : Option (List (α × Word)) := do
  let n := minW (b - a + 1) k
  let e ← getEnumerator c t a b Machine.TopKEnum.new
  topkLoop c h n n.toNat 0 e []

end TopK

/-! ## The containers of the library -/

/-- `mappable_vector<T>`, `elias_fano_list`, `elias_fano_compressed_list`, `gamma_vector` and `gamma_bit_vector` as `Vector` of a `topk_vector`
(`topk_vector.hpp:30,36,41`); constructors with assertions, as in `MachineTopK.lean` -/
def efListC (ov : Word → Nat → Word) : Machine.Container Machine.EliasFano Word := { Machine.Container.efList ov with get := eflGet ov }
/-- see above; `elias_fano_compressed_list.hpp:13-53` -/
def efCompressedListC (ov : Word → Nat → Word) : Machine.Container Machine.EFCompressedList Word :=
  { Machine.Container.efCompressedList ov with get := efclGet ov }
/-- see above; `gamma_vector.hpp:17-51` -/
def gammaVectorC (ov : Word → Nat → Word) : Machine.Container Machine.GammaVec Word := { Machine.Container.gammaVector ov with get := gvGet ov }
/-- see above; `gamma_bit_vector.hpp:22-57` -/
def gammaBitVectorC (ov : Word → Nat → Word) : Machine.Container Machine.GammaVec Word := { Machine.Container.gammaBitVector ov with get := gbvGet ov }

end Release
end Succinct
