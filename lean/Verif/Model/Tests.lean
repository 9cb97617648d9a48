import Verif.Model.BpVector
import Verif.Model.EliasFano
import Verif.Model.Enumerator
import Verif.Model.Gamma
import Verif.Model.TopKOver

/-! # The drivers and generators of the tests of the project

`test_common.hpp`, `test_rank_select_common.hpp`, `test_bp_vector_common.hpp` and the drivers in `test_*.cpp`.  A driver has the result `some` if
it runs to its end: a requirement of the test that fails, a failed assertion and undefined behaviour (an index outside a `std::vector` of the driver
included) are all `none`.  Drivers that are templates take the tested object as a structure of functions.  Messages are left out; a variable that
holds `uint64_t(-1)` until it is set is an option.  The values of `rand()` are an arbitrary sequence. -/
namespace Succinct
namespace Test

/-- `for (i = i0; i < i0 + n; ++i)`, e.g. `test_rank_select_common.hpp:9` -/
def forUp {σ : Type} (f : Nat → σ → Option σ) : Nat → Nat → σ → Option σ
  | 0, _, s => some s
  | n + 1, i, s => f i s >>= forUp f n (i + 1)

/-- `for (i = n - 1; i + 1 > 0; --i)`, e.g. `test_rank_select_common.hpp:37` -/
def forDown {σ : Type} (f : Nat → σ → Option σ) : Nat → σ → Option σ
  | 0, s => some s
  | n + 1, s => f n s >>= forDown f n

/-! ## `test_rank_select_common.hpp` -/

/-- `test_equal_bits`, `test_rank_select_common.hpp:5-13` -/
def equalBits (v : List Bool) (size : Nat) (access : Nat → Option Bool) : Option Unit := do
  assertP (v.length = size)
  forUp (fun i _ => do
    let b ← access i
    let x ← rd v i
    assertP (x = b)) v.length 0 ()

/-- the members of `Vector` that `test_rank_select1` (for `test_rank_select0`: those ending in 0) calls, `test_rank_select_common.hpp:16-83` -/
structure RankSelect where
  rank : Nat → Option Nat
  select : Nat → Option Nat
  predecessor : Nat → Option Nat
  successor : Nat → Option Nat

/-- body of the first loop, `test_rank_select_common.hpp:21-34` (bit 0) and `55-70` (bit 1); the state is `cur_rank` and `last_one` -/
def rankUp (b : Bool) (v : List Bool) (t : RankSelect) (i : Nat) (s : Nat × Option Nat) : Option (Nat × Option Nat) := do
  let r ← t.rank i
  assertP (s.1 = r)
  let x ← rd v i
  let s ← if x = b then do
      let q ← t.select s.1
      assertP (i = q)
      pure (s.1 + 1, some i)
    else some s
  match s.2 with
  | some q => do
    let p ← t.predecessor i
    assertP (q = p)
    pure s
  | none => pure s

/-- body of the second loop, `test_rank_select_common.hpp:37-46` and `73-82` -/
def rankDown (b : Bool) (v : List Bool) (t : RankSelect) (i : Nat) (s : Option Nat) : Option (Option Nat) := do
  let x ← rd v i
  let s := if x = b then some i else s
  match s with
  | some q => do
    let p ← t.successor i
    assertP (q = p)
    pure s
  | none => pure s

/-- `test_rank_select0` and `test_rank_select1`, `test_rank_select_common.hpp:15-83` -/
def rankSelect (b : Bool) (v : List Bool) (t : RankSelect) : Option Unit := do
  let _ ← forUp (rankUp b v t) v.length 0 (0, none)
  let _ ← forDown (rankDown b v t) v.length none
  pure ()

/-- `test_delta`, `test_rank_select_common.hpp:92-106`; the difference is one of `uint64_t` -/
def delta (numOnes : Nat) (select delta : Nat → Option Word) : Option Unit :=
  forUp (fun i _ =>
    if i ≠ 0 then do
      let x ← select i
      let y ← select (i - 1)
      let d ← delta i
      assertP (x - y = d)
    else do
      let x ← select i
      let d ← delta i
      assertP (x = d)) numOnes 0 ()

/-- `test_select_enumeration`, `test_rank_select_common.hpp:108-123`, from the enumerator at 0 on -/
def selectEnumeration {σ : Type} (next : σ → Option (Word × σ)) (v : List Bool) (e : σ) : Option Unit := do
  let _ ← forUp (fun i e => do
    let x ← rd v i
    if x then do
      let (res, e) ← next e
      assertP (i = res.toNat)
      pure e
    else pure e) v.length 0 e
  pure ()

/-! ## `test_rs_bit_vector.cpp` and `test_elias_fano.cpp` -/

/-- the queries of `rs_bit_vector` called by `test_rank_select0` and `test_rank_select1`, `test_rank_select_common.hpp:15-83` -/
def rsQueries (t : RSBitVector) : Bool → RankSelect
  | true => ⟨t.rank, t.select, t.bv.predecessor1, t.bv.successor1⟩
  | false => ⟨t.rank0, t.select0, t.bv.predecessor0, t.bv.successor0⟩

/-- the checks on a `rs_bit_vector` made from `v`, `test_rs_bit_vector.cpp:27-33` -/
def rsBitVector (v : List Bool) (hints hints0 : Bool) : Option Unit := do
  let t ← RSBitVector.build (BitVector.ofRange v) hints hints0
  equalBits v t.bv.size t.bv.access
  rankSelect false v (rsQueries t false)
  rankSelect true v (rsQueries t true)

/-- the queries of `elias_fano` called by `test_rank_select1`, `test_rank_select_common.hpp:49-83` -/
def efQueries (ov : Word → Nat → Word) (ef : EliasFano) : RankSelect where
  rank i := ef.rank ov (BitVec.ofNat 64 i)
  select k := (ef.select ov k).map BitVec.toNat
  predecessor i := (ef.predecessor1 ov (BitVec.ofNat 64 i)).map BitVec.toNat
  successor i := (ef.successor1 ov (BitVec.ofNat 64 i)).map BitVec.toNat

/-- the checks on an `elias_fano` made from the bits `v`, `test_elias_fano.cpp:22-31` -/
def eliasFano (ov : Word → Nat → Word) (v : List Bool) : Option Unit := do
  let b ← Builder.new 0 false
  let b ← v.foldlM Builder.pushBack b
  let ef ← EliasFano.ofBitmap b true
  equalBits v ef.size.toNat (fun i => ef.access ov (BitVec.ofNat 64 i))
  rankSelect true v (efQueries ov ef)
  delta ef.numOnes (ef.select ov) (ef.delta ov)
  let e ← EliasFano.SelEnum.new ef 0
  selectEnumeration (EliasFano.SelEnum.next ef) v e

/-! ## `test_darray.cpp` -/

/-- `test_darray`, `test_darray.cpp:11-33` -/
def darray (v : List Bool) : Option Unit := do
  let bv := BitVector.ofRange v
  let d1 ← Darray.build false bv
  let d0 ← Darray.build true bv
  let s ← forUp (fun i (s : Nat × Nat) => do
    let x ← rd v i
    if x then do
      let q ← d1.select false bv s.1
      assertP (i = q)
      pure (s.1 + 1, s.2)
    else do
      let q ← d0.select true bv s.2
      assertP (i = q)
      pure (s.1, s.2 + 1)) v.length 0 (0, 0)
  assertP (s.1 = d1.positions)
  assertP (s.2 = d0.positions)

/-! ## `test_bp_vector_common.hpp` -/

/-- `random_binary_tree_helper`, `test_bp_vector_common.hpp:6-24`: the bits appended, and how many values of `rand()` have been used.
`fuel` bounds the depth of the recursion. -/
def treeHelper (rand : Nat → Nat) : Nat → Nat → Nat → Option (List Bool × Nat)
  | 0, _, _ => none
  | fuel + 1, size, k => do
    assertP (size % 2 = 1)
    if size = 1 then pure ([false], k)
    else do
      let left := 2 * (rand k % (size - 1) / 2) + 1
      assertP (left ≥ 1)
      let right ← subU (size - 1) left
      assertP (right ≥ 1)
      assertP (left + right + 1 = size)
      let (l, k) ← treeHelper rand fuel left (k + 1)
      let (r, k) ← treeHelper rand fuel right k
      pure (true :: (l ++ r), k)

/-- `random_binary_tree`, `test_bp_vector_common.hpp:28-35` -/
def binaryTree (rand : Nat → Nat) (size : Nat) : Option (List Bool) := do
  assertP (size % 2 = 0 ∧ size ≥ 2)
  let (l, _) ← treeHelper rand size (size - 1) 0
  pure (true :: l)

/-- the first loop of `random_bp`, `test_bp_vector_common.hpp:41-48`; `big i` tells if the value of `rand()` is above `RAND_MAX / 2` -/
def bpLoop (big : Nat → Bool) : Nat → Nat → Int → Option (List Bool × Int)
  | 0, _, excess => some ([], excess)
  | n + 1, i, excess => do
    let val := if excess ≤ 1 ∧ big i = false then true else big i
    let excess ← i32 (excess + if val then 1 else -1)
    let (l, excess) ← bpLoop big n (i + 1) excess
    pure (val :: l, excess)

/-- `random_bp`, `test_bp_vector_common.hpp:37-53`; `size_t(excess)` of a negative number would be huge -/
def randomBp (big : Nat → Bool) (sizeEst : Nat) : Option (List Bool) := do
  let (l, excess) ← bpLoop big sizeEst 0 0
  pure (l ++ List.replicate (excess % 2^64).toNat false)

/-- `bp_path`, `test_bp_vector_common.hpp:55-65` -/
def bpPath (size : Nat) : Option (List Bool) := do
  assertP (size % 2 = 0)
  pure (List.replicate (size / 2) true ++ List.replicate (size / 2) false)

/-! ## `test_bp_vector.cpp` -/

/-- the members of `BPVector` that `test_parentheses` calls, `test_bp_vector.cpp:36-48` -/
structure Parens where
  size : Nat
  enclose : Nat → Option Nat
  findClose : Nat → Option Nat
  findOpen : Nat → Option Nat

/-- local variables, `test_bp_vector.cpp:14-17`; the head of `stack` is its top -/
structure ParenState where
  stack : List Nat
  open_ : List Nat
  close : List Nat
  enclose : List (Option Nat)

/-- body of the first loop, `test_bp_vector.cpp:19-33` -/
def parenStep (v : List Bool) (i : Nat) (s : ParenState) : Option ParenState := do
  let x ← rd v i
  if x then
    match s.stack with
    | [] => pure { s with stack := [i] }
    | t :: st => do
      let e ← wr s.enclose i (some t)
      pure { s with enclose := e, stack := i :: t :: st }
  else
    match s.stack with
    | [] => none
    | o :: st => do
      let c ← wr s.close o i
      let p ← wr s.open_ i o
      pure { s with close := c, open_ := p, stack := st }

/-- body of the second loop, `test_bp_vector.cpp:36-48` -/
def parenCheck (v : List Bool) (t : Parens) (s : ParenState) (i : Nat) : Option Unit := do
  let x ← rd v i
  if x then do
    let e ← rd s.enclose i
    match e with
    | some p => do
      let q ← t.enclose i
      assertP (p = q)
    | none => pure ()
    let c ← rd s.close i
    let q ← t.findClose i
    assertP (c = q)
  else do
    let o ← rd s.open_ i
    let q ← t.findOpen i
    assertP (o = q)

/-- `test_parentheses`, `test_bp_vector.cpp:11-49`, for a `v` of zeros and ones -/
def parentheses (v : List Bool) (t : Parens) : Option Unit := do
  let n := v.length
  let s ← forUp (parenStep v) n 0 ⟨[], List.replicate n 0, List.replicate n 0, List.replicate n none⟩
  assertP (s.stack = [])
  forUp (fun i _ => parenCheck v t s i) t.size 0 ()

/-! ## `test_bp_vector_rmq.cpp` -/

/-- the members of `BPVector` that `test_rmq` calls, `test_bp_vector_rmq.cpp:35-48`; `enumAt` is the constructor of the enumerator and `excessRmq`
gives the position and the value stored in `found_min_exc` -/
structure Rmq (σ : Type) where
  enumAt : Nat → σ
  next : σ → Option (Bool × σ)
  excess : Nat → Option Int
  excessRmq : Nat → Nat → Option (Nat × Int)

/-- `bp_it`, `cur_exc`, `min_exc` and `min_idx`, `test_bp_vector_rmq.cpp:35-38` -/
structure RmqState (σ : Type) where
  it : σ
  cur : Int
  min : Int
  idx : Nat

/-- body of the inner loop, `test_bp_vector_rmq.cpp:42-58` -/
def rmqStep {σ : Type} (t : Rmq σ) (a b : Nat) (s : RmqState σ) : Option (RmqState σ) := do
  let (x, it) ← t.next s.it
  let cur ← i32 (s.cur + if x then 1 else -1)
  let s ← if cur < s.min then do
      let e ← t.excess b
      assertP (cur = e)
      pure ⟨it, cur, cur, b⟩
    else pure ⟨it, cur, s.min, s.idx⟩
  let (p, _) ← t.excessRmq a b
  assertP (s.idx = p)
  pure s

/-- body of the outer loop, `test_bp_vector_rmq.cpp:32-59` -/
def rmqFrom {σ : Type} (v : List Bool) (t : Rmq σ) (a : Nat) : Option Unit :=
  if a > v.length then pure ()
  else do
    let e ← t.excess a
    let (p, _) ← t.excessRmq a a
    assertP (a = p)
    let _ ← forUp (rmqStep t a) (v.length - (a + 1)) (a + 1) ⟨t.enumAt a, e, e, a⟩
    pure ()

/-- `test_rmq`, `test_bp_vector_rmq.cpp:12-60` -/
def rmq {σ : Type} (rand : Nat → Nat) (v : List Bool) (t : Rmq σ) : Option Unit :=
  if v = [] then pure ()
  else ([1, 8, 64, 8192, v.length] ++ (List.range 10).map fun k => rand k % v.length).forM (rmqFrom v t)

/-! ## `test_cartesian_tree.cpp` -/

/-- `std::min_element`, called at `test_cartesian_tree.cpp:27`: the first of the elements that no other is smaller than -/
def minElement {α : Type} (comp : α → α → Bool) : List α → Nat
  | [] => 0
  | x :: l => (l.zipIdx 1).foldl (fun s y => if comp y.1 s.1 then y else s) (x, 0) |>.2

/-- body of the inner loop, `test_cartesian_tree.cpp:43-58`; the state is `cur_min` and `min_idx` -/
def cartStep {α : Type} (comp : α → α → Bool) (v : List α) (rmq : Nat → Nat → Option Nat) (a b : Nat) (s : α × Nat) : Option (α × Nat) := do
  let x ← rd v b
  let s := if comp x s.1 then (x, b) else s
  let p ← rmq a b
  assertP (s.2 = p)
  pure s

/-- body of the outer loop, `test_cartesian_tree.cpp:34-59` -/
def cartFrom {α : Type} (comp : α → α → Bool) (v : List α) (rmq : Nat → Nat → Option Nat) (a : Nat) : Option Unit :=
  if a > v.length then pure ()
  else do
    let x ← rd v a
    let p ← rmq a a
    assertP (a = p)
    let _ ← forUp (cartStep comp v rmq a) (v.length - (a + 1)) (a + 1) (x, a)
    pure ()

/-- `test_rmq`, `test_cartesian_tree.cpp:14-60` -/
def cartesian {α : Type} (comp : α → α → Bool) (rand : Nat → Nat) (v : List α) (size : Nat) (rmq : Nat → Nat → Option Nat) : Option Unit := do
  assertP (v.length = size)
  if v = [] then pure ()
  else ([0, 1, minElement comp v] ++ (List.range 10).map fun k => rand k % v.length).forM (cartFrom comp v rmq)

/-! ## `test_topk_vector.cpp` -/

/-- `value_index_comparator`, `test_topk_vector.cpp:17-28` -/
def viLess (x y : Word × Nat) : Bool := x.1 > y.1 || (x.1 == y.1 && decide (x.2 < y.2))

/-- what the standard promises of `std::sort`, called at `test_topk_vector.cpp:59` -/
structure SortOk {β : Type} (lt : β → β → Bool) (sort : List β → List β) : Prop where
  perm : ∀ l, (sort l).Perm l
  sorted : ∀ l, (sort l).Pairwise fun x y => lt y x = false

/-- one pair of the sample, `test_topk_vector.cpp:51-66`; `k` is 10 -/
def topkPair (sort : List (Word × Nat) → List (Word × Nat)) (v : List Word) (topk : Nat → Nat → Nat → Option (List (Word × Nat)))
    (r : Nat × Nat) : Option Unit := do
  let expected ← forUp (fun i acc => do
    let x ← rd v i
    pure (acc ++ [(x, i)])) (r.2 + 1 - r.1) r.1 []
  let found ← topk r.1 r.2 10
  assertP ((sort expected).take 10 = found)

/-- `test_topk`, `test_topk_vector.cpp:30-67` -/
def topk (sort : List (Word × Nat) → List (Word × Nat)) (rand : Nat → Nat) (v : List Word) (size : Nat)
    (topk : Nat → Nat → Nat → Option (List (Word × Nat))) : Option Unit := do
  assertP (v.length = size)
  if v = [] then pure ()
  else ((List.range 100).map fun i =>
    let a := rand (2 * i) % v.length
    (a, a + rand (2 * i + 1) % (v.length - a))).forM (topkPair sort v topk)

/-! ## `test_gamma_vector.cpp`, `test_gamma_bit_vector.cpp`, `test_elias_fano_compressed_list.cpp` -/

/-- the checks on a container, `test_gamma_vector.cpp:25-28`, `test_gamma_bit_vector.cpp:34-37` and
`test_elias_fano_compressed_list.cpp:25-28` -/
def container (v : List Word) (size : Option Nat) (get : Nat → Option Word) : Option Unit := do
  let n ← size
  assertP (v.length = n)
  forUp (fun i _ => do
    let x ← rd v i
    let y ← get i
    assertP (x = y)) v.length 0 ()

/-- the loop of the tests of the enumerators, `test_gamma_vector.cpp:51-61`, `test_gamma_bit_vector.cpp:51-61` and
`test_bit_vector.cpp:90-99`; `e` is the enumerator at `pos` and `k` counts the calls of `rand()` -/
def jumps {σ β : Type} [DecidableEq β] (enumAt : Nat → Option σ) (next : σ → Option (β × σ)) (rand : Nat → Nat) (v : List β) (size : Nat) :
    Nat → Nat → Nat → σ → Option Unit
  | 0, _, _, _ => none
  | fuel + 1, k, pos, e =>
    if pos < size then do
      let (x, _) ← next e
      let y ← rd v pos
      assertP (x = y)
      let room ← subU size (pos + 1)
      let pos := pos + 1 + rand k % (room + 1)
      let e ← enumAt pos
      jumps enumAt next rand v size fuel (k + 1) pos e
    else pure ()

/-! ## `test_bit_vector.cpp` -/

/-- positions of the ones, `test_bit_vector.cpp:116-121` -/
def ones (v : List Bool) : List Nat := (List.range v.length).filter fun i => v[i]? == some true

/-- `test_bit_vector.cpp:123-131` -/
def unaryNext (bits : List Word) (os : List Nat) : Option Unit := do
  let e ← UEnum.new bits 0
  let _ ← forUp (fun r e => do
    let (pos, e) ← e.next bits
    let x ← rd os r
    assertP (x = pos)
    pure e) os.length 0 e
  pure ()

/-- `test_bit_vector.cpp:133-146` -/
def unarySkip (bits : List Word) (os : List Nat) : Option Unit := do
  let e ← UEnum.new bits 0
  let _ ← forUp (fun r e => do
    forUp (fun k _ => do
      let ee ← e.skip bits k
      let (pos, _) ← ee.next bits
      let x ← rd os (r + k)
      assertP (x = pos)) (min 256 (os.length - r)) 0 ()
    let (_, e) ← e.next bits
    pure e) os.length 0 e
  pure ()

/-- `test_bit_vector.cpp:148-164` -/
def unarySkipNoMove (bits : List Word) (os : List Nat) : Option Unit := do
  let e ← UEnum.new bits 0
  let _ ← forUp (fun r e => do
    forUp (fun k _ => do
      let skip ← e.skipNoMove bits k
      let (pos, _) ← e.next bits
      let x ← rd os r
      assertP (x = pos)
      let y ← rd os (r + k)
      assertP (y = skip)) (min 256 (os.length - r)) 0 ()
    let (_, e) ← e.next bits
    pure e) os.length 0 e
  pure ()

/-- the scan `for (; !v[expected_pos] && expected_pos < v.size(); ++expected_pos);`, `test_bit_vector.cpp:177` -/
def scan (v : List Bool) : Nat → Nat → Option Nat
  | 0, _ => none
  | fuel + 1, p => do
    let x ← rd v p
    if x = false ∧ p < v.length then scan v fuel (p + 1) else pure p

/-- the loop over `d`, `test_bit_vector.cpp:171-185`, from `d` on with `n` rounds left -/
def unarySkip0At (bits : List Word) (v : List Bool) (pos : Nat) : Nat → Nat → Nat → Option Unit
  | 0, _, _ => pure ()
  | n + 1, d, skip => do
    let x ← rd v (pos + d)
    if x = false then do
      let ee ← UEnum.new bits pos
      let ee ← ee.skip0 bits skip
      let p ← scan v (v.length + 1) (pos + d)
      let y ← rd v p
      if y = false then pure ()
      else do
        let (q, _) ← ee.next bits
        assertP (p = q)
        unarySkip0At bits v pos n (d + 1) (skip + 1)
    else unarySkip0At bits v pos n (d + 1) skip

/-- `test_bit_vector.cpp:166-187` -/
def unarySkip0 (bits : List Word) (v : List Bool) : Option Unit := do
  let _ ← UEnum.new bits 0
  forUp (fun pos _ => unarySkip0At bits v pos (min 256 (v.length - pos)) 0 0) v.length 0 ()

/-- `test_bvb_reverse`, `test_bit_vector.cpp:190-203`, for the bits `v` -/
def bvbReverse (v : List Bool) : Option Unit := do
  let b ← Builder.new 0 false
  let b ← v.foldlM (fun b x => b.pushBack x) b
  let b ← b.reverse
  let bv ← BitVector.ofBuilder b
  equalBits v.reverse bv.size bv.access

/-! ## The drivers on the objects of the library -/

/-- `test_bit_vector.cpp:17-25` -/
def bitVectorPush (v : List Bool) : Option Unit := do
  let b ← Builder.new 0 false
  let b ← v.foldlM Builder.pushBack b
  let bv ← BitVector.ofBuilder b
  equalBits v bv.size bv.access

/-- `test_bit_vector.cpp:27-39` -/
def bitVectorSet (v : List Bool) : Option Unit := do
  let b ← Builder.new v.length false
  let b ← forUp (fun i b => do
    let x ← rd v i
    b.set i x) v.length 0 b
  let b ← b.pushBack false
  let b ← b.pushBack true
  let bv ← BitVector.ofBuilder b
  equalBits (v ++ [false, true]) bv.size bv.access

/-- `test_bit_vector.cpp:42-55`, for the integers `ints` -/
def bitVectorAppend (ov : Word → Nat → Word) (ints : List Word) : Option Unit := do
  let b ← Builder.new 0 false
  let b ← ints.foldlM (fun b i => do
    let m ← Broadword.msb1 i
    b.appendBits i (m + 1)) b
  let bv ← BitVector.ofBuilder b
  let _ ← ints.foldlM (fun pos i => do
    let m ← Broadword.msb1 i
    let x ← bv.getBits ov pos (m + 1)
    assertP (i = x)
    pure (pos + (m + 1))) 0
  pure ()

/-- `test_bit_vector.cpp:59-62`: the end of `positions` and what follows -/
def positions : List Word → Nat → Option (List Nat)
  | [], p => some [p]
  | i :: ints, p => do
    let m ← Broadword.msb1 i
    let ps ← positions ints (p + m + 1)
    pure (p :: ps)

/-- `test_bit_vector.cpp:57-78`, for the integers `ints` -/
def bitVectorSetBits (ov : Word → Nat → Word) (ints : List Word) : Option Unit := do
  let ps ← positions ints 0
  let back ← ps.getLast?
  let b ← Builder.new back false
  let n ← subU ps.length 1
  let b ← forUp (fun i b => do
    let v ← rd ints i
    let q ← rd ps (i + 1)
    let p ← rd ps i
    let len ← subU q p
    b.setBits p v len) n 0 b
  let bv ← BitVector.ofBuilder b
  forUp (fun i _ => do
    let v ← rd ints i
    let q ← rd ps (i + 1)
    let p ← rd ps i
    let len ← subU q p
    let x ← bv.getBits ov p len
    assertP (v = x)) n 0 ()

/-- `bit_vector_enumerator`, `test_bit_vector.cpp:84-99` -/
def bitVectorEnum (rand : Nat → Nat) (v : List Bool) : Option Unit :=
  let bv := BitVector.ofRange v
  jumps (fun p => some (Enum.new p)) (Enum.next bv) rand v bv.size (v.length + 1) 0 0 (Enum.new 0)

/-- the members of `bp_vector` called by `test_parentheses`, `test_bp_vector.cpp:36-48` -/
def bpParens (ov : Word → Nat → Word) (t : BpVector) : Parens := ⟨t.rs.bv.size, t.enclose ov, t.findClose ov, t.findOpen ov⟩

/-- `test_bp_vector.cpp:64-65`, `73-74` and `87-88`, for the vector `v` -/
def bpVector (ov : Word → Nat → Word) (v : List Bool) : Option Unit := do
  let t ← BpVector.build (BitVector.ofRange v) false false
  parentheses v (bpParens ov t)

/-- the members of `bp_vector` called by `test_rmq`, `test_bp_vector_rmq.cpp:32-59` -/
def bpRmqOps (t : BpVector) : Rmq Enum := ⟨Enum.new, Enum.next t.rs.bv, t.excess, t.excessRmq⟩

/-- `test_bp_vector_rmq.cpp:75-76`, `84-85` and `98-99`, for the vector `v` -/
def bpRmq (rand : Nat → Nat) (v : List Bool) : Option Unit := do
  let t ← BpVector.build (BitVector.ofRange v) false false
  rmq rand v (bpRmqOps t)

/-- `test_cartesian_tree.cpp:79-80` and the like, for the vector `v` -/
def cartesianTree {α : Type} (comp : α → α → Bool) (rand : Nat → Nat) (v : List α) : Option Unit := do
  let t ← CartesianTree.build comp v
  let n ← t.size
  cartesian comp rand v n t.rmq

/-- `test_topk_vector.cpp:93-94` and `106-107`, for the vector `v`; the container is `elias_fano_compressed_list` (line 74) -/
def topkVector (ov : Word → Nat → Word) (h : HeapOps (QElem Word)) (sort : List (Word × Nat) → List (Word × Nat)) (rand : Nat → Nat)
    (v : List Word) : Option Unit := do
  let c := Container.efCompressedList ov
  let t ← TopKOver.build c (fun a b => decide (a < b)) id v
  let n ← t.size c
  topk sort rand v n (t.topk c h)

/-- `test_gamma_vector.cpp:23-28` -/
def gammaVector (ov : Word → Nat → Word) (v : List Word) : Option Unit := do
  let g ← GammaVector.build v
  container v g.size (GammaVector.get ov g)

/-- `test_gamma_vector.cpp:46-61` -/
def gammaVectorEnum (rand : Nat → Nat) (v : List Word) : Option Unit := do
  let g ← GammaVector.build v
  let e ← GammaVector.enumNew g 0
  let n ← g.size
  jumps (GammaVector.enumNew g) (GammaVector.enumNext g) rand v n (n + 1) 0 0 e

/-- `test_gamma_bit_vector.cpp:32-37` -/
def gammaBitVector (ov : Word → Nat → Word) (v : List Word) : Option Unit := do
  let g ← GammaBitVector.build v
  container v g.size (GammaBitVector.get ov g)

/-- `test_gamma_bit_vector.cpp:46-61` -/
def gammaBitVectorEnum (rand : Nat → Nat) (v : List Word) : Option Unit := do
  let g ← GammaBitVector.build v
  let e ← GammaBitVector.enumNew g 0
  let n ← g.size
  jumps (GammaBitVector.enumNew g) (GammaBitVector.enumNext g) rand v n (n + 1) 0 0 e

/-- `test_elias_fano_compressed_list.cpp:23-28` -/
def compressedList (ov : Word → Nat → Word) (v : List Word) : Option Unit := do
  let t ← EFCompressedList.build v
  container v t.size (t.get ov)

/-- `bit_vector_unary_enumerator`, `test_bit_vector.cpp:114-187` -/
def unaryEnumerator (v : List Bool) : Option Unit := do
  let bits := (BitVector.ofRange v).bits
  let os := ones v
  unaryNext bits os
  unarySkip bits os
  unarySkipNoMove bits os
  unarySkip0 bits v

end Test
end Succinct
