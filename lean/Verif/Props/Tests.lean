import Verif.Lemmas.TestPassSeq
import Verif.Lemmas.TestGen

/-!
# C105–C107: the tests of the project

`C105`: what a driver of the tests accepts, exactly.  The tested object is arbitrary: it may be any functions at all.  So these theorems tell which
wrong implementations a test can tell from a right one.  `C106`: the generators of the tests produce balanced sequences.  `C107`: the
library passes its drivers for every input (not only for the ones the tests use) and every sequence of values of `rand()`.
-/
namespace Succinct
open Spec

/-- **C105**, `test_equal_bits` accepts exactly the vectors with the right size and bits. -/
theorem C105_equal_bits (v : List Bool) (size : Nat) (access : Nat → Option Bool) :
    Test.equalBits v size access = some () ↔ size = v.length ∧ ∀ i, i < v.length → access i = v[i]? :=
  Test.equalBits_iff v size access

/-- **C105**, `test_rank_select0` (for `b = false`) and `test_rank_select1` accept exactly the right answers at the positions inside of the
vector: `rank(size())` and queries without an answer are not tested. -/
theorem C105_rank_select (b : Bool) (v : List Bool) (t : Test.RankSelect) :
    Test.rankSelect b v t = some () ↔
      (∀ i, i < v.length → t.rank i = some ((v.take i).count b)) ∧
      (∀ i, v[i]? = some b → t.select ((v.take i).count b) = some i) ∧
      (∀ i q, i < v.length → IsPred b v i q → t.predecessor i = some q) ∧
      (∀ i q, i < v.length → IsSucc b v i q → t.successor i = some q) :=
  Test.rankSelect_iff b v t

/-- **C105**: on a vector without ones `test_rank_select1` accepts any `select`, `predecessor1` and `successor1`. -/
theorem C105_rank_select_blind (n : Nat) (t : Test.RankSelect) (h : ∀ i, i < n → t.rank i = some 0) :
    Test.rankSelect true (List.replicate n false) t = some () := by
  have hno : ∀ i : Nat, (List.replicate n false)[i]? ≠ some true := by
    intro i hc
    have := List.mem_of_getElem? hc
    simp at this
  refine (C105_rank_select true _ t).2 ⟨fun i hi => ?_, fun i hi => absurd hi (hno i), fun i q _ hq => absurd hq.2.1 (hno q),
    fun i q _ hq => absurd hq.2.1 (hno q)⟩
  rw [List.length_replicate] at hi
  rw [h i hi, List.take_replicate, List.count_replicate]
  simp

/-- **C105**, `test_delta`, for a right `select`, accepts exactly the right gaps. -/
theorem C105_delta (xs : List Word) (select dl : Nat → Option Word) (hs : ∀ i, i < xs.length → select i = xs[i]?) :
    Test.delta xs.length select dl = some () ↔ ∀ i x, xs[i]? = some x → dl i = some (x - (if i = 0 then 0 else xs.getD (i-1) 0)) :=
  Test.delta_iff xs select dl hs

/-- **C105**, `test_select_enumeration` accepts exactly the enumerators whose first values are the positions of the ones. -/
theorem C105_select_enumeration {σ : Type} (next : σ → Option (Word × σ)) (v : List Bool) (e : σ) :
    Test.selectEnumeration next v e = some () ↔ ∃ ws, Test.pull next (Test.ones v).length e = some ws ∧ ws.map BitVec.toNat = Test.ones v :=
  Test.selectEnumeration_iff next v e

/-- **C105**, `test_parentheses` accepts exactly: a balanced sequence, and the right answers at the positions below the size the tested object
claims, which may be too small.  Of the pairs without an enclosing pair nothing is asked. -/
theorem C105_parentheses (v : List Bool) (t : Test.Parens) :
    Test.parentheses v t = some () ↔ Bal v ∧ t.size ≤ v.length ∧
      (∀ i j, Matching v i j → i < t.size → t.findClose i = some j) ∧
      (∀ i j, Matching v i j → j < t.size → t.findOpen j = some i) ∧
      (∀ i j p, Matching v i j → IsEnclose v i j p → i < t.size → t.enclose i = some p) :=
  Test.parentheses_iff v t

/-- **C105**: an object that claims to be empty passes `test_parentheses`, whatever its queries do. -/
theorem C105_parentheses_blind (v : List Bool) (hv : Bal v) (t : Test.Parens) (h : t.size = 0) : Test.parentheses v t = some () :=
  (C105_parentheses v t).2 ⟨hv, by omega, fun i j _ g => by omega, fun i j _ g => by omega, fun i j p _ _ g => by omega⟩

/-- **C105**, `test_rmq` of `bp_vector`: for all sequences of values of `rand()` together it accepts exactly the right positions, if the enumerator
and `excess` are right.  The excess stored by `excess_rmq` is not tested. -/
theorem C105_rmq {σ : Type} (v : List Bool) (t : Test.Rmq σ) (At : Nat → σ → Prop) (hs : Test.Streams v t At)
    (hexc : ∀ p, p ≤ v.length → t.excess p = some (excess v p)) (hlen : v.length < 2^31) :
    (∀ rand, Test.rmq rand v t = some ()) ↔ v = [] ∨ (∃ e, t.excessRmq v.length v.length = some (v.length, e)) ∧
      ∀ a b, a ≤ b → b < v.length → ∃ p e, t.excessRmq a b = some (p, e) ∧ IsExcessRmq v a b p :=
  Test.rmq_iff v t At hs hexc hlen

/-- **C105**, `test_rmq` of `cartesian_tree`: for all sequences of values of `rand()` together it accepts exactly the right positions.  With one
value it reads `v[1]` outside of the vector (`test_cartesian_tree.cpp:36` compares with `>`). -/
theorem C105_cartesian {α : Type} (comp : α → α → Bool) (ho : StrictWeak comp) (v : List α) (size : Nat) (rmq : Nat → Nat → Option Nat) :
    (∀ rand, Test.cartesian comp rand v size rmq = some ()) ↔ size = v.length ∧ (v = [] ∨ 2 ≤ v.length ∧
      ∀ a b, a ≤ b → b < v.length → ∃ m, rmq a b = some m ∧ IsLeftmostMin comp v a b m) :=
  Test.cartesian_iff comp ho v size rmq

/-- **C105**, `test_topk`: for all sequences of values of `rand()` together it accepts exactly the first ten entries of the ranking. -/
theorem C105_topk {sort : List (Word × Nat) → List (Word × Nat)} (hs : Test.SortOk Test.viLess sort) (v : List Word) (size : Nat)
    (tk : Nat → Nat → Nat → Option (List (Word × Nat))) :
    (∀ rand, Test.topk sort rand v size tk = some ()) ↔ size = v.length ∧
      ∀ a b, a ≤ b → b < v.length → ∃ s, IsRanking wordOps.lt v a b s ∧ tk a b 10 = some (s.take 10) := by
  rw [Test.topk_iff hs]
  refine and_congr Iff.rfl ⟨fun h a b hab hb => ⟨_, Test.sort_ranking hs v a b, h a b hab hb⟩, fun h a b hab hb => ?_⟩
  obtain ⟨s, s1, s2⟩ := h a b hab hb
  rw [s2, C38_unique wordOps wordOps_total v a b s _ s1 (Test.sort_ranking hs v a b)]

/-- **C105**, the loops of the tests of the containers accept exactly the containers with the right size and values. -/
theorem C105_container (v : List Word) (size : Option Nat) (get : Nat → Option Word) :
    Test.container v size get = some () ↔ size = some v.length ∧ ∀ i, i < v.length → get i = v[i]? :=
  Test.container_iff v size get

/-- a rank that is off by one at a position is rejected, and so is a `select` that returns the position before -/
example : Test.rankSelect true [true, false, true] ⟨fun i => some ([0, 1, 2][i]?.getD 0), fun k => [0, 2][k]?, fun i => [0, 0, 2][i]?, fun i => [0, 2, 2][i]?⟩ = none ∧
    Test.rankSelect true [true, false, true] ⟨fun i => [0, 1, 1][i]?, fun k => [0, 1][k]?, fun i => [0, 0, 2][i]?, fun i => [0, 2, 2][i]?⟩ = none ∧
    Test.rankSelect true [true, false, true] ⟨fun i => [0, 1, 1][i]?, fun k => [0, 2][k]?, fun i => [0, 0, 2][i]?, fun i => [0, 2, 2][i]?⟩ = some () := by
  decide +kernel

/-- the right answers for `(()())` pass, a wrong `enclose` does not, and one at position 0 is not looked at -/
example : Test.parentheses [true, true, false, true, false, false] ⟨6, fun i => [7, 0, 0, 0][i]?, fun i => [5, 2, 0, 4][i]?, fun i => [0, 0, 1, 0, 3, 0][i]?⟩ = some () ∧
    Test.parentheses [true, true, false, true, false, false] ⟨6, fun i => [7, 0, 0, 1][i]?, fun i => [5, 2, 0, 4][i]?, fun i => [0, 0, 1, 0, 3, 0][i]?⟩ = none := by
  decide +kernel

/-- with one value the driver of `cartesian_tree` reads outside of the vector, whatever `rand()` gives -/
theorem C105_cartesian_one {α : Type} (comp : α → α → Bool) (x : α) (rmq : Nat → Nat → Option Nat) (rand : Nat → Nat) :
    Test.cartesian comp rand [x] 1 rmq = none := by
  have h1 : Test.cartFrom comp [x] rmq 1 = none := by
    unfold Test.cartFrom
    rw [if_neg (by simp)]
    rfl
  unfold Test.cartesian
  rw [assertP_eq _ (by simp), bind_pure_some, if_neg (by simp), List.cons_append, List.cons_append]
  simp only [List.forM_eq_forM, List.forM_cons, h1]
  cases Test.cartFrom comp [x] rmq 0 <;> rfl

/-- **C106**, `random_binary_tree`, for every sequence of values of `rand()`: a balanced sequence of the size asked for, in one pair of parentheses. -/
theorem C106_binary_tree (rand : Nat → Nat) (size : Nat) (h : size % 2 = 0) (h2 : 2 ≤ size) :
    ∃ l, Test.binaryTree rand size = some l ∧ Bal l ∧ l.length = size ∧ Matching l 0 (size - 1) := by
  obtain ⟨a, e, ha, hl⟩ := Test.binaryTree_ok rand size h h2
  have hlen : a.length + 2 = size := by rw [← hl]; simp
  refine ⟨_, e, ?_, hl, by omega, rfl, ?_, ?_⟩
  · exact Bal.node ha .nil
  · rw [show size - 1 = (true :: a).length from by simp; omega, List.getElem?_append_right (Nat.le_refl _), Nat.sub_self]; rfl
  · have : between (true :: a ++ [false]) 0 (size - 1) = a := by
      unfold between
      rw [show size - 1 = (true :: a).length from by simp; omega, List.take_left]; rfl
    rw [this]; exact ha

/-- **C106**, `random_bp`, for every sequence of values of `rand()`: a balanced sequence of between `size_est` and twice as many bits, in one
pair of parentheses. -/
theorem C106_random_bp (big : Nat → Bool) (n : Nat) (hn : n < 2^31) :
    ∃ l, Test.randomBp big n = some l ∧ Bal l ∧ n ≤ l.length ∧ l.length ≤ 2 * n ∧ (0 < n → Matching l 0 (l.length - 1)) :=
  Test.randomBp_ok big n hn

/-- **C106**, `bp_path`: the nested pairs. -/
theorem C106_bp_path (size : Nat) (h : size % 2 = 0) : ∃ l, Test.bpPath size = some l ∧ Bal l ∧ l.length = size ∧
    ∀ i, i < size / 2 → Matching l i (size - 1 - i) :=
  Test.bpPath_ok size h

/-- six values of `rand()` and the tree they give -/
example : Test.binaryTree (fun k => [3, 1, 4, 1, 5, 9][k]?.getD 2) 10 = some [true, true, true, false, false, true, false, true, false, false] := by
  decide +kernel

/-- a sequence of values of `rand()` all of which close -/
example : Test.randomBp (fun _ => false) 5 = some [true, true, false, true, false, false] := by decide +kernel

/-- **C107**, `test_bit_vector.cpp:17-39`: built by `push_back` or by `set`. -/
theorem C107_bit_vector (v : List Bool) : Test.bitVectorPush v = some () ∧ Test.bitVectorSet v = some () :=
  ⟨Test.bitVectorPush_ok v, Test.bitVectorSet_ok v⟩

/-- **C107**, `test_bit_vector.cpp:41-78`: `append_bits`, `set_bits` and `get_bits`, for any nonzero integers. -/
theorem C107_bits (ov : Word → Nat → Word) (ints : List Word) (h : ∀ i ∈ ints, i ≠ 0) :
    Test.bitVectorAppend ov ints = some () ∧ Test.bitVectorSetBits ov ints = some () :=
  ⟨Test.bitVectorAppend_ok ov ints h, Test.bitVectorSetBits_ok ov ints h⟩

/-- zeros are rejected by the assertion of `msb` -/
example : Test.bitVectorAppend (fun _ _ => 0) [5, 0] = none ∧ Test.bitVectorSetBits (fun _ _ => 0) [0xffffffffffffffff, 5, 1, 0xf0f] = some () := by
  decide +kernel

/-- **C107**, `test_bvb_reverse`. -/
theorem C107_reverse (v : List Bool) : Test.bvbReverse v = some () := Test.bvbReverse_ok v

/-- **C107**, the enumerator of `bit_vector`. -/
theorem C107_bit_vector_enumerator (rand : Nat → Nat) (v : List Bool) : Test.bitVectorEnum rand v = some () := Test.bitVectorEnum_ok rand v

/-- **C107**, the test of the unary enumerator runs to its end exactly if the vector ends in a one.  Otherwise `test_bit_vector.cpp:177` reads
`v[v.size()]`. -/
theorem C107_unary_enumerator (v : List Bool) : Test.unaryEnumerator v = some () ↔ v.getLast? = some true := Test.unaryEnumerator_iff v

example : Test.unaryEnumerator [true, false, false, true] = some () ∧ Test.unaryEnumerator [true, false] = none := by decide +kernel

/-- **C107**, `test_rs_bit_vector.cpp`, with and without hints. -/
theorem C107_rs_bit_vector (v : List Bool) (hints hints0 : Bool) : Test.rsBitVector v hints hints0 = some () := Test.rsBitVector_ok v hints hints0

/-- **C107**, `test_darray.cpp`. -/
theorem C107_darray (v : List Bool) : Test.darray v = some () := Test.darray_ok v

/-- **C107**, `test_elias_fano.cpp`. -/
theorem C107_elias_fano (ov : Word → Nat → Word) (v : List Bool) (hl : v.length < 2^62) : Test.eliasFano ov v = some () := Test.eliasFano_ok ov v hl

/-- **C107**, `test_gamma_vector.cpp`. -/
theorem C107_gamma_vector (ov : Word → Nat → Word) (rand : Nat → Nat) (v : List Word) (hv : ∀ x ∈ v, x ≠ BitVec.allOnes 64) :
    Test.gammaVector ov v = some () ∧ Test.gammaVectorEnum rand v = some () :=
  ⟨Test.gammaVector_ok ov v hv, Test.gammaVectorEnum_ok rand v hv⟩

/-- **C107**, `test_gamma_bit_vector.cpp`. -/
theorem C107_gamma_bit_vector (ov : Word → Nat → Word) (rand : Nat → Nat) (v : List Word) (hv : ∀ x ∈ v, x.toNat < 2^64 - 2) :
    Test.gammaBitVector ov v = some () ∧ Test.gammaBitVectorEnum rand v = some () :=
  ⟨Test.gammaBitVector_ok ov v hv, Test.gammaBitVectorEnum_ok rand v hv⟩

/-- **C107**, `test_elias_fano_compressed_list.cpp`. -/
theorem C107_compressed_list (ov : Word → Nat → Word) (v : List Word) (hv : ∀ x ∈ v, x ≠ BitVec.allOnes 64) (hl : v.length < 2^57) :
    Test.compressedList ov v = some () :=
  Test.compressedList_ok ov v hv hl

/-- **C107**, `test_bp_vector.cpp` and `test_bp_vector_rmq.cpp`, for any balanced sequence. -/
theorem C107_bp_vector (ov : Word → Nat → Word) (rand : Nat → Nat) (v : List Bool) (hv : Bal v) (hl : v.length < 2^31) :
    Test.bpVector ov v = some () ∧ Test.bpRmq rand v = some () :=
  ⟨Test.bpVector_ok ov v hv hl, Test.bpRmq_ok rand v hv hl⟩

theorem bal_append {a b : List Bool} (ha : Bal a) (hb : Bal b) : Bal (a ++ b) := by
  induction ha with
  | nil => exact hb
  | node h1 _ _ ih2 => simpa using Bal.node h1 ih2

/-- **C107**, the inputs of `test_bp_vector.cpp` and `test_bp_vector_rmq.cpp`: a sequence of `random_bp` or `random_binary_tree`, or some calls of
`bp_path` one after the other, whatever `rand()` gives. -/
theorem C107_bp_vector_generated (ov : Word → Nat → Word) (rand : Nat → Nat) :
    (∀ big n, n < 2^30 → ∃ v, Test.randomBp big n = some v ∧ Test.bpVector ov v = some () ∧ Test.bpRmq rand v = some ()) ∧
    (∀ rand' n, n % 2 = 0 → 2 ≤ n → n < 2^31 →
      ∃ v, Test.binaryTree rand' n = some v ∧ Test.bpVector ov v = some () ∧ Test.bpRmq rand v = some ()) ∧
    (∀ n k, n % 2 = 0 → k * n < 2^31 →
      ∃ p, Test.bpPath n = some p ∧ Test.bpVector ov (List.replicate k p).flatten = some () ∧
        Test.bpRmq rand (List.replicate k p).flatten = some ()) := by
  refine ⟨fun big n hn => ?_, fun rand' n h1 h2 h3 => ?_, fun n k h1 h2 => ?_⟩
  · obtain ⟨v, e, hb, _, hl, _⟩ := C106_random_bp big n (by omega)
    exact ⟨v, e, C107_bp_vector ov rand v hb (by omega)⟩
  · obtain ⟨v, e, hb, hl, _⟩ := C106_binary_tree rand' n h1 h2
    exact ⟨v, e, C107_bp_vector ov rand v hb (by omega)⟩
  · obtain ⟨p, e, hb, hl, _⟩ := C106_bp_path n h1
    refine ⟨p, e, C107_bp_vector ov rand _ ?_ (by rw [List.length_flatten, List.map_replicate, List.sum_replicate_nat, hl]; exact h2)⟩
    have : ∀ j, Bal (List.replicate j p).flatten := by
      intro j
      induction j with
      | zero => exact .nil
      | succ j ih =>
        rw [List.replicate_succ, List.flatten_cons]
        exact bal_append hb ih
    exact this k

/-- **C107**, `test_cartesian_tree.cpp`, for any number of values but one. -/
theorem C107_cartesian_tree {α : Type} (comp : α → α → Bool) (ho : StrictWeak comp) (rand : Nat → Nat) (v : List α) (h1 : v.length ≠ 1)
    (hl : v.length < 2^30 - 1) : Test.cartesianTree comp rand v = some () :=
  Test.cartesianTree_ok comp ho rand v h1 hl

example : Test.cartesianTree (fun a b : Nat => decide (a < b)) (fun _ => 0) [3, 1, 2, 1] = some () ∧
    Test.cartesianTree (fun a b : Nat => decide (a < b)) (fun _ => 0) [3] = none := by decide +kernel

/-- **C107**, `test_topk_vector.cpp`. -/
theorem C107_topk_vector (ov : Word → Nat → Word) (h : HeapOps (QElem Word)) (hh : h.Valid (viComp wordOps))
    {sort : List (Word × Nat) → List (Word × Nat)} (hs : Test.SortOk Test.viLess sort) (rand : Nat → Nat) (v : List Word)
    (hv : ∀ x ∈ v, x ≠ BitVec.allOnes 64) (hl : v.length < 2^30 - 1) : Test.topkVector ov h sort rand v = some () :=
  Test.topkVector_ok ov h hh hs rand v hv hl

/-- a sort with the properties the standard promises: merge sort -/
theorem C107_sort_exists : Test.SortOk Test.viLess (fun l => l.mergeSort fun x y => !Test.viLess y x) where
  perm l := List.mergeSort_perm l _
  sorted l := by
    refine (List.pairwise_mergeSort ?_ ?_ l).imp (fun h => by simpa using h)
    · intro a b c h1 h2
      simp [Test.viLess, BitVec.lt_def, ← BitVec.toNat_inj] at *
      omega
    · intro a b
      simp [Test.viLess, BitVec.lt_def, ← BitVec.toNat_inj] at *
      omega

end Succinct
