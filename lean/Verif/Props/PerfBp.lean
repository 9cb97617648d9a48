import Verif.Lemmas.PerfBp
import Verif.Props.Tests
import Verif.Props.Release

/-! # C115: the runs of `perftest_bp_vector.cpp`, `perftest_bp_vector_rmq.cpp` and `perftest_cartesian_tree.cpp` -/
namespace Succinct
open Perf Spec Release
open RSBitVector (bind_pure_some)

/-- `random_binary_tree` draws the code of a binary tree of `size - 1` nodes after a bit for the root, and can draw any such tree. -/
theorem C115_trees (size : Nat) (h : size % 2 = 0) (h2 : 2 ≤ size) :
    (∀ rand, ∃ t, Test.binaryTree rand size = some (true :: BinTree.code t) ∧ t.code.length + 1 = size) ∧
    ∀ t : BinTree, t.code.length + 1 = size → ∃ rand, Test.binaryTree rand size = some (true :: t.code) := by
  refine ⟨fun rand => binaryTree_tree rand size h h2, fun t ht => ?_⟩
  obtain ⟨ds, hds⟩ := treeHelper_every t size (by omega)
  have := hds (fun i => ds.getD i 0) 0 (fun i x hx => by
    rw [Nat.zero_add]
    show ds.getD i 0 = x
    rw [List.getD_eq_getElem?_getD, hx]; rfl)
  refine ⟨fun i => ds.getD i 0, ?_⟩
  unfold Test.binaryTree
  rw [assertP_eq _ ⟨h, h2⟩, bind_pure_some, show size - 1 = t.code.length by omega, this]
  rfl

/-- For trees of 4 bits or more, of less than `2^31` bits: the visit ends, calls `find_close` once for each random bit set, and its last position
is where the walks down the tree end that turn right for a bit set and left for the others. -/
theorem C115_visit (ov : Word → Nat → Word) (rand : Nat → Nat) (size : Nat) (h : size % 2 = 0) (h4 : 4 ≤ size) (hl : size < 2^31) :
    ∃ t bp, Test.binaryTree rand size = some (true :: BinTree.code t) ∧ buildTree rand size = some bp ∧
      ∀ bits : List Bool, bits ≠ [] → ∃ q, t.Walks bits 0 q ∧ q < size - 1 ∧ Returns (timeVisit ov bp bits) (bits.count true, 1 + q) := by
  obtain ⟨t, e, ht⟩ := binaryTree_tree rand size h (by omega)
  obtain ⟨bp, e2, _, ha⟩ := build_answers ov (true :: t.code) (root_bal t) (by rw [List.length_cons]; omega)
  refine ⟨t, bp, e, by rw [buildTree_eq rand size _ e]; exact e2, fun bits hb => ?_⟩
  have hleaf : t ≠ .leaf := fun c => by rw [c] at ht; simp [BinTree.code] at ht; omega
  have key : ∀ fuel, 2 * bits.length < fuel → ∃ q, t.Walks bits 0 q ∧ timeVisit ov bp bits fuel = .done (bits.count true, 1 + q) := by
    intro fuel hf
    obtain ⟨q, q1, q2⟩ := outer_ok ha hleaf bits bits.length bits fuel 0 0 0 rfl (Nat.le_refl _) hf
    refine ⟨q, q1, ?_⟩
    obtain ⟨f, rfl⟩ : ∃ f, fuel = f + 1 := ⟨fuel - 1, by omega⟩
    rw [Nat.zero_add] at q2
    rw [← q2]
    unfold timeVisit visitOuter
    have := List.length_pos_iff.2 hb
    rw [if_pos this, if_pos this]
  obtain ⟨q, q1, q2⟩ := key (2 * bits.length + 1) (by omega)
  refine ⟨q, q1, ?_, 2 * bits.length + 1, fun fuel hf => ?_⟩
  · have := walks_lt t (by have := code_odd t; omega) q1
    omega
  · obtain ⟨q', q3, q4⟩ := key fuel (by omega)
    rw [q4, walks_unique q3 q1]

/-- For the tree of 2 bits, a leaf, the visit never makes a step and does not end. -/
theorem C115_visit_leaf (ov : Word → Nat → Word) (rand : Nat → Nat) :
    ∃ bp, buildTree rand 2 = some bp ∧ ∀ bits : List Bool, bits ≠ [] → RunsForEver (timeVisit ov bp bits) := by
  obtain ⟨t, e, ht⟩ := binaryTree_tree rand 2 (by decide) (by decide)
  obtain ⟨bp, e2, _, ha⟩ := build_answers ov (true :: t.code) (root_bal t) (by rw [List.length_cons, ht]; decide)
  refine ⟨bp, by rw [buildTree_eq rand 2 _ e]; exact e2, fun bits hb fuel => ?_⟩
  have hleaf : t = .leaf := by
    cases t with
    | leaf => rfl
    | node l r =>
      have := code_odd l
      have := code_odd r
      rw [BinTree.code, List.length_append, List.length_cons] at ht
      omega
  subst hleaf
  have hin : ∀ f k c, visitInner ov bp bits (f+1) 1 k c = .done (1, k, c) := by
    intro f k c
    unfold visitInner
    rw [ha.access 1 false rfl, Outcome.of_some, Outcome.done_bind, if_neg (by simp)]
  have hpos := List.length_pos_iff.2 hb
  have hout : ∀ f c foo, visitOuter ov bp bits f 0 c foo = .running := by
    intro f
    induction f with
    | zero => intro c foo; rfl
    | succ f ih =>
      intro c foo
      unfold visitOuter
      rw [if_pos hpos]
      cases f with
      | zero => rfl
      | succ f =>
        rw [hin, Outcome.done_bind]
        exact ih _ _
  exact hout fuel 0 0

/-- `time_avg_rmq` on any structure of at least one position: `sample` queries, each of positions in order and in range, whatever `rand()` gives;
any such pair can be drawn.  On no position it divides by zero, unless there is nothing to sample. -/
theorem C115_pairs {β : Type} (size : Nat) (query : Nat → Nat → Option β) (P : Nat → Nat → β → Prop) (hs : 0 < size)
    (hq : ∀ a b, a ≤ b → b < size → ∃ x, query a b = some x ∧ P a b x) (rand : Nat → Nat) (sample : Nat) :
    ∃ l, timeAvgRmq size query rand sample = some l ∧ l.length = sample ∧ ∀ r ∈ l, r.1 ≤ r.2.1 ∧ r.2.1 < size ∧ P r.1 r.2.1 r.2.2 :=
  timeAvgRmq_ok size query P hs hq rand sample

theorem C115_every_pair {β : Type} (size : Nat) (query : Nat → Nat → Option β) (ps : List (Nat × Nat)) (h : ∀ p ∈ ps, p.1 ≤ p.2 ∧ p.2 < size)
    (f : Nat → Nat → β) (hq : ∀ a b, a ≤ b → b < size → query a b = some (f a b)) :
    ∃ rand, timeAvgRmq size query rand ps.length = some (ps.map fun p => (p.1, p.2, f p.1 p.2)) :=
  timeAvgRmq_every size query ps h f hq

theorem C115_no_pair {β : Type} (query : Nat → Nat → Option β) (rand : Nat → Nat) (sample : Nat) :
    timeAvgRmq 0 query rand sample = if sample = 0 then some [] else none := by
  cases sample with
  | zero => rfl
  | succ n =>
    unfold timeAvgRmq
    rw [List.range_succ_eq_map, List.mapM_cons]
    rfl

/-- the queries of `perftest_bp_vector_rmq.cpp` -/
theorem C115_excess_rmq (rand rand' : Nat → Nat) (n sample : Nat) (h : n % 2 = 0) (h2 : 2 ≤ n) (hl : n < 2^31) :
    ∃ l r, Test.binaryTree rand n = some l ∧ bpRmqRun rand rand' n sample = some r ∧ r.length = sample ∧
      ∀ x ∈ r, x.1 ≤ x.2.1 ∧ x.2.1 < n ∧ IsExcessRmq l x.1 x.2.1 x.2.2.1 ∧ x.2.2.2 = Spec.excess l x.2.2.1 := by
  obtain ⟨t, e, ht⟩ := binaryTree_tree rand n h h2
  obtain ⟨bp, e2, g, _⟩ := build_answers (fun w _ => w) (true :: t.code) (root_bal t) (by rw [List.length_cons]; omega)
  obtain ⟨bp', e3, h3⟩ := C35_excess_rmq (true :: t.code) true false (root_bal t) (by rw [List.length_cons]; omega)
  rw [e2] at e3
  cases Option.some.inj e3
  have hsz : bp.rs.bv.size = n := by rw [g, (BitVector.ofRange_rep _).size, List.length_cons, ht]
  obtain ⟨r, r1, r2, r3⟩ := C115_pairs n bp.excessRmq (fun a b x => IsExcessRmq (true :: t.code) a b x.1 ∧ x.2 = Spec.excess (true :: t.code) x.1) (by omega)
    (fun a b hab hb => by
      obtain ⟨p, p1, p2⟩ := h3 a b hab (by rw [List.length_cons]; omega)
      exact ⟨_, p1, p2, rfl⟩) rand' sample
  refine ⟨_, r, e, ?_, r2, r3⟩
  unfold bpRmqRun
  rw [buildTree_eq rand n _ e, e2, bind_pure_some, hsz]
  exact r1

/-- the queries of `perftest_cartesian_tree.cpp` -/
theorem C115_cartesian (rand rand' : Nat → Nat) (n sample : Nat) (h0 : 0 < n) (hl : n < 2^30 - 1) :
    ∃ r, cartRmqRun rand rand' n sample = some r ∧ r.length = sample ∧
      ∀ x ∈ r, x.1 ≤ x.2.1 ∧ x.2.1 < n ∧ IsLeftmostMin (fun a b => decide (a < b)) ((List.range n).map fun i => rand i % 1024) x.1 x.2.1 x.2.2 := by
  have hlen : ((List.range n).map fun i => rand i % 1024).length = n := by simp
  obtain ⟨t, e, h1⟩ := C36_rmq (fun a b : Nat => decide (a < b)) natLt_strictWeak ((List.range n).map fun i => rand i % 1024) (by rw [hlen]; exact hl)
  obtain ⟨t', l, e', _, _, _, h3⟩ := C37_size (fun a b : Nat => decide (a < b)) ((List.range n).map fun i => rand i % 1024) (by rw [hlen]; exact hl)
  rw [e] at e'
  cases Option.some.inj e'
  rw [hlen] at h1 h3
  obtain ⟨r, r1, r2, r3⟩ := C115_pairs n t.rmq _ h0 h1 rand' sample
  refine ⟨r, ?_, r2, r3⟩
  unfold cartRmqRun
  dsimp only
  rw [e, bind_pure_some, h3, bind_pure_some]
  exact r1

/-- a tree of 7 nodes and two walks in it -/
example : Test.binaryTree (fun i => 3 * i + 2) 8 = some (true :: BinTree.code (.node (.node .leaf .leaf) (.node .leaf .leaf))) := by decide +kernel
example : BinTree.Walks (.node (.node .leaf .leaf) (.node .leaf .leaf)) [false, true, true, false] 0 5 :=
  .more (by decide) (.more (by decide) .stop)
example : (timeAvgRmq 5 (fun a b => some (a + b)) (fun i => 7 * i + 3) 3) = some [(3, 3, 6), (2, 2, 4), (1, 3, 4)] := by decide +kernel

end Succinct
