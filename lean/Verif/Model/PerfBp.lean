import Verif.Model.Tests
import Verif.Model.Release

/-! # `perftest_bp_vector.cpp`, `perftest_bp_vector_rmq.cpp` and `perftest_cartesian_tree.cpp`

The clock, the printed report and `size_of` (`perftest/perftest_bp_vector.cpp:34`, which is in `Model/Mappable.lean`) are left out.  Random numbers are arbitrary. -/
namespace Succinct
namespace Perf

/-- `build_random_binary_tree`, `perftest/perftest_bp_vector.cpp:75-80` with `:22-25`, `perftest/perftest_bp_vector_rmq.cpp:39-44` -/
def buildTree (rand : Nat → Nat) (size : Nat) : Option BpVector := do
  let b ← Builder.new 0 false
  let l ← Test.binaryTree rand size
  let b ← l.foldlM Builder.pushBack b
  let v ← BitVector.ofBuilder b
  BpVector.build v true false

/-- the loop `perftest/perftest_bp_vector.cpp:57-65`; `random_bits` has `sample_size` elements.  State: `cur_node`, `steps_done`, `find_close_performed`. -/
def visitInner (ov : Word → Nat → Word) (bp : BpVector) (bits : List Bool) : Nat → Nat → Nat → Nat → Outcome (Nat × Nat × Nat)
  | 0, _, _, _ => .running
  | fuel + 1, cur, steps, closes => do
    let x ← Outcome.of (bp.rs.bv.access cur)
    if x = true ∧ steps < bits.length then
      let r ← Outcome.of bits[steps]?
      if r then
        let next ← Outcome.of (bp.findClose ov cur)
        visitInner ov bp bits fuel (next + 1) (steps + 1) (closes + 1)
      else visitInner ov bp bits fuel (cur + 1) (steps + 1) closes
    else .done (cur, steps, closes)

/-- the loop `perftest/perftest_bp_vector.cpp:54-67`.  State: `steps_done`, `find_close_performed`, `foo`. -/
def visitOuter (ov : Word → Nat → Word) (bp : BpVector) (bits : List Bool) : Nat → Nat → Nat → Nat → Outcome (Nat × Nat)
  | 0, _, _, _ => .running
  | fuel + 1, steps, closes, foo =>
    if steps < bits.length then do
      let (cur, steps, closes) ← visitInner ov bp bits fuel 1 steps closes
      visitOuter ov bp bits fuel steps closes cur
    else .done (closes, foo)

/-- `time_visit`, `perftest/perftest_bp_vector.cpp:40-72`: `find_close_performed` and `foo` -/
def timeVisit (ov : Word → Nat → Word) (bp : BpVector) (bits : List Bool) (fuel : Nat) : Outcome (Nat × Nat) := visitOuter ov bp bits fuel 0 0 0

/-- one pair of positions, `perftest/perftest_bp_vector_rmq.cpp:18-20`, `perftest/perftest_cartesian_tree.cpp:18-20`; `rand` starts at the next value.
Division by 0 is undefined. -/
def randPair (size r s : Nat) : Option (Nat × Nat) := do
  assertP (size ≠ 0)
  let a := r % size
  let m ← subU size a
  assertP (m ≠ 0)
  pure (a, a + s % m)

/-- `time_avg_rmq`, `perftest/perftest_bp_vector_rmq.cpp:13-37` and `perftest/perftest_cartesian_tree.cpp:13-37`: the queries with their answers, in order -/
def timeAvgRmq {β : Type} (size : Nat) (query : Nat → Nat → Option β) (rand : Nat → Nat) (sample : Nat) : Option (List (Nat × Nat × β)) := do
  let pairs ← (List.range sample).mapM fun i => randPair size (rand (2 * i)) (rand (2 * i + 1))
  pairs.mapM fun r => do
    let x ← query r.1 r.2
    pure (r.1, r.2, x)

/-- `perftest/perftest_bp_vector_rmq.cpp:58-60` -/
def bpRmqRun (rand rand' : Nat → Nat) (n sample : Nat) : Option (List (Nat × Nat × Nat × Int)) := do
  let bp ← buildTree rand n
  timeAvgRmq bp.rs.bv.size bp.excessRmq rand' sample

/-- `perftest/perftest_cartesian_tree.cpp:51-57`; line 53 -/
def cartRmqRun (rand rand' : Nat → Nat) (n sample : Nat) : Option (List (Nat × Nat × Nat)) := do
  let v := (List.range n).map fun i => rand i % 1024
  let tree ← CartesianTree.build (fun a b => decide (a < b)) v
  let size ← tree.size
  timeAvgRmq size tree.rmq rand' sample

end Perf
end Succinct
