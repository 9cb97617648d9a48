import Verif.Model.EliasFano

/-! # `perftest/perftest_elias_fano.cpp`

`dist(m_gen)` (lines 35-36) may return any number from 0 to `cur_m`: the `k`-th draw returns the remainder of `d k`, for an arbitrary `d`.
Numbers of values are natural numbers; they only get smaller.  `none` is a failed assertion or undefined behaviour.  The clock, the printed
report and `dump()` (line 86, which is in `Model/Dump.lean`) are left out. -/
namespace Succinct
namespace Perf

/-- `state_t`, `perftest/perftest_elias_fano.cpp:68-70` -/
structure Node where
  word : Word
  m : Nat
  depth : Nat
deriving DecidableEq, Repr

/-- `m_stack` (`perftest/perftest_elias_fano.cpp:71`, the head is its top) and the number of draws made from `m_gen` (line 72) -/
structure Gen where
  stack : List Node
  drawn : Nat
deriving DecidableEq, Repr

/-- constructor, `perftest/perftest_elias_fano.cpp:18-23` -/
def Gen.new (m : Nat) : Gen := ⟨[⟨0, m, 0⟩], 0⟩

/-- the right child, `perftest/perftest_elias_fano.cpp:40-43` -/
def pushRight (bits : Nat) (cur : Node) (right : Nat) (st : List Node) : Option (List Node) :=
  if right > 0 then do
    let b ← shl 1 (bits - cur.depth - 1)
    pure (⟨cur.word ||| b, right, cur.depth + 1⟩ :: st)
  else some st

/-- the left child, `perftest/perftest_elias_fano.cpp:44-47` -/
def pushLeft (cur : Node) (left : Nat) (st : List Node) : List Node :=
  if left > 0 then ⟨cur.word, left, cur.depth + 1⟩ :: st else st

/-- the loop `perftest/perftest_elias_fano.cpp:34-52` -/
def descend (bits : Nat) (d : Nat → Nat) : Nat → Node → List Node → Nat → Option (Node × List Node × Nat)
  | fuel, cur, st, k =>
    if cur.depth < bits then
      match fuel with
      | 0 => none
      | fuel + 1 => do
        let left := d k % (cur.m + 1)
        let right ← subU cur.m left
        let st ← pushRight bits cur right st
        match pushLeft cur left st with
        | [] => none
        | top :: st => descend bits d fuel top st (k + 1)
    else some (cur, st, k)

/-- `next`, `perftest/perftest_elias_fano.cpp:25-60` -/
def Gen.next (bits : Nat) (d : Nat → Nat) (g : Gen) : Option (Word × Gen) :=
  match g.stack with
  | [] => none
  | top :: st => do
    let (cur, st, k) ← descend bits d bits top st g.drawn
    pure (cur.word, ⟨if cur.m > 1 then ⟨cur.word, cur.m - 1, cur.depth⟩ :: st else st, k⟩)

/-- `done`, `perftest/perftest_elias_fano.cpp:62-65` -/
def Gen.done (g : Gen) : Bool := g.stack.isEmpty

/-- the values of `n` calls of `next` (`perftest/perftest_elias_fano.cpp:25-60`) -/
def Gen.pull (bits : Nat) (d : Nat → Nat) : Nat → Gen → Option (List Word × Gen)
  | 0, g => some ([], g)
  | n + 1, g => do
    let (x, g) ← g.next bits d
    let (l, g) ← Gen.pull bits d n g
    pure (x :: l, g)

/-- the loop `perftest/perftest_elias_fano.cpp:80-82` -/
def fill (bits : Nat) (d : Nat → Nat) : Nat → EFBuilder → Gen → Option (EFBuilder × Gen)
  | 0, b, g => some (b, g)
  | n + 1, b, g => do
    let (x, g) ← g.next bits d
    let b ← b.pushBack x
    fill bits d n b g

/-- the loop `perftest/perftest_elias_fano.cpp:93-95` -/
def xorLoop (ef : EliasFano) : Nat → EliasFano.SelEnum → Word → Option Word
  | 0, _, foo => some foo
  | n + 1, e, foo => do
    let (x, e) ← EliasFano.SelEnum.next ef e
    xorLoop ef n e (foo ^^^ x)

/-- `ef_enumeration_benchmark`, `perftest/perftest_elias_fano.cpp:76-102`: the value stored in `vfoo`.  `bits` is a `uint8_t`. -/
def efBenchmark (d : Nat → Nat) (m bits : Nat) : Option Word := do
  let n ← shl 1 bits
  let b ← EFBuilder.new n m
  let (b, g) ← fill bits d m b (Gen.new m)
  assertP (g.done = true)
  let ef ← EliasFano.build b true
  let e ← EliasFano.SelEnum.new ef 0
  xorLoop ef m e 0

end Perf
end Succinct
