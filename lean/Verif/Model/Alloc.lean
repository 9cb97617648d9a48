import Verif.Model.History
import Verif.Spec.Alloc

/-! # `bit_vector_builder` when memory runs out

`std::vector` throws `std::bad_alloc` out of a call that has to allocate and leaves the vector as it was; the members of `bit_vector_builder` do
not catch it.  Here every call gets the number `k` of growths of `m_bits` that still succeed in it; the next one throws.  (A growth within
the capacity never throws; which growths exceed it is not modelled, so `k` is arbitrary.)  The result is the builder after the call or
after the exception, whether it was thrown, and the growths left. -/
namespace Succinct

/-- outcome of a call of a member of `bit_vector_builder` (`bit_vector.hpp:40-165`) -/
structure AllocOut where
  b : Builder
  threw : Bool
  left : Nat
deriving DecidableEq, Repr

namespace Builder

/-- `bit_vector.hpp:40-42`; `k = 0`: `reserve` throws -/
def reserveA (k : Nat) (b : Builder) (reallocates : Bool) : Option AllocOut :=
  if k = 0 then some ⟨b, true, 0⟩ else do
    let b ← b.reserve reallocates
    pure ⟨b, false, k - 1⟩

/-- `bit_vector.hpp:44-52`; the exception comes out of line 47 -/
def pushBackA (k : Nat) (b : Builder) (x : Bool) : Option AllocOut := do
  let posInWord := b.size % 64
  if posInWord = 0 then
    if k = 0 then pure ⟨b, true, 0⟩ else
      let bits := b.bits ++ [0]
      let c ← back bits
      let v ← shl (if x then 1 else 0) posInWord
      let bits ← orCur bits (some c) v
      pure ⟨⟨bits, b.size + 1, some c⟩, false, k - 1⟩
  else
    let v ← shl (if x then 1 else 0) posInWord
    let bits ← orCur b.bits b.cur v
    pure ⟨⟨bits, b.size + 1, b.cur⟩, false, k⟩

/-- `bit_vector.hpp:82-98`; the exception comes out of line 90 or 94, `m_size` has been increased in line 88 -/
def appendBitsA (k : Nat) (b : Builder) (bits : Word) (len : Nat) : Option AllocOut := do
  noSpurious bits len
  if len = 0 then pure ⟨b, false, k⟩ else
    let posInWord := b.size % 64
    let size := b.size + len
    if posInWord = 0 then
      if k = 0 then pure ⟨⟨b.bits, size, b.cur⟩, true, 0⟩ else
        let ws := b.bits ++ [bits]
        let c ← back ws
        pure ⟨⟨ws, size, some c⟩, false, k - 1⟩
    else
      let v ← shl bits posInWord
      let ws ← orCur b.bits b.cur v
      if len > 64 - posInWord then
        let v ← shr bits (64 - posInWord)
        if k = 0 then pure ⟨⟨ws, size, b.cur⟩, true, 0⟩ else
          let ws := ws ++ [v]
          let c ← back ws
          pure ⟨⟨ws, size, some c⟩, false, k - 1⟩
      else
        let c ← back ws
        pure ⟨⟨ws, size, some c⟩, false, k⟩

/-- `bit_vector.hpp:100-107`; the exception comes out of line 104, `m_size` has been increased in line 101 -/
def zeroExtendA (k : Nat) (b : Builder) (n : Nat) : Option AllocOut := do
  let size := b.size + n
  let needed ← subU (wordsFor size) b.bits.length
  if needed ≠ 0 then
    if k = 0 then pure ⟨⟨b.bits, size, b.cur⟩, true, 0⟩ else
      let bits := b.bits ++ List.replicate needed 0
      let c ← back bits
      pure ⟨⟨bits, size, some c⟩, false, k - 1⟩
  else pure ⟨⟨b.bits, size, b.cur⟩, false, k⟩

/-- `bit_vector.hpp:111-117`; an exception leaves the loop -/
def oneExtendLoopA : Nat → Nat → Builder → Nat → Option AllocOut
  | fuel, k, b, n =>
    if n ≥ 64 then
      match fuel with
      | 0 => none
      | fuel + 1 => do
        let o ← appendBitsA k b (BitVec.allOnes 64) 64
        if o.threw then pure o else oneExtendLoopA fuel o.left o.b (n - 64)
    else if n ≠ 0 then do
      let v ← shr (BitVec.allOnes 64) (64 - n)
      appendBitsA k b v n
    else some ⟨b, false, k⟩

/-- `bit_vector.hpp:109-118` -/
def oneExtendA (k : Nat) (b : Builder) (n : Nat) : Option AllocOut := oneExtendLoopA n k b n

/-- `bit_vector.hpp:120-145`; the exception comes out of line 127 (which allocates only if the vector grows), `m_size` has been set in line 126 -/
def appendA (k : Nat) (b rhs : Builder) : Option AllocOut := do
  if rhs.size = 0 then pure ⟨b, false, k⟩ else
    let size := b.size + rhs.size
    let grow ← subU (wordsFor size) b.bits.length
    if grow ≠ 0 ∧ k = 0 then pure ⟨⟨b.bits, size, b.cur⟩, true, 0⟩ else
      let b ← b.append rhs
      pure ⟨b, false, if grow ≠ 0 then k - 1 else k⟩

/-- one call in which `k` growths succeed (`bit_vector.hpp:40-165`) -/
def callA (k : Nat) (b : Builder) : Spec.BCall → Option AllocOut
  | .reserve r => b.reserveA k r
  | .pushBack x => b.pushBackA k x
  | .set pos x => (b.set pos x).map fun b => ⟨b, false, k⟩
  | .setBits pos bits len => (b.setBits pos bits len).map fun b => ⟨b, false, k⟩
  | .appendBits bits len => b.appendBitsA k bits len
  | .zeroExtend n => b.zeroExtendA k n
  | .oneExtend n => b.oneExtendA k n
  | .append q => do b.appendA k (← run q)
  | .reverse => b.reverse.map fun b => ⟨b, false, k⟩

/-- a history of calls (`bit_vector.hpp:40-165`), the exceptions being caught by the caller: the builder in the end and which calls threw -/
def runA : Builder → List (Spec.BCall × Nat) → Option (Builder × List Bool)
  | b, [] => some (b, [])
  | b, (c, k) :: cs => do
    let o ← callA k b c
    let (b, ts) ← runA o.b cs
    pure (b, o.threw :: ts)

end Builder
end Succinct
