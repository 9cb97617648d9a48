import Verif.Model.Alloc
import Verif.Model.CartesianTree
import Verif.Model.EliasFano

/-! # The other builders when memory runs out or a callback throws

None of these functions catches anything; each definition returns the object after the call or after the exception, and whether it was thrown. -/
namespace Succinct

namespace EFBuilder

/-- `elias_fano.hpp:32-34`, the vector of low bits having the capacity `cap` (words) and no memory to be had beyond it -/
def appendLowA (cap : Nat) (b : EFBuilder) (i mask : Word) : Option (Builder × Bool) :=
  if b.l ≠ 0 then do
    let o ← b.low.appendBitsA (cap - b.low.bits.length) (i &&& mask) b.l
    pure (o.b, o.threw)
  else some (b.low, false)

/-- `elias_fano.hpp:27-38`; an exception comes out of line 33 -/
def pushBackA (cap : Nat) (b : EFBuilder) (i : Word) : Option (EFBuilder × Bool) := do
  assertP (b.last ≤ i ∧ i ≤ b.n)
  let mask ← lowMask b.l
  let (low, threw) ← appendLowA cap b i mask
  if threw then pure ({ b with last := i, low := low }, true)
  else
    let h ← shr i b.l
    let high ← b.high.set (h.toNat + b.pos) true
    assertP (b.pos + 1 ≤ b.m)
    pure ({ b with last := i, low := low, high := high, pos := b.pos + 1 }, false)

/-- calls of `push_back` (`elias_fano.hpp:27-38`), up to the first exception -/
def pushAllA (cap : Nat) : List Word → EFBuilder → Option (EFBuilder × Bool)
  | [], b => some (b, false)
  | x :: xs, b => do
    let (b, threw) ← pushBackA cap b x
    if threw then pure (b, true) else pushAllA cap xs b

/-- the capacity requested in `elias_fano.hpp:24` (the product in 64-bit arithmetic), in words -/
def reserved (b : EFBuilder) : Nat := wordsFor (b.m * b.l % 2^64)

end EFBuilder

/-- what may go wrong in a call of `cartesian_tree::builder::push_back` (`cartesian_tree.hpp:49-61`): `growths` of the vector of bits succeed, `calls` of the comparator return,
and `copy` tells whether `m_stack.push_back` succeeds (it may have to allocate, and it copies the value) -/
structure PushEnv where
  growths : Nat
  calls : Nat
  copy : Bool

namespace CartesianBuilder
variable {α : Type}

/-- the loop `cartesian_tree.hpp:54-58`; exceptions out of the comparator (line 55) and line 57 -/
def popLoopA (comp : α → α → Bool) (val : α) : Nat → Nat → List α → Builder → Option (List α × Builder × Bool)
  | _, _, [], b => some ([], b, false)
  | _, 0, top :: rest, b => some (top :: rest, b, true)
  | k, c + 1, top :: rest, b =>
    if comp val top then do
      let o ← b.pushBackA k true
      if o.threw then pure (rest, o.b, true) else popLoopA comp val o.left c rest o.b
    else some (top :: rest, b, false)

/-- `cartesian_tree.hpp:49-61`; exceptions out of lines 52, 55, 57, 60 -/
def pushBackA (comp : α → α → Bool) (env : PushEnv) (s : CartesianBuilder α) (val : α) : Option (CartesianBuilder α × Bool) := do
  let o ← s.bp.pushBackA env.growths false
  if o.threw then pure (⟨s.stack, o.b⟩, true)
  else
    let (st, b, threw) ← popLoopA comp val o.left env.calls s.stack o.b
    if threw then pure (⟨st, b⟩, true)
    else if env.copy then pure (⟨val :: st, b⟩, false)
    else pure (⟨st, b⟩, true)

/-- a caller who catches the exceptions and goes on (`cartesian_tree.hpp:49-61`): the builder in the end and, for each call, whether it threw and whether
the number of bits in the builder has changed -/
def runA (comp : α → α → Bool) : List (α × PushEnv) → CartesianBuilder α → Option (CartesianBuilder α × List (Bool × Bool))
  | [], s => some (s, [])
  | (x, env) :: rest, s => do
    let (s1, threw) ← pushBackA comp env s x
    let (s2, outs) ← runA comp rest s1
    pure (s2, (threw, decide (s1.bp.size ≠ s.bp.size)) :: outs)

end CartesianBuilder

namespace Darray64

/-- `darray64.hpp:18-27`; `k` growths of the vector of bits succeed, `block` and `sub` tell whether the `push_back`s of lines 21 and 24 succeed -/
def append1TailA (k : Nat) (block sub : Bool) (b : Darray64Builder) (bits : Builder) : Option (Darray64Builder × Bool) := do
  let o ← bits.pushBackA k true
  if o.threw then pure ({ b with bits := o.b }, true)
  else
    let last ← subU o.b.size 1
    if b.nOnes % 1024 = 0 ∧ block = false then pure ({ b with bits := o.b }, true)
    else
      let bl := if b.nOnes % 1024 = 0 then b.block ++ [last] else b.block
      if b.nOnes % 64 = 0 then do
        let base ← rd bl (b.nOnes / 1024)
        let d ← subU last base
        if sub = false then pure ({ b with bits := o.b, block := bl }, true)
        else pure (⟨b.nOnes + 1, o.b, bl, b.subblock ++ [d % 2^16]⟩, false)
      else pure (⟨b.nOnes + 1, o.b, bl, b.subblock⟩, false)

/-- `darray64.hpp:15-28`; arguments as above, `k` for the whole call -/
def append1A (k : Nat) (block sub : Bool) (b : Darray64Builder) (skip0 : Nat) : Option (Darray64Builder × Bool) := do
  let o ← b.bits.appendBitsA k 0 skip0
  if o.threw then pure ({ b with bits := o.b }, true)
  else append1TailA o.left block sub b o.b

end Darray64
end Succinct
