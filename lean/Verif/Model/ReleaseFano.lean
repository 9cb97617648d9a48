import Verif.Model.EliasFano
import Verif.Model.ReleaseBuilder

/-! # `elias_fano_builder` and the constructors of `elias_fano` with assertions compiled out

As in `Model/EliasFano.lean`, without the assertions.  `none` is undefined behaviour. -/
namespace Succinct
namespace Release
open Broadword
open EFBuilder (lowLen lowMask)

/-- `elias_fano.hpp:15-25` -/
def efNew (n : Word) (m : Nat) : Option EFBuilder := do
  let l ← lowLen n m
  let high ← Builder.new (((m + 1) + (n.toNat >>> l) + 1) % 2^64) false
  let low ← Builder.new 0 false
  pure ⟨n, m, 0, 0, l, high, low⟩

/-- `elias_fano.hpp:32-34` -/
def efAppendLow (b : EFBuilder) (i mask : Word) : Option Builder :=
  if b.l ≠ 0 then bAppendBits b.low (i &&& mask) b.l else some b.low

/-- `elias_fano.hpp:27-38`; the position in the high part is computed in 64-bit arithmetic -/
def efPush (b : EFBuilder) (i : Word) : Option EFBuilder := do
  let mask ← lowMask b.l
  let low ← efAppendLow b i mask
  let h ← shr i b.l
  let high ← b.high.set ((h.toNat + b.pos) % 2^64) true
  pure { b with last := i, low := low, high := high, pos := b.pos + 1 }

/-- `build` (`elias_fano.hpp:255-264`) -/
def efBuild (b : EFBuilder) (withRank : Bool) : Option EliasFano := do
  let d1 ← Darray.build false (bitVector b.high)
  let d0 ← if withRank then Darray.build true (bitVector b.high) else some ⟨0, ⟨[], [], []⟩⟩
  pure ⟨b.n, bitVector b.high, d1, d0, bitVector b.low, b.l⟩

/-- a builder, values pushed to it, and the constructor from it (`elias_fano.hpp:75-78`) -/
def efOfSeq (n : Word) (m : Nat) (xs : List Word) (withRank : Bool) : Option EliasFano := do
  let b ← efNew n m
  let b ← xs.foldlM efPush b
  efBuild b withRank

/-- `successor1` (`bit_vector.hpp:332-345`) -/
def bSuccessor1 (v : BitVector) (pos : Nat) : Option Nat := do
  let w ← rd v.bits (pos / 64)
  let word ← shr w (pos % 64)
  let word ← shl word (pos % 64)
  BitVector.succLoop false (v.bits.drop (pos / 64 + 1)) (pos / 64) word

/-- the loop `elias_fano.hpp:66-70`, `k` values to go -/
def efFill (bv : BitVector) : Nat → Nat → EFBuilder → Option EFBuilder
  | 0, _, b => some b
  | k + 1, i, b => do
    let i ← bSuccessor1 bv i
    let b ← efPush b (BitVec.ofNat 64 i)
    efFill bv k (i + 1) b

/-- constructor from a bitmap (`elias_fano.hpp:52-73`) -/
def efOfBitmap (bvb : Builder) (withRank : Bool) : Option EliasFano := do
  let bv := bitVector bvb
  let m := (bv.bits.map popcount).sum
  let b ← efNew (BitVec.ofNat 64 bv.size) m
  let b ← efFill bv m 0 b
  efBuild b withRank

end Release
end Succinct
