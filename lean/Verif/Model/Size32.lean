import Verif.Model.EliasFano
import Verif.Model.Gamma

/-! # Construction where `size_t` has 32 bits

The README (lines 30-33) says that the library was tested on 32-bit Linux.  There `size_t` has 32 bits, and the constructors of
`bit_vector`, `elias_fano_list` and `elias_fano_compressed_list` keep values of type `uint64_t` in variables of type
`size_t`.  The definitions below are those of `Model/BitVector`, `Model/EliasFano` and `Model/Gamma` with these
conversions.  Counters of values in memory (`n` in `elias_fano_list.hpp:19` and `elias_fano_compressed_list.hpp:19`,
`n_ones` in `darray64.hpp:30`) and the positions `darray` computes inside a bit vector (`darray.hpp:28,85-86,92-93`) are
taken from the 64-bit model: they are below `2^32` for vectors of fewer than `2^32` bits. -/
namespace Succinct
open Broadword

/-- conversion of a `uint64_t` to a `size_t` of 32 bits, and back (`elias_fano_list.hpp:23,32`,
`elias_fano_compressed_list.hpp:34`) -/
def toSize32 (x : Word) : Word := BitVec.ofNat 64 (x.toNat % 2^32)

namespace BitVector

/-- `bit_vector.hpp:222-225` where `m_size` (`525`) has 32 bits; the check of `move_bits` (`167-170`) is on the builder's
own 64-bit size -/
def ofBuilder32 (b : Builder) : Option BitVector := do
  assertP (wordsFor b.size = b.bits.length)
  pure ⟨b.size % 2^32, b.bits⟩

/-- `rangeLoop` where `m_size += 1` (`bit_vector.hpp:209`) is on 32 bits -/
def rangeLoop32 : List Bool → List Word → Nat → Word → Word → List Word × Nat × Word × Word
  | [], bits, size, mask, cur => (bits, size, mask, cur)
  | x :: rest, bits, size, mask, cur =>
    let cur := if x then cur ||| mask else cur
    let mask := mask <<< 1
    let size := (size + 1) % 2^32
    if mask = 0 then rangeLoop32 rest (bits ++ [cur]) size 1 0
    else rangeLoop32 rest bits size mask cur

/-- `bit_vector.hpp:196-220` where `m_size` has 32 bits -/
def ofRange32 (l : List Bool) : BitVector :=
  let (bits, size, mask, cur) := rangeLoop32 l [] 0 1 0
  if mask ≠ 1 then ⟨size, bits ++ [cur]⟩ else ⟨size, bits⟩

end BitVector

namespace EliasFano

/-- `build` (`elias_fano.hpp:255-264`) where `bit_vector::m_size` has 32 bits; `m_size` of `elias_fano` (`266`) is a
`uint64_t` -/
def build32 (b : EFBuilder) (withRank : Bool) : Option EliasFano := do
  let high ← BitVector.ofBuilder32 b.high
  let d1 ← Darray.build false high
  let d0 ← if withRank then Darray.build true high else some ⟨0, ⟨[], [], []⟩⟩
  let low ← BitVector.ofBuilder32 b.low
  pure ⟨b.n, high, d1, d0, low, b.l⟩

/-- construct the builder for universe `n` and at most `m` values, push the values, build (`elias_fano.hpp:15-38,75-78`)
where `size_t` has 32 bits -/
def ofSeq32 (n : Word) (m : Nat) (xs : List Word) (withRank : Bool) : Option EliasFano := do
  let b ← EFBuilder.new n m
  let b ← xs.foldlM EFBuilder.pushBack b
  build32 b withRank

end EliasFano

namespace EFList

/-- second loop of the constructor (`elias_fano_list.hpp:29-34`): `cur_base += *iter` adds on 64 bits and stores the
result in the 32 bits of `cur_base` -/
def pushLoop32 : List Word → Word → EFBuilder → Option EFBuilder
  | [], _, b => some b
  | x :: xs, base, b => do
    let base := toSize32 (base + x)
    let b ← b.pushBack base
    pushLoop32 xs base b

/-- `elias_fano_list.hpp:14-36` where `size_t` has 32 bits: `s += *iter` (`23`) keeps 32 bits, `s + 1` (`27`) is
evaluated on 32 bits -/
def build32 (ints : List Word) : Option EFList := do
  let s := ints.foldl (fun s x => toSize32 (s + x)) 0
  let b ← EFBuilder.new (toSize32 (s + 1)) ints.length
  let b ← pushLoop32 ints 0 b
  let ef ← EliasFano.build32 b false
  pure ⟨ef⟩

end EFList

namespace EFCompressedList

/-- first loop (`elias_fano_compressed_list.hpp:20-25`): the argument of `msb` is the `uint64_t` value `*iter + 1`, its
result is added to the 32-bit `s` -/
def sizeLoop32 : List Word → Nat → Option Nat
  | [], s => some s
  | x :: xs, s => do
    let l ← msb (x + 1)
    sizeLoop32 xs ((s + l) % 2^32)

/-- second loop (`elias_fano_compressed_list.hpp:31-38`): `size_t val = *iter + 1` keeps 32 bits -/
def pushLoop32 : List Word → Builder → EFBuilder → Option (Builder × EFBuilder)
  | [], bits, b => some (bits, b)
  | x :: xs, bits, b => do
    let val := toSize32 (x + 1)
    let l ← msb val
    let one ← shl 1 l
    let bits ← bits.appendBits (val ^^^ one) l
    let b ← b.pushBack (BitVec.ofNat 64 bits.size)
    pushLoop32 xs bits b

/-- `elias_fano_compressed_list.hpp:14-41` where `size_t` has 32 bits; `s + 1` (`27`) is evaluated on 32 bits -/
def build32 (ints : List Word) : Option EFCompressedList := do
  let s ← sizeLoop32 ints 0
  let b ← EFBuilder.new (BitVec.ofNat 64 ((s + 1) % 2^32)) (ints.length + 1)
  let bits ← Builder.new 0 false
  let b ← b.pushBack (BitVec.ofNat 64 bits.size)
  let (bits, b) ← pushLoop32 ints bits b
  let ef ← EliasFano.build32 b false
  let bits ← BitVector.ofBuilder32 bits
  pure ⟨ef, bits⟩

end EFCompressedList

namespace Darray64

/-- `darray64.hpp:40-46` where `bit_vector::m_size` has 32 bits -/
def ofBuilder32 (b : Darray64Builder) : Option Darray64 := do
  let v ← BitVector.ofBuilder32 b.bits
  pure ⟨b.nOnes, v, b.block, b.subblock⟩

end Darray64

namespace GammaVector

/-- `gamma_vector.hpp:18-39` where `bit_vector::m_size` has 32 bits; `val` (`29`) is a `uint64_t` -/
def build32 (ints : List Word) : Option GammaVec := do
  let high ← Darray64.new
  let low ← Builder.new 0 false
  let high ← Darray64.append1 high 0
  let (high, low) ← loop ints high low
  let high ← Darray64.ofBuilder32 high
  let low ← BitVector.ofBuilder32 low
  pure ⟨high, low⟩

end GammaVector

namespace GammaBitVector

/-- `gamma_bit_vector.hpp:23-45` where `bit_vector::m_size` has 32 bits -/
def build32 (vals : List Word) : Option GammaVec := do
  let high ← Darray64.new
  let low ← Builder.new 0 false
  let high ← Darray64.append1 high 0
  let (high, low) ← loop vals high low
  let high ← Darray64.ofBuilder32 high
  let low ← BitVector.ofBuilder32 low
  pure ⟨high, low⟩

end GammaBitVector
end Succinct
