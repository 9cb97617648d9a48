import Verif.Model.Gamma
import Verif.Model.ReleaseFano

/-! # The constructors of the integer sequences with assertions compiled out

As in `Model/EliasFano.lean` and `Model/Gamma.lean`, without the assertions; the containers they use are those of
`Model/ReleaseBuilder.lean` and `Model/ReleaseFano.lean`.  `none` is undefined behaviour. -/
namespace Succinct
namespace Release
open Broadword

/-- `broadword.hpp:156-162`: for the word 0 the variable keeps the value `-1U`, of which `(uint8_t)ret` is 255 -/
def msb1 (x : Word) : Nat := (msb x).getD 255

/-! ## `elias_fano_list` -/

/-- second loop of the constructor (`elias_fano_list.hpp:29-34`) -/
def eflPush : List Word → Word → EFBuilder → Option EFBuilder
  | [], _, b => some b
  | x :: xs, base, b => do
    let base := base + x
    let b ← efPush b base
    eflPush xs base b

/-- `elias_fano_list.hpp:14-36`; `size_t` sums wrap modulo `2^64` -/
def eflBuild (ints : List Word) : Option EFList := do
  let s := ints.foldl (· + ·) 0
  let b ← efNew (s + 1) ints.length
  let b ← eflPush ints 0 b
  let ef ← efBuild b false
  pure ⟨ef⟩

/-! ## `elias_fano_compressed_list` -/

/-- second loop (`elias_fano_compressed_list.hpp:31-38`) -/
def efclPush : List Word → Builder → EFBuilder → Option (Builder × EFBuilder)
  | [], bits, b => some (bits, b)
  | x :: xs, bits, b => do
    let val := x + 1
    let l := msb1 val
    let one ← shl 1 l
    let bits ← bAppendBits bits (val ^^^ one) l
    let b ← efPush b (BitVec.ofNat 64 bits.size)
    efclPush xs bits b

/-- `elias_fano_compressed_list.hpp:14-41`; the first loop (`:20-25`) adds up the lengths -/
def efclBuild (ints : List Word) : Option EFCompressedList := do
  let s := ints.foldl (fun s x => s + msb1 (x + 1)) 0
  let b ← efNew (BitVec.ofNat 64 s + 1) (ints.length + 1)
  let bits ← Builder.new 0 false
  let b ← efPush b (BitVec.ofNat 64 bits.size)
  let (bits, b) ← efclPush ints bits b
  let ef ← efBuild b false
  pure ⟨ef, bitVector bits⟩

/-! ## `gamma_vector` and `gamma_bit_vector` -/

/-- `append_bits(0, len)` (`bit_vector.hpp:82-98`) for any 64-bit `len`: `m_size` wraps -/
def bSkip (b : Builder) (len : Nat) : Option Builder := do
  let b ← bAppendBits b 0 len
  pure { b with size := b.size % 2^64 }

/-- `darray64.hpp:15-28`; `bits.size()` is not 0 behind the `push_back`, and the difference of positions wraps before it is cut to 16
bits -/
def d64Append1 (b : Darray64Builder) (skip0 : Nat) : Option Darray64Builder := do
  let bits ← bSkip b.bits skip0
  let bits ← bits.pushBack true
  let last := bits.size - 1
  let block := if b.nOnes % 1024 = 0 then b.block ++ [last] else b.block
  let subblock ←
    if b.nOnes % 64 = 0 then do
      let base ← rd block (b.nOnes / 1024)
      pure (b.subblock ++ [(2^64 + last - base) % 2^16])
    else pure b.subblock
  pure ⟨b.nOnes + 1, bits, block, subblock⟩

/-- constructor `darray64.hpp:40-46` -/
def d64OfBuilder (b : Darray64Builder) : Darray64 := ⟨b.nOnes, bitVector b.bits, b.block, b.subblock⟩

/-- loop of the constructor (`gamma_vector.hpp:26-35`) -/
def gvLoop : List Word → Darray64Builder → Builder → Option (Darray64Builder × Builder)
  | [], high, low => some (high, low)
  | x :: xs, high, low => do
    let val := x + 1
    let l := msb1 val
    let one ← shl 1 l
    let low ← bAppendBits low (val ^^^ one) l
    let high ← d64Append1 high l
    gvLoop xs high low

/-- `gamma_vector.hpp:18-39` -/
def gvBuild (ints : List Word) : Option GammaVec := do
  let high ← Darray64.new
  let low ← Builder.new 0 false
  let high ← d64Append1 high 0
  let (high, low) ← gvLoop ints high low
  pure ⟨d64OfBuilder high, bitVector low⟩

/-- loop of the constructor (`gamma_bit_vector.hpp:31-41`); for `l = 0` the `int` `l - 1` becomes the `size_t` `2^64 - 1` -/
def gbvLoop : List Word → Darray64Builder → Builder → Option (Darray64Builder × Builder)
  | [], high, low => some (high, low)
  | x :: xs, high, low => do
    let val := x + 2
    let l := msb1 val
    let high ← d64Append1 high (if l = 0 then 2^64 - 1 else l - 1)
    let one ← shl 1 l
    let low ← bAppendBits low (val ^^^ one) l
    gbvLoop xs high low

/-- `gamma_bit_vector.hpp:23-45` -/
def gbvBuild (vals : List Word) : Option GammaVec := do
  let high ← Darray64.new
  let low ← Builder.new 0 false
  let high ← d64Append1 high 0
  let (high, low) ← gbvLoop vals high low
  pure ⟨d64OfBuilder high, bitVector low⟩

end Release
end Succinct
