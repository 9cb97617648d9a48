import Verif.Model.Basic
import Verif.Model.Tables

/-! # `broadword.hpp` and `intrinsics.hpp` -/

namespace Succinct
namespace Broadword

/-- `broadword.hpp:9` -/
def onesStep4 : Word := 0x1111111111111111#64
/-- `broadword.hpp:10` -/
def onesStep8 : Word := 0x0101010101010101#64
/-- `broadword.hpp:11` -/
def onesStep9 : Word :=
  1#64 <<< 0 ||| 1#64 <<< 9 ||| 1#64 <<< 18 ||| 1#64 <<< 27 ||| 1#64 <<< 36 ||| 1#64 <<< 45
    ||| 1#64 <<< 54
/-- `broadword.hpp:12` -/
def msbsStep8 : Word := 0x80#64 * onesStep8
/-- `broadword.hpp:13` -/
def msbsStep9 : Word := 0x100#64 * onesStep9
/-- `broadword.hpp:14` (declared but unused by the library) -/
def incrStep8 : Word :=
  0x80#64 <<< 56 ||| 0x40#64 <<< 48 ||| 0x20#64 <<< 40 ||| 0x10#64 <<< 32 ||| 0x8#64 <<< 24
    ||| 0x4#64 <<< 16 ||| 0x2#64 <<< 8 ||| 0x1#64
/-- `broadword.hpp:15` -/
def invCountStep9 : Word :=
  1#64 <<< 54 ||| 2#64 <<< 45 ||| 3#64 <<< 36 ||| 4#64 <<< 27 ||| 5#64 <<< 18 ||| 6#64 <<< 9
    ||| 7#64
/-- `broadword.hpp:17` -/
def magicMask1 : Word := 0x5555555555555555#64
/-- `broadword.hpp:18` -/
def magicMask2 : Word := 0x3333333333333333#64
/-- `broadword.hpp:19` -/
def magicMask3 : Word := 0x0F0F0F0F0F0F0F0F#64
/-- `broadword.hpp:20` -/
def magicMask4 : Word := 0x00FF00FF00FF00FF#64
/-- `broadword.hpp:21` -/
def magicMask5 : Word := 0x0000FFFF0000FFFF#64

/-- `broadword.hpp:24-27` -/
def leqStep8 (x y : Word) : Word :=
  ((((y ||| msbsStep8) - (x &&& ~~~msbsStep8)) ^^^ (x ^^^ y)) &&& msbsStep8) >>> 7

/-- `broadword.hpp:29-32` -/
def uleqStep8 (x y : Word) : Word :=
  (((((y ||| msbsStep8) - (x &&& ~~~msbsStep8)) ^^^ (x ^^^ y)) ^^^ (x &&& ~~~y)) &&& msbsStep8)
    >>> 7

/-- `broadword.hpp:34-37` -/
def zcompareStep8 (x : Word) : Word :=
  ((x ||| ((x ||| msbsStep8) - onesStep8)) &&& msbsStep8) >>> 7

/-- `broadword.hpp:39-42` -/
def uleqStep9 (x y : Word) : Word :=
  (((((y ||| msbsStep9) - (x &&& ~~~msbsStep9)) ||| (x ^^^ y)) ^^^ (x &&& ~~~y)) &&& msbsStep9)
    >>> 8

/-- `broadword.hpp:44-50` -/
def byteCounts (x : Word) : Word :=
  let x1 := x - ((x &&& (0xa#64 * onesStep4)) >>> 1)
  let x2 := (x1 &&& (3#64 * onesStep4)) + ((x1 >>> 2) &&& (3#64 * onesStep4))
  (x2 + (x2 >>> 4)) &&& (0x0f#64 * onesStep8)

/-- `broadword.hpp:52-55` -/
def bytesSum (x : Word) : Word := (x * onesStep8) >>> 56

/-- `intrinsics.hpp:92-97` (`_mm_popcnt_u64`): documented meaning of the instruction, the number
of set bits.  Trusted. -/
def popcountIntrinsic (x : Word) : Nat := ((List.range 64).filter fun i => x.getLsbD i).length

/-- `broadword.hpp:57-64`, `SUCCINCT_USE_POPCNT` off (the default configuration). -/
def popcount (x : Word) : Nat := (bytesSum (byteCounts x)).toNat

/-- `intrinsics.hpp:33-42` (`__builtin_bswap64`): documented meaning, the eight bytes in reverse
order.  Trusted. -/
def byteswap64 (x : Word) : Word :=
  x.extractLsb' 0 8 ++ x.extractLsb' 8 8 ++ x.extractLsb' 16 8 ++ x.extractLsb' 24 8 ++
    x.extractLsb' 32 8 ++ x.extractLsb' 40 8 ++ x.extractLsb' 48 8 ++ x.extractLsb' 56 8

/-- `broadword.hpp:66-76`, `SUCCINCT_USE_INTRINSICS` on (the default configuration). -/
def reverseBytes (x : Word) : Word := byteswap64 x

/-- `broadword.hpp:71-74`, `SUCCINCT_USE_INTRINSICS` off. -/
def reverseBytesPortable (x : Word) : Word :=
  let x1 := ((x >>> 8) &&& magicMask4) ||| ((x &&& magicMask4) <<< 8)
  let x2 := ((x1 >>> 16) &&& magicMask5) ||| ((x1 &&& magicMask5) <<< 16)
  (x2 >>> 32) ||| (x2 <<< 32)

/-- `broadword.hpp:80-82`: the part of `reverse_bits` that reverses within bytes. -/
def reverseBitsInBytes (x : Word) : Word :=
  let x1 := ((x >>> 1) &&& magicMask1) ||| ((x &&& magicMask1) <<< 1)
  let x2 := ((x1 >>> 2) &&& magicMask2) ||| ((x1 &&& magicMask2) <<< 2)
  ((x2 >>> 4) &&& magicMask3) ||| ((x2 &&& magicMask3) <<< 4)

/-- `broadword.hpp:78-84` -/
def reverseBits (x : Word) : Word := reverseBytes (reverseBitsInBytes x)

/-- `broadword.hpp:78-84` with the portable `reverse_bytes`. -/
def reverseBitsPortable (x : Word) : Word := reverseBytesPortable (reverseBitsInBytes x)

/-- `broadword.hpp:90-93`: `byte_sums` and `geq_k_step_8` of `select_in_word`. -/
def byteSums (x : Word) : Word := byteCounts x * onesStep8

/-- `broadword.hpp:92-93` -/
def geqKStep8 (x : Word) (k : Nat) : Word :=
  (((BitVec.ofNat 64 k * onesStep8) ||| msbsStep8) - byteSums x) &&& msbsStep8

/-- `broadword.hpp:97`: `place` without POPCNT (the default configuration). -/
def selectPlace (x : Word) (k : Nat) : Word :=
  ((((geqKStep8 x k) >>> 7) * onesStep8) >>> 53) &&& ~~~(0x7#64)

/-- `broadword.hpp:95`: `place` with POPCNT. -/
def selectPlacePopcnt (x : Word) (k : Nat) : Word :=
  BitVec.ofNat 64 (popcountIntrinsic (geqKStep8 x k)) * 8#64

/-- `broadword.hpp:99-100`: the end of `select_in_word` for a given `place`. -/
def selectFinish (x : Word) (k : Nat) (place : Word) : Option Nat := do
  let s ← shr (byteSums x <<< 8) place.toNat
  let byteRank := BitVec.ofNat 64 k - (s &&& 0xFF#64)
  let b ← shr x place.toNat
  let e ← selectInByteTable[((b &&& 0xFF#64) ||| (byteRank <<< 8)).toNat]?
  pure (place.toNat + e)

/-- `broadword.hpp:86-101` (default configuration) -/
def selectInWord (x : Word) (k : Nat) : Option Nat := do
  assertP (k < popcount x)
  selectFinish x k (selectPlace x k)

/-- `broadword.hpp:86-101`, `SUCCINCT_USE_POPCNT` on -/
def selectInWordPopcnt (x : Word) (k : Nat) : Option Nat := do
  assertP (k < popcountIntrinsic x)
  selectFinish x k (selectPlacePopcnt x k)

/-- `broadword.hpp:103-106` -/
def sameMsb (x y : Word) : Bool := (x ^^^ y) ≤ (x &&& y)

/-- `broadword.hpp:110-119` -/
def debruijn64Mapping : List Nat := [
  63,  0, 58,  1, 59, 47, 53,  2,
  60, 39, 48, 27, 54, 33, 42,  3,
  61, 51, 37, 40, 49, 18, 28, 20,
  55, 30, 34, 11, 43, 14, 22,  4,
  62, 57, 46, 52, 38, 26, 32, 41,
  50, 36, 17, 19, 29, 10, 13, 21,
  56, 45, 25, 31, 35, 16,  9, 12,
  44, 24, 15,  8, 23,  7,  6,  5]

/-- `broadword.hpp:120` -/
def debruijn64 : Word := 0x07EDD5E59A4E28C2#64

/-- `broadword.hpp:124-129` -/
def bitPosition (x : Word) : Option Nat := do
  assertP (popcount x = 1)
  debruijn64Mapping[((x * debruijn64) >>> 58).toNat]?

/-- `broadword.hpp:131-154` with `intrinsics.hpp:60-74` (default configuration).  The C++ returns
a flag and stores the index through a reference; `none` models the flag `false` (reference
untouched), `some i` the flag `true` with index `i`.  `63 - __builtin_clzll(mask)` is modelled by
its documented meaning. -/
def msb (x : Word) : Option Nat := (List.range 64).reverse.find? fun i => x.getLsbD i

/-- `broadword.hpp:164-175` with `intrinsics.hpp:44-58` (default configuration); `__builtin_ctzll`
is modelled by its documented meaning. -/
def lsb (x : Word) : Option Nat := (List.range 64).find? fun i => x.getLsbD i

/-- `broadword.hpp:140-149`: right-saturate the word, then isolate the most significant bit. -/
def isolateMsb (x : Word) : Word :=
  let x := x ||| (x >>> 1)
  let x := x ||| (x >>> 2)
  let x := x ||| (x >>> 4)
  let x := x ||| (x >>> 8)
  let x := x ||| (x >>> 16)
  let x := x ||| (x >>> 32)
  x ^^^ (x >>> 1)

/-- `broadword.hpp:136-152`: `msb` with `SUCCINCT_USE_INTRINSICS` off.  The outer `Option` is
undefined behaviour / assertion failure, the inner one the returned flag and index. -/
def msbPortable (x : Word) : Option (Option Nat) :=
  if x = 0 then some none
  else (bitPosition (isolateMsb x)).map some

/-- `broadword.hpp:169-173`: `lsb` with `SUCCINCT_USE_INTRINSICS` off. -/
def lsbPortable (x : Word) : Option (Option Nat) :=
  if x = 0 then some none
  else (bitPosition (x &&& -x)).map some

/-- `broadword.hpp:156-162`: `assert(x)`, then the index. -/
def msb1 (x : Word) : Option Nat := do
  assertP (x ≠ 0)
  msb x

/-- `broadword.hpp:177-183` -/
def lsb1 (x : Word) : Option Nat := do
  assertP (x ≠ 0)
  lsb x

end Broadword
end Succinct
