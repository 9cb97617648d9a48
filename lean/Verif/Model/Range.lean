import Verif.Spec.IntType
import Verif.Model.EliasFano
import Verif.Model.Gamma

/-! # Compressed lists from ranges of any integer type

The constructors of `elias_fano_compressed_list`, `gamma_vector` and `gamma_bit_vector` take any range.  They use of an element only `*iter + 1`
or `*iter + 2`, computed in the promoted type of the element and then converted to `uint64_t`
(`elias_fano_compressed_list.hpp:23,34`, `gamma_vector.hpp:29`, `gamma_bit_vector.hpp:34`). -/
namespace Succinct
open Spec (IntType)

/-- `*iter + k` for an element of type `t` (`elias_fano_compressed_list.hpp:23,34`, `gamma_vector.hpp:29`, `gamma_bit_vector.hpp:34`): signed
overflow is undefined, unsigned arithmetic wraps -/
def plusK (t : IntType) (k : Nat) (x : Int) : Option Int :=
  if t.promote.signed then (if x + k ≤ t.promote.max then some (x + k) else none) else some ((x + k) % 2^t.promote.bits)

/-- the sums for all elements, converted to `uint64_t` (`elias_fano_compressed_list.hpp:23,34`, `gamma_vector.hpp:29`, `gamma_bit_vector.hpp:34`) -/
def sumsK (t : IntType) (k : Nat) (v : List Int) : Option (List Word) := (v.mapM (plusK t k)).map (·.map (BitVec.ofInt 64))

/-- `elias_fano_compressed_list.hpp:14-41` on a range of type `t`; the words given to `EFCompressedList.build` are those whose `+ 1` is the sum computed -/
def EFCompressedList.buildRange (t : IntType) (v : List Int) : Option EFCompressedList := do
  let s ← sumsK t 1 v
  EFCompressedList.build (s.map (· - 1))

/-- `gamma_vector.hpp:18-39` on a range of type `t` -/
def GammaVector.buildRange (t : IntType) (v : List Int) : Option GammaVec := do
  let s ← sumsK t 1 v
  GammaVector.build (s.map (· - 1))

/-- `gamma_bit_vector.hpp:23-45` on a range of type `t` -/
def GammaBitVector.buildRange (t : IntType) (v : List Int) : Option GammaVec := do
  let s ← sumsK t 2 v
  GammaBitVector.build (s.map (· - 2))

end Succinct
