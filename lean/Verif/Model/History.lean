import Verif.Model.BitVector
import Verif.Spec.Builder

/-! Interpretation of builder histories by the modelled builder (`bit_vector.hpp:22-187`). -/
namespace Succinct
open Spec

/-- Performs the calls of a history on the model of `bit_vector_builder` (`bit_vector.hpp:22-187`). -/
def Builder.run : Prog → Option Builder
  | .new n b => Builder.new n b
  | .pushBack p b => do (← run p).pushBack b
  | .set p pos b => do (← run p).set pos b
  | .setBits p pos bits len => do (← run p).setBits pos bits len
  | .appendBits p bits len => do (← run p).appendBits bits len
  | .zeroExtend p n => do (← run p).zeroExtend n
  | .oneExtend p n => do (← run p).oneExtend n
  | .append p q => do
    let a ← run p
    let b ← run q
    a.append b
  | .reverse p => do (← run p).reverse
  | .reserve p r => do (← run p).reserve r

end Succinct
