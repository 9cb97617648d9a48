import Verif.Model.BitVector
import Verif.Spec.Builder

/-! # `bit_vector_builder` with assertions compiled out

The functions of `Model/BitVector.lean` that contain assertions, without them; the others are used as they are.  `none` is undefined
behaviour: an access outside the vector or through a dangling pointer, an over-wide shift.  Sizes are taken not to overflow 64 bits. -/
namespace Succinct
namespace Release
open Builder (lenMask back orCur)

/-- `bit_vector.hpp:62-80` -/
def bSetBits (b : Builder) (pos : Nat) (bits : Word) (len : Nat) : Option Builder :=
  if len = 0 then pure b else do
    let mask ← lenMask len
    let word := pos / 64
    let posInWord := pos % 64
    let m ← shl mask posInWord
    let w ← rd b.bits word
    let ws ← wr b.bits word (w &&& ~~~m)
    let v ← shl bits posInWord
    let w ← rd ws word
    let ws ← wr ws word (w ||| v)
    let stored := 64 - posInWord
    if stored < len then
      let m ← shr mask stored
      let w ← rd ws (word + 1)
      let ws ← wr ws (word + 1) (w &&& ~~~m)
      let v ← shr bits stored
      let w ← rd ws (word + 1)
      let ws ← wr ws (word + 1) (w ||| v)
      pure { b with bits := ws }
    else pure { b with bits := ws }

/-- `bit_vector.hpp:82-98` -/
def bAppendBits (b : Builder) (bits : Word) (len : Nat) : Option Builder :=
  if len = 0 then pure b else
    let posInWord := b.size % 64
    if posInWord = 0 then do
      let ws := b.bits ++ [bits]
      let c ← back ws
      pure ⟨ws, b.size + len, some c⟩
    else do
      let v ← shl bits posInWord
      let ws ← orCur b.bits b.cur v
      if len > 64 - posInWord then
        let v ← shr bits (64 - posInWord)
        let ws := ws ++ [v]
        let c ← back ws
        pure ⟨ws, b.size + len, some c⟩
      else
        let c ← back ws
        pure ⟨ws, b.size + len, some c⟩

/-- `bit_vector.hpp:111-117`; `fuel` bounds the `while` loop -/
def bOneExtendLoop : Nat → Builder → Nat → Option Builder
  | fuel, b, n =>
    if n ≥ 64 then
      match fuel with
      | 0 => none
      | fuel + 1 => do
        let b ← bAppendBits b (BitVec.allOnes 64) 64
        bOneExtendLoop fuel b (n - 64)
    else if n ≠ 0 then do
      let v ← shr (BitVec.allOnes 64) (64 - n)
      bAppendBits b v n
    else some b

/-- `bit_vector.hpp:109-118` -/
def bOneExtend (b : Builder) (n : Nat) : Option Builder := bOneExtendLoop n b n

/-- `bit_vector.hpp:148-165` -/
def bReverse (b : Builder) : Option Builder := do
  let (ws, _) ← Builder.reverseLoop (64 - b.size % 64) b.bits 0
  pure { b with bits := ws.reverse }

/-- a history of calls of the functions of `bit_vector.hpp:27-165` -/
def bRun : Spec.Prog → Option Builder
  | .new n b => Builder.new n b
  | .pushBack p b => do (← bRun p).pushBack b
  | .set p pos b => do (← bRun p).set pos b
  | .setBits p pos bits len => do bSetBits (← bRun p) pos bits len
  | .appendBits p bits len => do bAppendBits (← bRun p) bits len
  | .zeroExtend p n => do (← bRun p).zeroExtend n
  | .oneExtend p n => do bOneExtend (← bRun p) n
  | .append p q => do
    let a ← bRun p
    let b ← bRun q
    a.append b
  | .reverse p => do bReverse (← bRun p)
  | .reserve p r => do (← bRun p).reserve r

/-- `bit_vector.hpp:222-225` with `move_bits` (`:167-170`) -/
def bitVector (b : Builder) : BitVector := ⟨b.size, b.bits⟩

end Release
end Succinct
