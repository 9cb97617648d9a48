import Verif.Model.BitVector

/-! # A `bit_vector_builder` after a `bit_vector` has been constructed from it

`bit_vector(bit_vector_builder*)` (`bit_vector.hpp:222-225`) takes the buffer of the builder by
`mappable_vector::steal` (`mappable_vector.hpp:72-81`), that is by `std::vector::swap`.  This leaves
`m_bits` of the builder empty, `m_size` as it was, and `m_cur_word` pointing into the buffer that now
belongs to the vector.  The vector is assumed to be alive during the whole history. -/
namespace Succinct

/-- where `m_cur_word` (`bit_vector.hpp:186`) points -/
inductive CurPtr where
  /-- uninitialised or dangling -/
  | wild
  /-- into the buffer of the builder itself -/
  | own (i : Nat)
  /-- into the buffer of the vector built before -/
  | lent (i : Nat)
deriving DecidableEq, Repr

/-- the vector (`bit_vector.hpp:525-526`), and the members of the builder it was made from (`bit_vector.hpp:184-186`) -/
structure Spent where
  vec : BitVector
  bits : List Word
  size : Nat
  cur : CurPtr
deriving DecidableEq, Repr

namespace Spent

/-- `bit_vector.hpp:222-225`, `move_bits` (`bit_vector.hpp:167-170`) and `mappable_vector.hpp:72-81`.
Swapping two `std::vector`s keeps pointers to their elements valid. -/
def consume (b : Builder) : Option Spent := do
  assertP (wordsFor b.size = b.bits.length)
  pure ⟨⟨b.size, b.bits⟩, [], b.size, match b.cur with | some c => .lent c | none => .wild⟩

/-- `*m_cur_word |= v` (`bit_vector.hpp:50,92`) -/
def orCur (s : Spent) (v : Word) : Option Spent :=
  match s.cur with
  | .wild => none
  | .own c => do
    let bits ← Builder.orCur s.bits (some c) v
    pure { s with bits := bits }
  | .lent c => do
    let bits ← Builder.orCur s.vec.bits (some c) v
    pure { s with vec := ⟨s.vec.size, bits⟩ }

/-- `bit_vector.hpp:44-52` -/
def pushBack (s : Spent) (x : Bool) : Option Spent := do
  let posInWord := s.size % 64
  let v ← shl (if x then 1 else 0) posInWord
  if posInWord = 0 then
    let bits := s.bits ++ [0]
    let c ← Builder.back bits
    let s ← orCur { s with bits := bits, cur := .own c } v
    pure { s with size := s.size + 1 }
  else
    let s ← orCur s v
    pure { s with size := s.size + 1 }

/-- `bit_vector.hpp:89-96` -/
def appendWords (s : Spent) (posInWord : Nat) (bits : Word) (len : Nat) : Option Spent :=
  if posInWord = 0 then some { s with bits := s.bits ++ [bits] }
  else do
    let v ← shl bits posInWord
    let s ← orCur s v
    if len > 64 - posInWord then
      let v ← shr bits (64 - posInWord)
      pure { s with bits := s.bits ++ [v] }
    else pure s

/-- `bit_vector.hpp:82-98` -/
def appendBits (s : Spent) (bits : Word) (len : Nat) : Option Spent := do
  Builder.noSpurious bits len
  if len = 0 then pure s else
    let posInWord := s.size % 64
    let s ← appendWords { s with size := s.size + len } posInWord bits len
    let c ← Builder.back s.bits
    pure { s with cur := .own c }

/-- `bit_vector.hpp:111-117` -/
def oneExtendLoop : Nat → Spent → Nat → Option Spent
  | fuel, s, n =>
    if n ≥ 64 then
      match fuel with
      | 0 => none
      | fuel + 1 => do
        let s ← appendBits s (BitVec.allOnes 64) 64
        oneExtendLoop fuel s (n - 64)
    else if n ≠ 0 then do
      let v ← shr (BitVec.allOnes 64) (64 - n)
      appendBits s v n
    else some s

/-- the members of the builder (`bit_vector.hpp:184-186`), seen by an operation that does not dereference `m_cur_word` -/
def builder (s : Spent) : Builder :=
  ⟨s.bits, s.size, match s.cur with | .own c => some c | _ => none⟩

/-- the effect of such an operation on `bit_vector.hpp:184-186`.  If it leaves the pointer alone (or invalidates the pointers into
the buffer of the builder) a pointer into the vector stays what it is. -/
def via (s : Spent) (op : Builder → Option Builder) : Option Spent := do
  let b ← op s.builder
  pure ⟨s.vec, b.bits, b.size,
    match b.cur with
    | some c => .own c
    | none => match s.cur with | .lent c => .lent c | _ => .wild⟩

/-- the operations of `bit_vector_builder` (`bit_vector.hpp:40-165`) that a program may perform on the builder afterwards -/
inductive Op where
  | pushBack (x : Bool)
  | set (pos : Nat) (x : Bool)
  | setBits (pos : Nat) (bits : Word) (len : Nat)
  | appendBits (bits : Word) (len : Nat)
  | zeroExtend (n : Nat)
  | oneExtend (n : Nat)
  | append (rhs : Builder)
  | reverse
  | reserve (reallocates : Bool)

/-- one operation; `set`, `set_bits`, `zero_extend`, `append`, `reverse`, `reserve`
(`bit_vector.hpp:40-42,54-80,100-107,120-165`) do not dereference `m_cur_word` -/
def step (s : Spent) : Op → Option Spent
  | .pushBack x => s.pushBack x
  | .set pos x => s.via (·.set pos x)
  | .setBits pos bits len => s.via (·.setBits pos bits len)
  | .appendBits bits len => s.appendBits bits len
  | .zeroExtend n => s.via (·.zeroExtend n)
  | .oneExtend n => oneExtendLoop n s n
  | .append rhs => s.via (·.append rhs)
  | .reverse => s.via (·.reverse)
  | .reserve r => s.via (·.reserve r)

/-- a history of operations of `bit_vector.hpp:40-165` -/
def run (s : Spent) : List Op → Option Spent
  | [] => some s
  | op :: ops => do
    let s ← s.step op
    s.run ops

end Spent
end Succinct
