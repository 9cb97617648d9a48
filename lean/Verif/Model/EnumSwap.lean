import Verif.Model.Enumerator
import Verif.Spec.EnumSwap

/-! # `bit_vector.hpp:234-237, 352-522`: enumerators of vectors that are swapped

`enumerator` holds a pointer to the `bit_vector` (`bit_vector.hpp:424`), `unary_enumerator` a pointer to the words
(`bit_vector.hpp:519`).  So here a `bit_vector` is an object whose words are somewhere else. -/
namespace Succinct
open Broadword Spec

namespace EnumSwap

/-- `bit_vector::m_size` and `m_bits.m_data` (`bit_vector.hpp:525-526`, `mappable_vector.hpp:119`); `none` is the null pointer.
`m_bits.m_size` and the deleter always go with `m_data` and are left out. -/
structure Obj where
  size : Nat
  data : Option Nat
deriving DecidableEq, Repr

/-- The objects, and the blocks of words; `none` is a block that was freed (`bit_vector.hpp:525-526`). -/
structure Mem where
  objs : List Obj
  heap : List (Option (List Word))
deriving DecidableEq, Repr

/-- Vectors built one after the other from ranges (`bit_vector.hpp:195-220`), each with its own block; that of an empty range is
a block without words, where the code has a null pointer. -/
def Mem.ofRanges (ls : List (List Bool)) : Mem :=
  ⟨ls.zipIdx.map fun x => ⟨(BitVector.ofRange x.1).size, some x.2⟩, ls.map fun l => some (BitVector.ofRange l).bits⟩

/-- The words that may be read through a pointer, `m_data[..]` (`mappable_vector.hpp:101-108`): none if it is null or was freed. -/
def Mem.words (m : Mem) (d : Option Nat) : List Word :=
  match d with
  | none => []
  | some k => ((m.heap[k]?).getD none).getD []

/-- the object as the members of `bit_vector` see it (`bit_vector.hpp:525-526`) -/
def Mem.vec (m : Mem) (x : Nat) : Option BitVector := do
  let o ← rd m.objs x
  pure ⟨o.size, m.words o.data⟩

/-- `bit_vector.hpp:234-237` with `mappable_vector.hpp:61-66`: first the sizes, then the pointers. -/
def Mem.swap (m : Mem) (x y : Nat) : Option Mem := do
  let ox ← rd m.objs x
  let oy ← rd m.objs y
  let objs ← wr m.objs x { ox with size := oy.size }
  let oy ← rd objs y
  let objs ← wr objs y { oy with size := ox.size }
  let ox ← rd objs x
  let oy ← rd objs y
  let objs ← wr objs x { ox with data := oy.data }
  let oy ← rd objs y
  let objs ← wr objs y { oy with data := ox.data }
  pure { m with objs }

/-- `bit_vector().swap(x)` (`bit_vector.hpp:191-193, 234-237`): the temporary gets the words of `x` and frees them
(`mappable_vector.hpp:55-59`). -/
def Mem.drop (m : Mem) (x : Nat) : Option Mem := do
  let ox ← rd m.objs x
  let objs ← wr m.objs x ⟨0, none⟩
  match ox.data with
  | none => pure { m with objs }
  | some k => pure ⟨objs, m.heap.set k none⟩

/-- A history of `enumerator` on object `i` (`bit_vector.hpp:352-428`): `m_bv` is looked up at every call. -/
def run (i : Nat) : Mem → Enum → List (SwapOp EnumOp) → Option (List (EnumOut × Nat))
  | _, _, [] => some []
  | m, e, .swap x y :: ops => do let m ← m.swap x y; run i m e ops
  | m, e, .drop x :: ops => do let m ← m.drop x; run i m e ops
  | m, e, .read op :: ops => do
    let v ← m.vec i
    let (o, e) ← Enum.step v e op
    let outs ← run i m e ops
    pure ((o, e.pos) :: outs)

/-- A history of `unary_enumerator` with pointer `d` (`bit_vector.hpp:430-522`). -/
def runUnary (d : Option Nat) : Mem → UEnum → List (SwapOp UnaryOp) → Option (List (Option Nat))
  | _, _, [] => some []
  | m, e, .swap x y :: ops => do let m ← m.swap x y; runUnary d m e ops
  | m, e, .drop x :: ops => do let m ← m.drop x; runUnary d m e ops
  | m, e, .read op :: ops => do
    let (o, e) ← UEnum.step (m.words d) e op
    let outs ← runUnary d m e ops
    pure (o :: outs)

/-- `unary_enumerator(bv, pos)` on object `i` (`bit_vector.hpp:437-444`), then the history. -/
def unary (m : Mem) (i pos : Nat) (ops : List (SwapOp UnaryOp)) : Option (List (Option Nat)) := do
  let o ← rd m.objs i
  let e ← UEnum.new (m.words o.data) pos
  runUnary o.data m e ops

end EnumSwap
end Succinct
