import Verif.Model.ByteOrder

/-! # What should hold on machines of either byte order -/
namespace Succinct.Spec
open Succinct.Mapper

/-- the numbers of elements of the vectors of a value -/
def lens : Val → List Nat
  | .done => []
  | .pod _ _ rest => lens rest
  | .vec _ _ xs rest => xs.length :: lens rest
  | .obj _ inner rest => lens inner ++ lens rest

/-- element sizes are positive -/
def layPos : Lay → Bool
  | .done => true
  | .pod _ _ rest => layPos rest
  | .vec _ es rest => decide (0 < es) && layPos rest
  | .obj _ inner rest => layPos inner && layPos rest

/-- whatever the flags, the name and the bytes after the image: an object frozen on a machine and mapped on a machine of the same byte order
is restored.  `inMemory` turns the fields with the least significant byte first into the bytes of the machine, and back. -/
def RestoresOn {α : Type} (big : Bool) (c : Codec α) : Prop :=
  ∀ (x : α), c.fits x → ∀ (flags : Nat) (mflags : Word) (name : String) (tail : List Byte),
    ∃ out m y, ByteOrder.freeze big (ByteOrder.inMemory big (top c name x)) flags = some out ∧
      ByteOrder.map big (topLay c name) (out.bytes ++ tail) mflags = some (m, out.bytes.length) ∧
      load (out.bytes ++ tail) m = some y ∧ (Codec.obj name c).get (ByteOrder.inMemory big y) = some (x, .done)

/-- an image taken to a machine of the other byte order cannot be read there: some vector reaches outside it.  For images below 4 GB of
objects that have at least one element in some vector. -/
def UnreadableAbroad {α : Type} (big : Bool) (c : Codec α) : Prop :=
  ∀ (x : α), c.fits x → ∀ (flags : Nat) (mflags : Word) (name : String) (out : Out),
    ByteOrder.freeze big (ByteOrder.inMemory big (top c name x)) flags = some out → out.bytes.length < 2^32 →
    (∃ n ∈ lens (c.put x .done), 0 < n) →
    ∀ m k, ByteOrder.map (!big) (topLay c name) out.bytes mflags = some (m, k) → load out.bytes m = none

end Succinct.Spec
