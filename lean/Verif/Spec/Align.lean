import Verif.Spec.Mapper

/-! # Alignment of the elements of a mapped object -/
namespace Succinct.Spec
open Succinct.Mapper

/-- after freezing `x` and mapping the image at an 8-byte aligned address every element of every vector lies at a multiple of its size
(empty vectors have no elements) -/
def ElementsAligned {α : Type} (c : Codec α) (x : α) : Prop :=
  ∀ (flags : Nat) (mflags : Word) (name : String) (out : Out) (m : MVal) (n : Nat),
    freeze (top c name x) flags = some out → map (topLay c name) out.bytes mflags = some (m, n) →
    ∀ p ∈ vectors m, ∀ i, i < p.2.2 → (p.2.1 + i * p.1) % p.1 = 0

end Succinct.Spec
