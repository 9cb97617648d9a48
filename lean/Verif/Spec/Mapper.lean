import Verif.Model.Mapper

/-! # What freezing and mapping should do

Stated over a `map(Visitor&)` member `c` (a `Codec`): the list of visited fields. -/
namespace Succinct.Spec
open Succinct.Mapper

/-- whatever the flags, the name and the bytes after the image, freezing `x` succeeds, mapping the
image succeeds, every mapped vector can be read, and the object seen through the mapped fields is `x` -/
def RestoresAt {α : Type} (c : Codec α) (x : α) : Prop :=
  ∀ (flags : Nat) (mflags : Word) (name : String) (tail : List Byte),
    ∃ out m n y, freeze (top c name x) flags = some out ∧ map (topLay c name) (out.bytes ++ tail) mflags = some (m, n) ∧
      load (out.bytes ++ tail) m = some y ∧ (Codec.obj name c).get y = some (x, .done)

/-- C40 -/
def Restores {α : Type} (c : Codec α) : Prop := ∀ (x : α), c.fits x → RestoresAt c x

/-- C41: the count returned by `freeze` is the number of bytes written, the one returned by `map` is the
same, and both are `size_of` plus the 8 bytes of the flags word. -/
def Accounts {α : Type} (c : Codec α) : Prop :=
  ∀ (x : α), c.fits x → ∀ (flags : Nat) (mflags : Word) (name : String) (tail : List Byte),
    ∃ out m, freeze (top c name x) flags = some out ∧ out.written = out.bytes.length ∧
      map (topLay c name) (out.bytes ++ tail) mflags = some (m, out.bytes.length) ∧
      sizeBytes (top c "" x) + 8 = out.bytes.length

/-- bytes of the POD fields visited directly -/
def podBytes : Val → Nat
  | .done => 0
  | .pod _ bs rest => bs.length + podBytes rest
  | .vec _ _ _ rest => podBytes rest
  | .obj _ _ rest => podBytes rest

/-- sum of the sizes of a list of nodes -/
def nodesTotal : Nodes → Nat
  | .nil => 0
  | .cons _ s _ next => s + nodesTotal next

/-- the nodes for the fields: one per vector or object field, in order and with its name; a vector takes
8 bytes for its length plus its elements, an object the sizes of its nodes plus its PODs -/
inductive Describes : Val → Nodes → Prop
  | done : Describes .done .nil
  | pod (name : String) (bs : List Byte) {rest : Val} {ns : Nodes} : Describes rest ns → Describes (.pod name bs rest) ns
  | vec (name : String) (es : Nat) (xs : List (List Byte)) {rest : Val} {ns : Nodes} :
      Describes rest ns → Describes (.vec name es xs rest) (.cons name (8 + xs.flatten.length) .nil ns)
  | obj (name : String) {inner rest : Val} {ch ns : Nodes} :
      Describes inner ch → Describes rest ns → Describes (.obj name inner rest) (.cons name (nodesTotal ch + podBytes inner) ch ns)

/-- names of a list of nodes -/
def nodeNames : Nodes → List String
  | .nil => []
  | .cons name _ _ next => name :: nodeNames next

/-- C42 -/
def TreeSpec {α : Type} (c : Codec α) (names : List String) : Prop :=
  ∀ (x : α), c.fits x → ∀ name : String, ∃ size ch,
    sizeTreeOf (top c name x) = some (name, size, ch) ∧ size = sizeBytes (top c "" x) ∧
    size = nodesTotal ch + podBytes (c.put x .done) ∧ Describes (c.put x .done) ch ∧ nodeNames ch = names

/-- the element size, offset and length of every vector of a mapped object -/
def vectors : MVal → List (Nat × Nat × Nat)
  | .done => []
  | .pod _ _ rest => vectors rest
  | .vec _ es off n rest => (es, off, n) :: vectors rest
  | .obj _ i rest => vectors i ++ vectors rest

/-- C51: in an image at an 8-byte aligned address every vector of every mapped structure is aligned to
its element size (all elements are integers of 1, 2, 4 or 8 bytes, aligned to their size) -/
def Aligned {α : Type} (c : Codec α) : Prop :=
  ∀ (x : α), c.fits x → ∀ (flags : Nat) (mflags : Word) (name : String) (out : Out) (m : MVal) (n : Nat),
    freeze (top c name x) flags = some out → map (topLay c name) out.bytes mflags = some (m, n) →
    ∀ p ∈ vectors m, p.2.1 % p.1 = 0

/-- C52: if the image is cut anywhere, mapping it reads outside it or leaves a vector that is not inside -/
def DetectsTruncation {α : Type} (c : Codec α) : Prop :=
  ∀ (x : α), c.fits x → ∀ (flags : Nat) (mflags : Word) (name : String) (out : Out),
    freeze (top c name x) flags = some out → ∀ k, k < out.bytes.length → ∀ (m : MVal) (n : Nat),
      map (topLay c name) (out.bytes.take k) mflags = some (m, n) → load (out.bytes.take k) m = none

end Succinct.Spec
