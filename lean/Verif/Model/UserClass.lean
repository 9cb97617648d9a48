import Verif.Model.Mapper

/-! # User-defined classes under `mapper.hpp`, and `test_mapper.cpp`

A class takes part in freezing and mapping by a member template `map(Visitor&)` (`mapper.hpp:66,114,178`), an
arbitrary piece of C++ that passes members to the visitor.  Which members it passes may depend on what the object
holds at that moment, and under `map_visitor` the object is being overwritten meanwhile.  `Visit` is such a piece of
code: passing a POD, passing a `mappable_vector`, and branching on the members of the object.  A member of class type
just contributes the visits of its own `map` (`mapper.hpp:66,114,178`), so these are spliced in.

Members are numbered.  The members of the visited object are of the types the visits name; where they are not, the
model is undefined (such a program does not compile). -/
namespace Succinct.Mapper

/-- what a member holds (`mappable_vector.hpp:119-121`): the bytes of a POD, a vector that owns its elements or a vector
pointing into the mapped image (element size, offset, length) -/
inductive Cell
  | pod (bytes : List Byte)
  | own (elems : List (List Byte))
  | mapped (esize off size : Nat)
deriving DecidableEq, Repr

/-- what can be seen of a member: a value or the elements (`mappable_vector.hpp:101-104`) -/
inductive Content
  | pod (bytes : List Byte)
  | vec (elems : List (List Byte))
deriving DecidableEq, Repr

/-- the members of an object (e.g. `test_mapper.cpp:53-54`) -/
abbrev Members := Nat → Cell

/-- reads a member through its pointer (`mappable_vector.hpp:101-104`); undefined outside the image -/
def Cell.look (img : List Byte) : Cell → Option Content
  | .pod bs => some (.pod bs)
  | .own xs => some (.vec xs)
  | .mapped es off n => (loadElems img es n off).map .vec

/-- a `map(Visitor&)` member (e.g. `test_mapper.cpp:45-51`); `test` is an `if` on the members of the object -/
inductive Visit
  | stop
  | pod (m k : Nat) (rest : Visit)
  | vec (m es : Nat) (rest : Visit)
  | test (p : (Nat → Option Content) → Bool) (yes no : Visit)

/-- the object under `freeze_visitor`, `mapper.hpp:63-88`; `img` is what its mapped vectors point into -/
def freezeP (img : List Byte) (x : Members) : Visit → Out → Option Out
  | .stop, o => some o
  | .pod m k rest, o =>
    match x m with
    | .pod bs => if bs.length = k then freezeP img x rest (o.put bs k) else none
    | _ => none
  | .vec m es rest, o => do
    match ← (x m).look img with
    | .vec xs =>
      let o := o.put (leEnc 8 xs.length) 8
      let n := xs.length * es % 2^64
      let data ← rdBytes xs.flatten 0 n
      freezeP img x rest (o.put data n)
    | .pod _ => none
  | .test p yes no, o => if p (fun m => (x m).look img) then freezeP img x yes o else freezeP img x no o

/-- `mapper.hpp:234-240` -/
def freezeU (P : Visit) (img : List Byte) (x : Members) (flags : Nat) : Option Out :=
  freezeP img x P (Out.put ⟨[], 0⟩ (leEnc 8 flags) 8)

/-- the assignment of one member (`mapper.hpp:121,129-132`) -/
def Members.assign (y : Members) (m : Nat) (c : Cell) : Members := fun k => if k = m then c else y k

/-- the object under `map_visitor`, `mapper.hpp:111-145`; a branch looks at the object as it is at that moment -/
def mapP (flags : Word) (img : List Byte) : Visit → Members → Nat → Option (Members × Nat)
  | .stop, y, pos => some (y, pos)
  | .pod m k rest, y, pos => do
    let bs ← rdBytes img pos k
    mapP flags img rest (y.assign m (.pod bs)) (pos + k)
  | .vec m es rest, y, pos => do
    let bs ← rdBytes img pos 8
    let size := leDec bs
    let pos := pos + 8
    let bytes := size * es % 2^64
    warmupIf flags img es size pos
    mapP flags img rest (y.assign m (.mapped es pos size)) (pos + bytes)
  | .test p yes no, y, pos =>
    if p (fun m => (y m).look img) then mapP flags img yes y pos else mapP flags img no y pos

/-- `mapper.hpp:249-255`, onto an object that has held `y` until then -/
def mapU (P : Visit) (img : List Byte) (flags : Word) (y : Members) : Option (Members × Nat) := do
  let _ ← rdBytes img 0 8
  mapP flags img P y 8

/-- the object under `sizeof_visitor`, `mapper.hpp:168-207` without a tree -/
def sizeP (img : List Byte) (x : Members) : Visit → Nat → Option Nat
  | .stop, s => some s
  | .pod _ k rest, s => sizeP img x rest (s + k)
  | .vec m es rest, s =>
    match x m with
    | .own xs => sizeP img x rest (s + 8 + xs.length * es % 2^64)
    | .mapped _ _ n => sizeP img x rest (s + 8 + n * es % 2^64)
    | .pod _ => none
  | .test p yes no, s => if p (fun m => (x m).look img) then sizeP img x yes s else sizeP img x no s

/-! ## test_mapper.cpp -/

/-- `complex_struct`, `test_mapper.cpp:33-55` -/
structure ComplexStruct where
  a : Nat
  b : List Nat
deriving DecidableEq, Repr

/-- `complex_struct::map`, `test_mapper.cpp:45-51` -/
def Codec.complexStruct : Codec ComplexStruct :=
  iso (u64 "m_a" ⊳ vec "m_b" 4 (leEnc 4) leDec (· < 2^32)) (fun p => ⟨p.1, p.2⟩) (fun v => (v.a, v.b))

/-- `mappable_vector<int>` visited itself (`test_mapper.cpp:10,20,25`) -/
def Codec.vecInt : Codec (List Int) := vi32 "<TOP>"

/-- `basic_map`, `test_mapper.cpp:8-31`, with `nums` for `{1, 2, 3, 4}`: `false` if a check fails.  The file holds what
`freeze` writes. -/
def basicMap (nums : List Int) : Option Bool := do
  let out ← freeze (Codec.vecInt.put nums .done) 0
  let (m, _) ← map (Codec.vecInt.lay .done) out.bytes 0
  let v ← load out.bytes m
  let (mapped, _) ← Codec.vecInt.get v
  pure (decide (nums.length = mapped.length ∧ nums = mapped))

/-- `complex_struct_map`, `test_mapper.cpp:57-77`, with any contents for those of `init`; `size` is the expected size -/
def complexStructMap (s : ComplexStruct) (size : Nat) : Option Bool := do
  let out ← freeze (top Codec.complexStruct "<TOP>" s) 0
  let (m, _) ← map (topLay Codec.complexStruct "<TOP>") out.bytes 0
  let v ← load out.bytes m
  let (mapped, _) ← (Codec.obj "<TOP>" Codec.complexStruct).get v
  pure (decide (size = sizeBytes (top Codec.complexStruct "" s) ∧ s.a = mapped.a ∧ s.b.length = mapped.b.length))

end Succinct.Mapper
