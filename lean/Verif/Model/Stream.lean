import Verif.Model.Mapper

/-! # `mapper.hpp`: several objects in one stream

`freeze` takes an open stream, which may already hold other images (`mapper.hpp:234-240`), and `map` takes
any address (`mapper.hpp:249-255`), so a caller may freeze several objects one after the other and map
each one at the address where the previous `map` stopped. -/
namespace Succinct.Mapper

/-- `mapper.hpp:234-240` with a stream that already holds `s`: the new contents and the returned count.
The visitor's own counter starts at 0 (`mapper.hpp:56`). -/
def freezeTo (x : Val) (flags : Nat) (s : List Byte) : Option Out :=
  freezeV x (Out.put ⟨s, 0⟩ (leEnc 8 flags) 8)

/-- `mapper.hpp:249-255` with `base_address = data + base`: offsets of the mapped vectors are relative to `base` -/
def mapAt (l : Lay) (img : List Byte) (base : Nat) (flags : Word) : Option (MVal × Nat) :=
  map l (img.drop base) flags

/-- an object of some class, with the arguments of the call `freeze(x, fout, flags, name)` (`mapper.hpp:235`) -/
structure Item where
  /-- the class -/
  α : Type
  /-- its `map(Visitor&)` member -/
  c : Codec α
  /-- the object -/
  x : α
  /-- `friendly_name` -/
  name : String
  /-- `flags` -/
  flags : Nat

/-- freezing objects one after the other to the same stream (`mapper.hpp:234-240` called repeatedly); the second component is the sum of the returned counts -/
def freezeAll : List Item → List Byte → Option (List Byte × Nat)
  | [], s => some (s, 0)
  | it :: rest, s => do
    let o ← freezeTo (top it.c it.name it.x) it.flags s
    let (s, n) ← freezeAll rest o.bytes
    pure (s, o.written + n)

end Succinct.Mapper
