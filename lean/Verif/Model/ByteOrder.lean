import Verif.Model.Mapper

/-! # Machines of either byte order

`bit_vector::get_word56` and the functions of `mapper.hpp` look at numbers as bytes in memory.  Here they are
transcribed for a machine whose byte order is a parameter: `big` says that the most significant byte comes first.
Everything else in the library computes with values and does not see the byte order. -/
namespace Succinct.ByteOrder
open Mapper

/-! ## `get_word56` -/

/-- the byte at byte offset `i` of the words in memory (`bit_vector.hpp:283`) -/
def byteAt (big : Bool) (bits : List Word) (i : Nat) : Option (BitVec 8) := do
  let w ← rd bits (i / 8)
  pure (w.extractLsb' (8 * (if big then 7 - i % 8 else i % 8)) 8)

/-- the load of 8 bytes at byte offset `i` (`bit_vector.hpp:284`) -/
def load64 (big : Bool) (bits : List Word) (i : Nat) : Option Word := do
  let b0 ← byteAt big bits i
  let b1 ← byteAt big bits (i+1)
  let b2 ← byteAt big bits (i+2)
  let b3 ← byteAt big bits (i+3)
  let b4 ← byteAt big bits (i+4)
  let b5 ← byteAt big bits (i+5)
  let b6 ← byteAt big bits (i+6)
  let b7 ← byteAt big bits (i+7)
  pure (if big then b0 ++ b1 ++ b2 ++ b3 ++ b4 ++ b5 ++ b6 ++ b7 else b7 ++ b6 ++ b5 ++ b4 ++ b3 ++ b2 ++ b1 ++ b0)

/-- `bit_vector.hpp:280-285` -/
def getWord56 (big : Bool) (v : BitVector) (pos : Nat) : Option Word := do
  let w ← load64 big v.bits (pos / 8)
  shr w (pos % 8)

/-! ## `mapper.hpp` -/

/-- the bytes in memory of an unsigned integer of `k` bytes (`mapper.hpp:59,73`) -/
def enc (big : Bool) (k x : Nat) : List Byte := if big then (leEnc k x).reverse else leEnc k x

/-- the unsigned integer that has the given bytes in memory (`mapper.hpp:107,121`) -/
def dec (big : Bool) (bs : List Byte) : Nat := leDec (if big then bs.reverse else bs)

/-- the fields of an object as they lie in memory, from the fields with the least significant byte first (`mapper.hpp:73,84`: the bytes of
every POD and of every vector element) -/
def inMemory (big : Bool) : Val → Val
  | .done => .done
  | .pod name bs rest => .pod name (if big then bs.reverse else bs) (inMemory big rest)
  | .vec name es xs rest => .vec name es (xs.map fun x => if big then x.reverse else x) (inMemory big rest)
  | .obj name inner rest => .obj name (inMemory big inner) (inMemory big rest)

/-- `mapper.hpp:63-88` applied to every field in order -/
def freezeV (big : Bool) : Val → Out → Option Out
  | .done, o => some o
  | .pod _ bs rest, o => freezeV big rest (o.put bs bs.length)
  | .vec _ es xs rest, o => do
    let o := o.put (enc big 8 xs.length) 8
    let n := xs.length * es % 2^64
    let data ← rdBytes xs.flatten 0 n
    freezeV big rest (o.put data n)
  | .obj _ inner rest, o => do
    let o ← freezeV big inner o
    freezeV big rest o

/-- `mapper.hpp:53-61,234-240` -/
def freeze (big : Bool) (x : Val) (flags : Nat) : Option Out :=
  freezeV big x (Out.put ⟨[], 0⟩ (enc big 8 flags) 8)

/-- `mapper.hpp:111-145` applied to every field in order -/
def mapV (big : Bool) (flags : Word) (img : List Byte) : Lay → Nat → Option (MVal × Nat)
  | .done, pos => some (.done, pos)
  | .pod name k rest, pos => do
    let bs ← rdBytes img pos k
    let (r, p) ← mapV big flags img rest (pos + k)
    pure (.pod name bs r, p)
  | .vec name es rest, pos => do
    let bs ← rdBytes img pos 8
    let size := dec big bs
    let pos := pos + 8
    let bytes := size * es % 2^64
    warmupIf flags img es size pos
    let (r, p) ← mapV big flags img rest (pos + bytes)
    pure (.vec name es pos size r, p)
  | .obj name inner rest, pos => do
    let (i, p) ← mapV big flags img inner pos
    let (r, p) ← mapV big flags img rest p
    pure (.obj name i r, p)

/-- `mapper.hpp:102-109,249-255` -/
def map (big : Bool) (l : Lay) (img : List Byte) (flags : Word) : Option (MVal × Nat) := do
  let _ ← rdBytes img 0 8
  mapV big flags img l 8

end Succinct.ByteOrder
