import Verif.Model.Broadword

/-! # `bit_vector.hpp`: the builder and the bit vector -/

namespace Succinct
open Broadword

/-- `bit_vector.hpp:14-17`, `util.hpp:265-271` (`ceil_div`) -/
def wordsFor (n : Nat) : Nat := (n + 64 - 1) / 64

/-- read of `v[i]` from an array or vector (`mappable_vector.hpp:101-104`, e.g. `bit_vector.hpp:248`); out of bounds is undefined behaviour -/
def rd {α} (v : List α) (i : Nat) : Option α := v[i]?

/-- write of `v[i] = x` to a vector (e.g. `bit_vector.hpp:58`); out of bounds is undefined behaviour -/
def wr {α} (v : List α) (i : Nat) (x : α) : Option (List α) :=
  if i < v.length then some (v.set i x) else none

/-- State of `bit_vector_builder` (`bit_vector.hpp:183-186`).  `cur` models `m_cur_word`: the index
of the word pointed to, `none` if the pointer is uninitialised or dangling. -/
structure Builder where
  bits : List Word
  size : Nat
  cur : Option Nat
deriving DecidableEq, Repr

namespace Builder

/-- `&m_bits.back()` (`bit_vector.hpp:32,48,97,105,144`); undefined for an empty vector -/
def back (bits : List Word) : Option Nat := subU bits.length 1

/-- `bit_vector.hpp:27-38` -/
def new (size : Nat) (init : Bool) : Option Builder := do
  let bits := List.replicate (wordsFor size) (negBool init)
  if size ≠ 0 then
    let c ← back bits
    if init = true ∧ size % 64 ≠ 0 then
      let w ← rd bits c
      let w ← shr w (64 - size % 64)
      let bits ← wr bits c w
      pure ⟨bits, size, some c⟩
    else pure ⟨bits, size, some c⟩
  else pure ⟨bits, size, none⟩

/-- `bit_vector.hpp:40-42`.  `std::vector::reserve` invalidates pointers into the vector exactly if
it reallocates; whether it does depends on the capacity, which is not modelled, so it is an
argument. -/
def reserve (b : Builder) (reallocates : Bool) : Option Builder :=
  if reallocates then some { b with cur := none } else some b

/-- `*m_cur_word |= v` (`bit_vector.hpp:50,92`), `*cur_word |= v` (`bit_vector.hpp:136,139`) -/
def orCur (bits : List Word) (cur : Option Nat) (v : Word) : Option (List Word) := do
  let c ← cur
  let w ← rd bits c
  wr bits c (w ||| v)

/-- `bit_vector.hpp:44-52` -/
def pushBack (b : Builder) (x : Bool) : Option Builder := do
  let posInWord := b.size % 64
  let v ← shl (if x then 1 else 0) posInWord
  if posInWord = 0 then
    let bits := b.bits ++ [0]
    let c ← back bits
    let bits ← orCur bits (some c) v
    pure ⟨bits, b.size + 1, some c⟩
  else
    let bits ← orCur b.bits b.cur v
    pure ⟨bits, b.size + 1, b.cur⟩

/-- `bit_vector.hpp:54-60` -/
def set (b : Builder) (pos : Nat) (x : Bool) : Option Builder := do
  let word := pos / 64
  let posInWord := pos % 64
  let m ← shl 1 posInWord
  let w ← rd b.bits word
  let bits ← wr b.bits word (w &&& ~~~m)
  let v ← shl (if x then 1 else 0) posInWord
  let w ← rd bits word
  let bits ← wr bits word (w ||| v)
  pure { b with bits := bits }

/-- the assertion `len == 64 || (bits >> len) == 0` of `bit_vector.hpp:66,85` -/
def noSpurious (bits : Word) (len : Nat) : Option Unit :=
  if len = 64 then some () else do
    let w ← shr bits len
    assertP (w = 0)

/-- the mask of `bit_vector.hpp:68` -/
def lenMask (len : Nat) : Option Word :=
  if len = 64 then some (BitVec.allOnes 64) else (shl 1 len).map (· - 1)

/-- `bit_vector.hpp:62-80` -/
def setBits (b : Builder) (pos : Nat) (bits : Word) (len : Nat) : Option Builder := do
  assertP (pos + len ≤ b.size)
  noSpurious bits len
  if len = 0 then pure b else
    let mask ← lenMask len
    let word := pos / 64
    let posInWord := pos % 64
    let m ← shl mask posInWord
    let w ← rd b.bits word
    let ws ← wr b.bits word (w &&& ~~~m)
    let v ← shl bits posInWord
    let w ← rd ws word
    let ws ← wr ws word (w ||| v)
    let stored := 64 - posInWord
    if stored < len then
      let m ← shr mask stored
      let w ← rd ws (word + 1)
      let ws ← wr ws (word + 1) (w &&& ~~~m)
      let v ← shr bits stored
      let w ← rd ws (word + 1)
      let ws ← wr ws (word + 1) (w ||| v)
      pure { b with bits := ws }
    else pure { b with bits := ws }

/-- `bit_vector.hpp:82-98` -/
def appendBits (b : Builder) (bits : Word) (len : Nat) : Option Builder := do
  noSpurious bits len
  if len = 0 then pure b else
    let posInWord := b.size % 64
    if posInWord = 0 then
      let ws := b.bits ++ [bits]
      let c ← back ws
      pure ⟨ws, b.size + len, some c⟩
    else
      let v ← shl bits posInWord
      let ws ← orCur b.bits b.cur v
      if len > 64 - posInWord then
        let v ← shr bits (64 - posInWord)
        let ws := ws ++ [v]
        let c ← back ws
        pure ⟨ws, b.size + len, some c⟩
      else
        let c ← back ws
        pure ⟨ws, b.size + len, some c⟩

/-- `bit_vector.hpp:100-107` -/
def zeroExtend (b : Builder) (n : Nat) : Option Builder := do
  let size := b.size + n
  let needed ← subU (wordsFor size) b.bits.length
  if needed ≠ 0 then
    let bits := b.bits ++ List.replicate needed 0
    let c ← back bits
    pure ⟨bits, size, some c⟩
  else pure ⟨b.bits, size, b.cur⟩

/-- `bit_vector.hpp:111-117`; `fuel` bounds the `while` loop (`n` iterations always suffice) -/
def oneExtendLoop : Nat → Builder → Nat → Option Builder
  | fuel, b, n =>
    if n ≥ 64 then
      match fuel with
      | 0 => none
      | fuel + 1 => do
        let b ← appendBits b (BitVec.allOnes 64) 64
        oneExtendLoop fuel b (n - 64)
    else if n ≠ 0 then do
      let v ← shr (BitVec.allOnes 64) (64 - n)
      appendBits b v n
    else some b

/-- `bit_vector.hpp:109-118` -/
def oneExtend (b : Builder) (n : Nat) : Option Builder := oneExtendLoop n b n

/-- `bit_vector.hpp:134-138`: the loop over all words of `rhs` but the last; `c` is the index
`cur_word - &m_bits.front()`. -/
def appendLoop (shift : Nat) : List Word → List Word → Nat → Option (List Word × Nat)
  | [], ws, c => some (ws, c)
  | w :: rest, ws, c => do
    let v ← shl w shift
    let ws ← orCur ws (some c) v
    let v ← shr w (64 - shift)
    let ws ← wr ws (c + 1) v
    appendLoop shift rest ws (c + 1)

/-- `bit_vector.hpp:120-145`.  `rhs` is a different builder: self-append is excluded (the C++ code
then resizes the vector it reads from, see DESIGN.md). -/
def append (b rhs : Builder) : Option Builder := do
  if rhs.size = 0 then pure b else
    let pos := b.bits.length
    let shift := b.size % 64
    let size := b.size + rhs.size
    let grow ← subU (wordsFor size) b.bits.length   -- `resize` never shrinks here
    let ws := b.bits ++ List.replicate grow 0
    if shift = 0 then
      -- std::copy writes rhs.m_bits.size() words starting at pos
      assertP (pos + rhs.bits.length ≤ ws.length)
      let ws := ws.take pos ++ rhs.bits ++ ws.drop (pos + rhs.bits.length)
      let c ← back ws
      pure ⟨ws, size, some c⟩
    else
      let c ← subU pos 1
      let _ ← subU rhs.bits.length 1
      let (ws, c) ← appendLoop shift rhs.bits.dropLast ws c
      let last ← rhs.bits.getLast?
      let v ← shl last shift
      let ws ← orCur ws (some c) v
      let e ← back ws
      if c < e then
        let v ← shr last (64 - shift)
        let ws ← wr ws (c + 1) v
        pure ⟨ws, size, some e⟩
      else pure ⟨ws, size, some e⟩

/-- `bit_vector.hpp:153-162`: the loop of `reverse`; returns the rewritten words and the final
`remainder`. -/
def reverseLoop (shift : Nat) : List Word → Word → Option (List Word × Word)
  | [], remainder => some ([], remainder)
  | w :: rest, remainder => do
    if shift ≠ 64 then
      let v ← shl w shift
      let r ← shr w (64 - shift)
      let (ws, r) ← reverseLoop shift rest r
      pure (reverseBits (remainder ||| v) :: ws, r)
    else
      let (ws, r) ← reverseLoop shift rest remainder
      pure (reverseBits w :: ws, r)

/-- `bit_vector.hpp:148-165` -/
def reverse (b : Builder) : Option Builder := do
  let shift := 64 - b.size % 64
  let (ws, r) ← reverseLoop shift b.bits 0
  assertP (r = 0)
  pure { b with bits := ws.reverse }

end Builder

/-- A `bit_vector` (`bit_vector.hpp:524-526`). -/
structure BitVector where
  size : Nat
  bits : List Word
deriving DecidableEq, Repr

namespace BitVector

/-- `bit_vector.hpp:222-225` with `move_bits` (`:167-170`) -/
def ofBuilder (b : Builder) : Option BitVector := do
  assertP (wordsFor b.size = b.bits.length)
  pure ⟨b.size, b.bits⟩

/-- `bit_vector.hpp:202-215`: the loop of the range constructor; state: finished words, `m_size`,
`mask`, `cur_val`. -/
def rangeLoop : List Bool → List Word → Nat → Word → Word → List Word × Nat × Word × Word
  | [], bits, size, mask, cur => (bits, size, mask, cur)
  | x :: rest, bits, size, mask, cur =>
    let cur := if x then cur ||| mask else cur
    let mask := mask <<< 1
    let size := size + 1
    if mask = 0 then rangeLoop rest (bits ++ [cur]) size 1 0
    else rangeLoop rest bits size mask cur

/-- `bit_vector.hpp:195-220` -/
def ofRange (l : List Bool) : BitVector :=
  let (bits, size, mask, cur) := rangeLoop l [] 0 1 0
  if mask ≠ 1 then ⟨size, bits ++ [cur]⟩ else ⟨size, bits⟩

/-- `bit_vector.hpp:243-249` -/
def access (v : BitVector) (pos : Nat) : Option Bool := do
  assertP (pos < v.size)
  let block := pos / 64
  assertP (block < v.bits.length)
  let w ← rd v.bits block
  let s ← shr w (pos % 64)
  pure ((s &&& 1) ≠ 0)

/-- `bit_vector.hpp:251-264`.  `1ULL << len` is evaluated also for `len == 64`; the value of that
shift is an arbitrary `ov` here. -/
def getBits (ov : Word → Nat → Word) (v : BitVector) (pos len : Nat) : Option Word := do
  assertP (pos + len ≤ v.size)
  if len = 0 then pure 0 else
    let block := pos / 64
    let shift := pos % 64
    let mask := negBool (len = 64) ||| (shlOv ov 1 len - 1)
    let w ← rd v.bits block
    let lo ← shr w shift
    if shift + len ≤ 64 then pure (lo &&& mask)
    else
      let w1 ← rd v.bits (block + 1)
      let hi ← shl w1 (64 - shift)
      pure (lo ||| (hi &&& mask))

/-- `bit_vector.hpp:267-277` -/
def getWord (v : BitVector) (pos : Nat) : Option Word := do
  assertP (pos < v.size)
  let block := pos / 64
  let shift := pos % 64
  let w ← rd v.bits block
  let word ← shr w shift
  if shift ≠ 0 ∧ block + 1 < v.bits.length then
    let w1 ← rd v.bits (block + 1)
    let hi ← shl w1 (64 - shift)
    pure (word ||| hi)
  else pure word

/-- The byte at byte offset `i` of the words in memory, little endian (the library only supports
little-endian machines, see the comment at `bit_vector.hpp:282`). -/
def byteAt (bits : List Word) (i : Nat) : Option (BitVec 8) := do
  let w ← rd bits (i / 8)
  pure (w.extractLsb' (8 * (i % 8)) 8)

/-- The unaligned 8-byte little-endian load of `bit_vector.hpp:284` at byte offset `i`. -/
def load64 (bits : List Word) (i : Nat) : Option Word := do
  let b0 ← byteAt bits i
  let b1 ← byteAt bits (i+1)
  let b2 ← byteAt bits (i+2)
  let b3 ← byteAt bits (i+3)
  let b4 ← byteAt bits (i+4)
  let b5 ← byteAt bits (i+5)
  let b6 ← byteAt bits (i+6)
  let b7 ← byteAt bits (i+7)
  pure (b7 ++ b6 ++ b5 ++ b4 ++ b3 ++ b2 ++ b1 ++ b0)

/-- `bit_vector.hpp:280-285` -/
def getWord56 (v : BitVector) (pos : Nat) : Option Word := do
  let w ← load64 v.bits (pos / 8)
  shr w (pos % 8)

/-- The `while (!msb(word, ret))` loop of `predecessor0/1` (`bit_vector.hpp:294-299,324-329`);
`neg` selects `~m_bits` (`predecessor0`).  Recursion is on `block`. -/
def predLoop (neg : Bool) (bits : List Word) : Nat → Word → Option Nat
  | block, word =>
    match msb word with
    | some r => some (block * 64 + r)
    | none =>
      match block with
      | 0 => none       -- assert(block)
      | block + 1 => do
        let w ← rd bits block
        predLoop neg bits block (if neg then ~~~w else w)

/-- `bit_vector.hpp:287-300` (`neg = true`) and `317-330` (`neg = false`) -/
def predecessor (neg : Bool) (v : BitVector) (pos : Nat) : Option Nat := do
  assertP (pos < v.size)
  let block := pos / 64
  let shift := 64 - pos % 64 - 1
  let w ← rd v.bits block
  let word := if neg then ~~~w else w
  let word ← shl word shift
  let word ← shr word shift
  predLoop neg v.bits block word

/-- `bit_vector.hpp:287-300` -/
def predecessor0 := predecessor true
/-- `bit_vector.hpp:317-330` -/
def predecessor1 := predecessor false

/-- The `while (!lsb(word, ret))` loop of `successor0/1` (`bit_vector.hpp:308-314,338-344`); the
recursion is on the list of words following `block`; running out of them is the failing
`assert(block < m_bits.size())`. -/
def succLoop (neg : Bool) : List Word → Nat → Word → Option Nat
  | rest, block, word =>
    match lsb word with
    | some r => some (block * 64 + r)
    | none =>
      match rest with
      | [] => none
      | w :: rest => succLoop neg rest (block + 1) (if neg then ~~~w else w)

/-- `bit_vector.hpp:302-315` (`neg = true`) and `332-345` (`neg = false`) -/
def successor (neg : Bool) (v : BitVector) (pos : Nat) : Option Nat := do
  assertP (pos < v.size)
  let block := pos / 64
  let shift := pos % 64
  let w ← rd v.bits block
  let word ← shr (if neg then ~~~w else w) shift
  let word ← shl word shift
  succLoop neg (v.bits.drop (block + 1)) block word

/-- `bit_vector.hpp:302-315` -/
def successor0 := successor true
/-- `bit_vector.hpp:332-345` -/
def successor1 := successor false

end BitVector
end Succinct
