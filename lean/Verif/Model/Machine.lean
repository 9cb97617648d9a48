import Verif.Model.RSBitVector
import Verif.Model.History

/-! # The code in 64-bit arithmetic

The other model files use natural numbers for positions, sizes and counts, and end the run (`none`) where an
unsigned subtraction would go below zero.  This file transcribes `bit_vector.hpp`, `rs_bit_vector.hpp` and
`rs_bit_vector.cpp` a second time: every variable of type
`uint64_t` or `size_t` is a `BitVec 64`, so that `+`, `-` and `*` wrap around and the run goes on, and `size()`
of a vector is its length modulo `2^64`.  Only failing assertions, accesses out of bounds and over-wide shifts
end a run. -/
namespace Succinct
namespace Machine
open Broadword

/-- `v.size()` of a vector as `size_t` (`mappable_vector.hpp:89-91`) -/
def vlen {α} (v : List α) : Word := BitVec.ofNat 64 v.length

/-- `v[i]` for `i` of type `uint64_t` (`mappable_vector.hpp:101-104`); out of bounds is undefined behaviour -/
def at_ {α} (v : List α) (i : Word) : Option α := rd v i.toNat

/-- `v[i] = x` for `i` of type `uint64_t` (e.g. `bit_vector.hpp:58`) -/
def put {α} (v : List α) (i : Word) (x : α) : Option (List α) := wr v i.toNat x

/-- `util.hpp:265-271` for `uint64_t` arguments -/
def ceilDiv (dividend divisor : Word) : Word := (dividend + divisor - 1) / divisor

/-- `bit_vector.hpp:14-17` -/
def wordsFor (n : Word) : Word := ceilDiv n 64

/-! ## `bit_vector_builder` -/

/-- State of `bit_vector_builder` (`bit_vector.hpp:183-186`); `cur` is the index of `*m_cur_word` as in
`Succinct.Builder`. -/
structure Builder where
  bits : List Word
  size : Word
  cur : Option Nat
deriving DecidableEq, Repr

namespace Builder

/-- `bit_vector.hpp:27-38` -/
def new (size : Word) (init : Bool) : Option Builder := do
  let bits := List.replicate (wordsFor size).toNat (negBool init)
  if size ≠ 0 then
    let c ← Succinct.Builder.back bits
    if init = true ∧ size % 64 ≠ 0 then
      let w ← rd bits c
      let w ← shr w (64 - size % 64).toNat
      let bits ← wr bits c w
      pure ⟨bits, size, some c⟩
    else pure ⟨bits, size, some c⟩
  else pure ⟨bits, size, none⟩

/-- `bit_vector.hpp:44-52` -/
def pushBack (b : Builder) (x : Bool) : Option Builder := do
  let posInWord := b.size % 64
  let v ← shl (if x then 1 else 0) posInWord.toNat
  if posInWord = 0 then
    let bits := b.bits ++ [0]
    let c ← Succinct.Builder.back bits
    let bits ← Succinct.Builder.orCur bits (some c) v
    pure ⟨bits, b.size + 1, some c⟩
  else
    let bits ← Succinct.Builder.orCur b.bits b.cur v
    pure ⟨bits, b.size + 1, b.cur⟩

/-- `bit_vector.hpp:54-60` -/
def set (b : Builder) (pos : Word) (x : Bool) : Option Builder := do
  let word := pos / 64
  let posInWord := pos % 64
  let m ← shl 1 posInWord.toNat
  let w ← at_ b.bits word
  let bits ← put b.bits word (w &&& ~~~m)
  let v ← shl (if x then 1 else 0) posInWord.toNat
  let w ← at_ bits word
  let bits ← put bits word (w ||| v)
  pure { b with bits := bits }

/-- the assertion `len == 64 || (bits >> len) == 0` of `bit_vector.hpp:66,85` -/
def noSpurious (bits len : Word) : Option Unit :=
  if len = 64 then some () else do
    let w ← shr bits len.toNat
    assertP (w = 0)

/-- the mask of `bit_vector.hpp:68` -/
def lenMask (len : Word) : Option Word :=
  if len = 64 then some (BitVec.allOnes 64) else (shl 1 len.toNat).map (· - 1)

/-- `bit_vector.hpp:62-80` -/
def setBits (b : Builder) (pos bits len : Word) : Option Builder := do
  assertP (pos + len ≤ b.size)
  noSpurious bits len
  if len = 0 then pure b else
    let mask ← lenMask len
    let word := pos / 64
    let posInWord := pos % 64
    let m ← shl mask posInWord.toNat
    let w ← at_ b.bits word
    let ws ← put b.bits word (w &&& ~~~m)
    let v ← shl bits posInWord.toNat
    let w ← at_ ws word
    let ws ← put ws word (w ||| v)
    let stored := 64 - posInWord
    if stored < len then
      let m ← shr mask stored.toNat
      let w ← at_ ws (word + 1)
      let ws ← put ws (word + 1) (w &&& ~~~m)
      let v ← shr bits stored.toNat
      let w ← at_ ws (word + 1)
      let ws ← put ws (word + 1) (w ||| v)
      pure { b with bits := ws }
    else pure { b with bits := ws }

/-- `bit_vector.hpp:82-98` -/
def appendBits (b : Builder) (bits len : Word) : Option Builder := do
  noSpurious bits len
  if len = 0 then pure b else
    let posInWord := b.size % 64
    let size := b.size + len
    if posInWord = 0 then
      let ws := b.bits ++ [bits]
      let c ← Succinct.Builder.back ws
      pure ⟨ws, size, some c⟩
    else
      let v ← shl bits posInWord.toNat
      let ws ← Succinct.Builder.orCur b.bits b.cur v
      if len > 64 - posInWord then
        let v ← shr bits (64 - posInWord).toNat
        let ws := ws ++ [v]
        let c ← Succinct.Builder.back ws
        pure ⟨ws, size, some c⟩
      else
        let c ← Succinct.Builder.back ws
        pure ⟨ws, size, some c⟩

/-- `bit_vector.hpp:100-107`.  `needed` wraps if the vector is longer than the new size needs; `insert` of that
many words is more than any vector can hold and throws, which ends the run. -/
def zeroExtend (b : Builder) (n : Word) : Option Builder := do
  let size := b.size + n
  let needed := wordsFor size - vlen b.bits
  if needed ≠ 0 then
    assertP (needed.toNat < 2^61)
    let bits := b.bits ++ List.replicate needed.toNat 0
    let c ← Succinct.Builder.back bits
    pure ⟨bits, size, some c⟩
  else pure ⟨b.bits, size, b.cur⟩

/-- `bit_vector.hpp:111-117`; `fuel` bounds the `while` loop -/
def oneExtendLoop : Nat → Builder → Word → Option Builder
  | fuel, b, n =>
    if n ≥ 64 then
      match fuel with
      | 0 => none
      | fuel + 1 => do
        let b ← appendBits b (BitVec.allOnes 64) 64
        oneExtendLoop fuel b (n - 64)
    else if n ≠ 0 then do
      let v ← shr (BitVec.allOnes 64) (64 - n).toNat
      appendBits b v n
    else some b

/-- `bit_vector.hpp:109-118` -/
def oneExtend (b : Builder) (n : Word) : Option Builder := oneExtendLoop n.toNat b n

/-- `m_bits.resize(n)` (`bit_vector.hpp:127`): cuts the vector off or fills it up with zeros -/
def resize (bits : List Word) (n : Nat) : List Word := bits.take n ++ List.replicate (n - bits.length) 0

/-- `bit_vector.hpp:120-145`; `rhs` is a different builder.  The loop `134-138` moves pointers and is
`Succinct.Builder.appendLoop`. -/
def append (b rhs : Builder) : Option Builder := do
  if rhs.size = 0 then pure b else
    let pos := vlen b.bits
    let shift := b.size % 64
    let size := b.size + rhs.size
    let ws := resize b.bits (wordsFor size).toNat
    if shift = 0 then
      assertP (pos.toNat + rhs.bits.length ≤ ws.length)
      let ws := ws.take pos.toNat ++ rhs.bits ++ ws.drop (pos.toNat + rhs.bits.length)
      let c ← Succinct.Builder.back ws
      pure ⟨ws, size, some c⟩
    else
      let c ← subU pos.toNat 1
      let _ ← subU rhs.bits.length 1
      let (ws, c) ← Succinct.Builder.appendLoop shift.toNat rhs.bits.dropLast ws c
      let last ← rhs.bits.getLast?
      let v ← shl last shift.toNat
      let ws ← Succinct.Builder.orCur ws (some c) v
      let e ← Succinct.Builder.back ws
      if c < e then
        let v ← shr last (64 - shift).toNat
        let ws ← wr ws (c + 1) v
        pure ⟨ws, size, some e⟩
      else pure ⟨ws, size, some e⟩

/-- `bit_vector.hpp:148-165`; the loop `153-162` walks over the words and is `Succinct.Builder.reverseLoop` -/
def reverse (b : Builder) : Option Builder := do
  let shift := 64 - b.size % 64
  let (ws, r) ← Succinct.Builder.reverseLoop shift.toNat b.bits 0
  assertP (r = 0)
  pure { b with bits := ws.reverse }

/-- the calls of a history on the 64-bit builder (`bit_vector.hpp:22-187`); the arguments are converted to
`uint64_t` -/
def run : Spec.Prog → Option Builder
  | .new n b => new (BitVec.ofNat 64 n) b
  | .pushBack p b => do (← run p).pushBack b
  | .set p pos b => do (← run p).set (BitVec.ofNat 64 pos) b
  | .setBits p pos bits len => do (← run p).setBits (BitVec.ofNat 64 pos) bits (BitVec.ofNat 64 len)
  | .appendBits p bits len => do (← run p).appendBits bits (BitVec.ofNat 64 len)
  | .zeroExtend p n => do (← run p).zeroExtend (BitVec.ofNat 64 n)
  | .oneExtend p n => do (← run p).oneExtend (BitVec.ofNat 64 n)
  | .append p q => do
    let a ← run p
    let b ← run q
    a.append b
  | .reverse p => do (← run p).reverse
  | .reserve p r => do
    let b ← run p
    pure (if r then { b with cur := none } else b)

end Builder

/-! ## `bit_vector` -/

/-- `bit_vector` (`bit_vector.hpp:524-526`) -/
structure BitVector where
  size : Word
  bits : List Word
deriving DecidableEq, Repr

namespace BitVector

/-- `bit_vector.hpp:222-225` with `move_bits` (`:167-170`) -/
def ofBuilder (b : Builder) : Option BitVector := do
  assertP (wordsFor b.size = vlen b.bits)
  pure ⟨b.size, b.bits⟩

/-- `bit_vector.hpp:243-249` -/
def access (v : BitVector) (pos : Word) : Option Bool := do
  assertP (pos < v.size)
  let block := pos / 64
  assertP (block < vlen v.bits)
  let shift := pos % 64
  let w ← at_ v.bits block
  let s ← shr w shift.toNat
  pure ((s &&& 1) ≠ 0)

/-- `bit_vector.hpp:251-264`; `ov` gives the value of an over-wide shift -/
def getBits (ov : Word → Nat → Word) (v : BitVector) (pos len : Word) : Option Word := do
  assertP (pos + len ≤ v.size)
  if len = 0 then pure 0 else
    let block := pos / 64
    let shift := pos % 64
    let mask := negBool (len = 64) ||| (shlOv ov 1 len.toNat - 1)
    if shift + len ≤ 64 then
      let w ← at_ v.bits block
      let lo ← shr w shift.toNat
      pure (lo &&& mask)
    else
      let w ← at_ v.bits block
      let lo ← shr w shift.toNat
      let w1 ← at_ v.bits (block + 1)
      let hi ← shl w1 (64 - shift).toNat
      pure (lo ||| (hi &&& mask))

/-- `bit_vector.hpp:267-277` -/
def getWord (v : BitVector) (pos : Word) : Option Word := do
  assertP (pos < v.size)
  let block := pos / 64
  let shift := pos % 64
  let w ← at_ v.bits block
  let word ← shr w shift.toNat
  if shift ≠ 0 ∧ block + 1 < vlen v.bits then
    let w1 ← at_ v.bits (block + 1)
    let hi ← shl w1 (64 - shift).toNat
    pure (word ||| hi)
  else pure word

/-- the loops `bit_vector.hpp:294-299,324-329`; `fuel` bounds the number of iterations -/
def predLoop (neg : Bool) (bits : List Word) : Nat → Word → Word → Option Word
  | fuel, block, word =>
    match msb word with
    | some r => some (block * 64 + BitVec.ofNat 64 r)
    | none => do
      assertP (block ≠ 0)
      match fuel with
      | 0 => none
      | fuel + 1 => do
        let block := block - 1
        let w ← at_ bits block
        predLoop neg bits fuel block (if neg then ~~~w else w)

/-- `bit_vector.hpp:287-300` (`neg = true`) and `317-330` (`neg = false`) -/
def predecessor (neg : Bool) (v : BitVector) (pos : Word) : Option Word := do
  assertP (pos < v.size)
  let block := pos / 64
  let shift := 64 - pos % 64 - 1
  let w ← at_ v.bits block
  let word := if neg then ~~~w else w
  let word ← shl word shift.toNat
  let word ← shr word shift.toNat
  predLoop neg v.bits v.bits.length block word

/-- the loops `bit_vector.hpp:308-314,338-344`; `fuel` bounds the number of iterations -/
def succLoop (neg : Bool) (bits : List Word) : Nat → Word → Word → Option Word
  | fuel, block, word =>
    match lsb word with
    | some r => some (block * 64 + BitVec.ofNat 64 r)
    | none => do
      let block := block + 1
      assertP (block < vlen bits)
      match fuel with
      | 0 => none
      | fuel + 1 => do
        let w ← at_ bits block
        succLoop neg bits fuel block (if neg then ~~~w else w)

/-- `bit_vector.hpp:302-315` (`neg = true`) and `332-345` (`neg = false`) -/
def successor (neg : Bool) (v : BitVector) (pos : Word) : Option Word := do
  assertP (pos < v.size)
  let block := pos / 64
  let shift := pos % 64
  let w ← at_ v.bits block
  let word ← shr (if neg then ~~~w else w) shift.toNat
  let word ← shl word shift.toNat
  succLoop neg v.bits v.bits.length block word

end BitVector

/-! ## `rs_bit_vector` -/

/-- `rs_bit_vector.hpp:187-190` -/
structure RSBitVector where
  bv : BitVector
  pairs : List Word
  hints : List Word
  hints0 : List Word
deriving DecidableEq, Repr

namespace RSBitVector

/-- local variables of `rs_bit_vector.cpp:9-12` -/
structure BuildState where
  pairs : List Word
  nextRank : Word
  curSubrank : Word
  subranks : Word

/-- `rs_bit_vector.cpp:18-19,33-34` -/
def pushSub (subranks cur : Word) : Word := (subranks <<< 9) ||| cur

/-- body of the loop `rs_bit_vector.cpp:14-30` -/
def buildStep (st : BuildState) (i w : Word) : BuildState :=
  let wordPop := BitVec.ofNat 64 (popcount w)
  let shift := i % 8
  let subranks := if shift ≠ 0 then pushSub st.subranks st.curSubrank else st.subranks
  let nextRank := st.nextRank + wordPop
  let curSubrank := st.curSubrank + wordPop
  if shift = 7 then ⟨st.pairs ++ [subranks, nextRank], nextRank, 0, 0⟩
  else ⟨st.pairs, nextRank, curSubrank, subranks⟩

/-- `rs_bit_vector.cpp:14-30`; the words still to come as a list -/
def buildLoop : List Word → Word → BuildState → BuildState
  | [], _, st => st
  | w :: ws, i, st => buildLoop ws (i + 1) (buildStep st i w)

/-- `rs_bit_vector.cpp:32-35` -/
def pushSubN : Nat → Word → Word → Word
  | 0, s, _ => s
  | n + 1, s, cur => pushSubN n (pushSub s cur) cur

/-- `rs_bit_vector.cpp:7-43` -/
def buildPairs (bits : List Word) : List Word :=
  let st := buildLoop bits 0 ⟨[0], 0, 0, 0⟩
  let left := 8 - vlen bits % 8
  let subranks := pushSubN left.toNat st.subranks st.curSubrank
  let pairs := st.pairs ++ [subranks]
  if vlen bits % 8 ≠ 0 then pairs ++ [st.nextRank, 0] else pairs

/-- `rs_bit_vector.hpp:156-158` -/
def numBlocks (pairs : List Word) : Word := vlen pairs / 2 - 1

/-- `rs_bit_vector.hpp:160-162` -/
def blockRank (pairs : List Word) (block : Word) : Option Word := at_ pairs (block * 2)

/-- `rs_bit_vector.hpp:173-175` -/
def subBlockRanks (pairs : List Word) (block : Word) : Option Word := at_ pairs (block * 2 + 1)

/-- `rs_bit_vector.hpp:177-179` -/
def blockRank0 (pairs : List Word) (block : Word) : Option Word := do
  let r ← at_ pairs (block * 2)
  pure (block * 8 * 64 - r)

/-- the loops of `rs_bit_vector.cpp:49-54,62-67`; `fuel` bounds the number of iterations -/
def hintsLoop (rank : Word → Option Word) (nb : Word) : Nat → Word → Word → List Word → Option (List Word)
  | fuel, i, threshold, acc =>
    if i < nb then
      match fuel with
      | 0 => none
      | fuel + 1 => do
        let r ← rank (i + 1)
        if r > threshold then hintsLoop rank nb fuel (i + 1) (threshold + 1024) (acc ++ [i])
        else hintsLoop rank nb fuel (i + 1) threshold acc
    else some acc

/-- `rs_bit_vector.cpp:46-57` and `59-70` -/
def buildHints (rank : Word → Option Word) (nb : Word) : Option (List Word) := do
  let h ← hintsLoop rank nb nb.toNat 0 1024 []
  pure (h ++ [nb])

/-- `rs_bit_vector.cpp:5-71`, called by the constructor `rs_bit_vector.hpp:17-24` -/
def build (bv : BitVector) (withHints withHints0 : Bool) : Option RSBitVector := do
  let pairs := buildPairs bv.bits
  let hints ← if withHints then buildHints (blockRank pairs) (numBlocks pairs) else some []
  let hints0 ← if withHints0 then buildHints (blockRank0 pairs) (numBlocks pairs) else some []
  pure ⟨bv, pairs, hints, hints0⟩

/-- `rs_bit_vector.hpp:43-45`; `end() - 2` points before the array if there are fewer than two entries -/
def numOnes (v : RSBitVector) : Option Word := do
  assertP (2 ≤ v.pairs.length)
  rd v.pairs (v.pairs.length - 2)

/-- `rs_bit_vector.hpp:47-49` -/
def numZeros (v : RSBitVector) : Option Word := do
  let o ← numOnes v
  pure (v.bv.size - o)

/-- `rs_bit_vector.hpp:164-171` -/
def subBlockRank (pairs : List Word) (subBlock : Word) : Option Word := do
  let block := subBlock / 8
  let r ← blockRank pairs block
  let left := subBlock % 8
  let s ← subBlockRanks pairs block
  let x ← shr s ((7 - left) * 9).toNat
  pure (r + (x &&& 0x1FF))

/-- `rs_bit_vector.hpp:51-64` -/
def rank (v : RSBitVector) (pos : Word) : Option Word := do
  assertP (pos ≤ v.bv.size)
  if pos = v.bv.size then numOnes v
  else
    let subBlock := pos / 64
    let r ← subBlockRank v.pairs subBlock
    let subLeft := pos % 64
    if subLeft ≠ 0 then
      let w ← at_ v.bv.bits subBlock
      let x ← shl w (64 - subLeft).toNat
      pure (r + BitVec.ofNat 64 (popcount x))
    else pure r

/-- `rs_bit_vector.hpp:66-68` -/
def rank0 (v : RSBitVector) (pos : Word) : Option Word := do
  let r ← rank v pos
  pure (pos - r)

/-- the binary search of `rs_bit_vector.hpp:84-94,127-137`; `fuel` bounds the number of iterations -/
def bsearch (rank : Word → Option Word) (n : Word) : Nat → Word → Word → Option Word
  | fuel, a, b =>
    if b - a > 1 then
      match fuel with
      | 0 => none
      | fuel + 1 => do
        let mid := a + (b - a) / 2
        let x ← rank mid
        if x ≤ n then bsearch rank n fuel mid b else bsearch rank n fuel a mid
    else some a

/-- `rs_bit_vector.hpp:78-80,121-123` -/
def hintLow (hints : List Word) (chunk : Word) : Option Word :=
  if chunk ≠ 0 then at_ hints (chunk - 1) else some 0

/-- the choice of the search interval, `rs_bit_vector.hpp:74-82,117-125` -/
def interval (hints : List Word) (nb n : Word) : Option (Word × Word) := do
  if vlen hints ≠ 0 then
    let chunk := n / 1024
    let a ← hintLow hints chunk
    let b ← at_ hints chunk
    pure (a, b + 1)
  else pure (0, nb)

/-- `rs_bit_vector.hpp:102-104,144-146` -/
def subBlockOffset (subRanks rankInBlock : Word) : Word :=
  ((uleqStep9 subRanks (rankInBlock * onesStep9)) * onesStep9) >>> 54 &&& 0x7

/-- `rs_bit_vector.hpp:70-110` -/
def select (v : RSBitVector) (n : Word) : Option Word := do
  let ones ← numOnes v
  assertP (n < ones)
  let nb := numBlocks v.pairs
  let (a, b) ← interval v.hints nb n
  let block ← bsearch (blockRank v.pairs) n (b - a).toNat a b
  assertP (block < nb)
  let blockOffset := block * 8
  let curRank ← blockRank v.pairs block
  assertP (curRank ≤ n)
  let subRanks ← subBlockRanks v.pairs block
  let off := subBlockOffset subRanks (n - curRank)
  let x ← shr subRanks ((7 - off) * 9).toNat
  let curRank := curRank + (x &&& 0x1FF)
  assertP (curRank ≤ n)
  let wordOffset := blockOffset + off
  let w ← at_ v.bv.bits wordOffset
  let s ← selectInWord w (n - curRank).toNat
  pure (wordOffset * 64 + BitVec.ofNat 64 s)

/-- `rs_bit_vector.hpp:113-152` -/
def select0 (v : RSBitVector) (n : Word) : Option Word := do
  let zeros ← numZeros v
  assertP (n < zeros)
  let nb := numBlocks v.pairs
  let (a, b) ← interval v.hints0 nb n
  let block ← bsearch (blockRank0 v.pairs) n (b - a).toNat a b
  assertP (block < nb)
  let blockOffset := block * 8
  let curRank ← blockRank0 v.pairs block
  assertP (curRank ≤ n)
  let sbr ← subBlockRanks v.pairs block
  let subRanks := 64 * invCountStep9 - sbr
  let off := subBlockOffset subRanks (n - curRank)
  let x ← shr subRanks ((7 - off) * 9).toNat
  let curRank := curRank + (x &&& 0x1FF)
  assertP (curRank ≤ n)
  let wordOffset := blockOffset + off
  let w ← at_ v.bv.bits wordOffset
  let s ← selectInWord (~~~w) (n - curRank).toNat
  pure (wordOffset * 64 + BitVec.ofNat 64 s)

end RSBitVector
end Machine
end Succinct
