import Verif.Model.BitVector

/-! # `rs_bit_vector.hpp` and `rs_bit_vector.cpp` -/
namespace Succinct
open Broadword

/-- `rs_bit_vector.hpp:187-190`.  The entries of `m_block_rank_pairs` are `uint64_t`; cumulative
ranks are counts of bits in memory, so no wrap-around is modelled for them. -/
structure RSBitVector where
  bv : BitVector
  pairs : List Nat
  hints : List Nat
  hints0 : List Nat
deriving DecidableEq, Repr

namespace RSBitVector

/-- local variables of `rs_bit_vector.cpp:9-12` -/
structure BuildState where
  pairs : List Nat
  nextRank : Nat
  curSubrank : Nat
  subranks : Word

/-- `subranks <<= 9; subranks |= cur_subrank` (`rs_bit_vector.cpp:18-19,33-34`) -/
def pushSub (subranks : Word) (cur : Nat) : Word := (subranks <<< 9) ||| BitVec.ofNat 64 cur

/-- body of the loop `rs_bit_vector.cpp:14-30` for the word `w` with index `i` -/
def buildStep (st : BuildState) (i : Nat) (w : Word) : BuildState :=
  let wordPop := popcount w
  let shift := i % 8
  let subranks := if shift ≠ 0 then pushSub st.subranks st.curSubrank else st.subranks
  let nextRank := st.nextRank + wordPop
  let curSubrank := st.curSubrank + wordPop
  if shift = 7 then ⟨st.pairs ++ [subranks.toNat, nextRank], nextRank, 0, 0⟩
  else ⟨st.pairs, nextRank, curSubrank, subranks⟩

/-- `rs_bit_vector.cpp:14-30` -/
def buildLoop : List Word → Nat → BuildState → BuildState
  | [], _, st => st
  | w :: ws, i, st => buildLoop ws (i + 1) (buildStep st i w)

/-- `rs_bit_vector.cpp:32-35` -/
def pushSubN : Nat → Word → Nat → Word
  | 0, s, _ => s
  | n + 1, s, cur => pushSubN n (pushSub s cur) cur

/-- `rs_bit_vector.cpp:7-43` -/
def buildPairs (bits : List Word) : List Nat :=
  let st := buildLoop bits 0 ⟨[0], 0, 0, 0⟩
  let left := 8 - bits.length % 8
  let subranks := pushSubN left st.subranks st.curSubrank
  let pairs := st.pairs ++ [subranks.toNat]
  if bits.length % 8 ≠ 0 then pairs ++ [st.nextRank, 0] else pairs

/-- `rs_bit_vector.hpp:156-158` -/
def numBlocks (pairs : List Nat) : Option Nat := subU (pairs.length / 2) 1

/-- `rs_bit_vector.hpp:160-162` -/
def blockRank (pairs : List Nat) (block : Nat) : Option Nat := rd pairs (block * 2)

/-- `rs_bit_vector.hpp:173-175` -/
def subBlockRanks (pairs : List Nat) (block : Nat) : Option Nat := rd pairs (block * 2 + 1)

/-- `rs_bit_vector.hpp:177-179` -/
def blockRank0 (pairs : List Nat) (block : Nat) : Option Nat := do
  let r ← rd pairs (block * 2)
  subU (block * 8 * 64) r

/-- the loops of `rs_bit_vector.cpp:49-54,62-67`, with `k` blocks left, starting at block `i` -/
def hintsLoop (rank : Nat → Option Nat) : Nat → Nat → Nat → List Nat → Option (List Nat)
  | 0, _, _, acc => some acc
  | k + 1, i, threshold, acc => do
    let r ← rank (i + 1)
    if r > threshold then hintsLoop rank k (i + 1) (threshold + 1024) (acc ++ [i])
    else hintsLoop rank k (i + 1) threshold acc

/-- `rs_bit_vector.cpp:46-57` and `59-70` -/
def buildHints (rank : Nat → Option Nat) (numBlocks : Nat) : Option (List Nat) := do
  let h ← hintsLoop rank numBlocks 0 1024 []
  pure (h ++ [numBlocks])

/-- `rs_bit_vector.cpp:5-71`, called by the constructor `rs_bit_vector.hpp:17-24` -/
def build (bv : BitVector) (withHints withHints0 : Bool) : Option RSBitVector := do
  let pairs := buildPairs bv.bits
  let nb ← numBlocks pairs
  let hints ← if withHints then buildHints (blockRank pairs) nb else some []
  let hints0 ← if withHints0 then buildHints (blockRank0 pairs) nb else some []
  pure ⟨bv, pairs, hints, hints0⟩

/-- `rs_bit_vector.hpp:43-45` -/
def numOnes (v : RSBitVector) : Option Nat := do
  let i ← subU v.pairs.length 2
  rd v.pairs i

/-- `rs_bit_vector.hpp:47-49` -/
def numZeros (v : RSBitVector) : Option Nat := do
  let o ← numOnes v
  subU v.bv.size o

/-- `rs_bit_vector.hpp:164-171` -/
def subBlockRank (pairs : List Nat) (subBlock : Nat) : Option Nat := do
  let block := subBlock / 8
  let r ← blockRank pairs block
  let left := subBlock % 8
  let s ← subBlockRanks pairs block
  let x ← shr (BitVec.ofNat 64 s) ((7 - left) * 9)
  pure (r + (x &&& 0x1FF#64).toNat)

/-- `rs_bit_vector.hpp:51-64` -/
def rank (v : RSBitVector) (pos : Nat) : Option Nat := do
  assertP (pos ≤ v.bv.size)
  if pos = v.bv.size then numOnes v
  else
    let subBlock := pos / 64
    let r ← subBlockRank v.pairs subBlock
    let subLeft := pos % 64
    if subLeft ≠ 0 then
      let w ← rd v.bv.bits subBlock
      let x ← shl w (64 - subLeft)
      pure (r + popcount x)
    else pure r

/-- `rs_bit_vector.hpp:66-68` -/
def rank0 (v : RSBitVector) (pos : Nat) : Option Nat := do
  let r ← rank v pos
  subU pos r

/-- the binary search of `rs_bit_vector.hpp:84-94,127-137` -/
def bsearch (rank : Nat → Option Nat) (n : Nat) : Nat → Nat → Nat → Option Nat
  | fuel, a, b =>
    match subU b a with
    | none => none
    | some d =>
      if d > 1 then
        match fuel with
        | 0 => none
        | fuel + 1 => do
          let mid := a + d / 2
          let x ← rank mid
          if x ≤ n then bsearch rank n fuel mid b else bsearch rank n fuel a mid
      else some a

/-- `rs_bit_vector.hpp:78-80,121-123` -/
def hintLow (hints : List Nat) (chunk : Nat) : Option Nat :=
  if chunk ≠ 0 then rd hints (chunk - 1) else some 0

/-- the choice of the search interval, `rs_bit_vector.hpp:74-82,117-125` -/
def interval (hints : List Nat) (nb n : Nat) : Option (Nat × Nat) := do
  if hints.length ≠ 0 then
    let chunk := n / 1024
    let a ← hintLow hints chunk
    let b ← rd hints chunk
    pure (a, b + 1)
  else pure (0, nb)

/-- `uleq_step_9(sub_ranks, rank_in_block_parallel) * ones_step_9 >> 54 & 0x7`
(`rs_bit_vector.hpp:102-104,144-146`) -/
def subBlockOffset (subRanks : Word) (rankInBlock : Nat) : Nat :=
  (((uleqStep9 subRanks (BitVec.ofNat 64 rankInBlock * onesStep9)) * onesStep9) >>> 54 &&& 0x7#64).toNat

/-- `rs_bit_vector.hpp:70-110` -/
def select (v : RSBitVector) (n : Nat) : Option Nat := do
  let ones ← numOnes v
  assertP (n < ones)
  let nb ← numBlocks v.pairs
  let (a, b) ← interval v.hints nb n
  let block ← bsearch (blockRank v.pairs) n (b - a) a b
  assertP (block < nb)
  let blockOffset := block * 8
  let curRank ← blockRank v.pairs block
  assertP (curRank ≤ n)
  let subRanks ← subBlockRanks v.pairs block
  let off := subBlockOffset (BitVec.ofNat 64 subRanks) (n - curRank)
  let x ← shr (BitVec.ofNat 64 subRanks) ((7 - off) * 9)
  let curRank := curRank + (x &&& 0x1FF#64).toNat
  assertP (curRank ≤ n)
  let wordOffset := blockOffset + off
  let w ← rd v.bv.bits wordOffset
  let s ← selectInWord w (n - curRank)
  pure (wordOffset * 64 + s)

/-- `rs_bit_vector.hpp:113-152` -/
def select0 (v : RSBitVector) (n : Nat) : Option Nat := do
  let zeros ← numZeros v
  assertP (n < zeros)
  let nb ← numBlocks v.pairs
  let (a, b) ← interval v.hints0 nb n
  let block ← bsearch (blockRank0 v.pairs) n (b - a) a b
  assertP (block < nb)
  let blockOffset := block * 8
  let curRank ← blockRank0 v.pairs block
  assertP (curRank ≤ n)
  let sbr ← subBlockRanks v.pairs block
  let subRanks := 64#64 * invCountStep9 - BitVec.ofNat 64 sbr
  let off := subBlockOffset subRanks (n - curRank)
  let x ← shr subRanks ((7 - off) * 9)
  let curRank := curRank + (x &&& 0x1FF#64).toNat
  assertP (curRank ≤ n)
  let wordOffset := blockOffset + off
  let w ← rd v.bv.bits wordOffset
  let s ← selectInWord (~~~w) (n - curRank)
  pure (wordOffset * 64 + s)

end RSBitVector
end Succinct
