import Verif.Model.EliasFano

/-! # Counting copies of the linear searches

`Model/Work` cuts off the loops of the queries whose work is bounded by a constant or a logarithm.  The
loops of this file have no such bound: the word by word searches of `bit_vector`, the walks of
`elias_fano` through one bucket, and the two construction loops made of them.  Every definition is the
one of the model with a counter added; `Lemmas/Walk` proves that forgetting the counter gives the
definition of the model back. -/
namespace Succinct
open Broadword

namespace BitVector

/-- `predLoop` (`bit_vector.hpp:294-299,324-329`) with the number of words it reads -/
def predLoopC (neg : Bool) (bits : List Word) : Nat → Word → Option (Nat × Nat)
  | block, word =>
    match msb word with
    | some r => some (block * 64 + r, 0)
    | none =>
      match block with
      | 0 => none
      | block + 1 => do
        let w ← rd bits block
        let (p, c) ← predLoopC neg bits block (if neg then ~~~w else w)
        pure (p, c + 1)

/-- `predecessor0/1` (`bit_vector.hpp:287-300,317-330`) with the number of words read -/
def predecessorC (neg : Bool) (v : BitVector) (pos : Nat) : Option (Nat × Nat) := do
  assertP (pos < v.size)
  let block := pos / 64
  let shift := 64 - pos % 64 - 1
  let w ← rd v.bits block
  let word := if neg then ~~~w else w
  let word ← shl word shift
  let word ← shr word shift
  let (p, c) ← predLoopC neg v.bits block word
  pure (p, c + 1)

/-- `succLoop` (`bit_vector.hpp:308-314,338-344`) with the number of words it reads -/
def succLoopC (neg : Bool) : List Word → Nat → Word → Option (Nat × Nat)
  | rest, block, word =>
    match lsb word with
    | some r => some (block * 64 + r, 0)
    | none =>
      match rest with
      | [] => none
      | w :: rest => do
        let (p, c) ← succLoopC neg rest (block + 1) (if neg then ~~~w else w)
        pure (p, c + 1)

/-- `successor0/1` (`bit_vector.hpp:302-315,332-345`) with the number of words read -/
def successorC (neg : Bool) (v : BitVector) (pos : Nat) : Option (Nat × Nat) := do
  assertP (pos < v.size)
  let block := pos / 64
  let shift := pos % 64
  let w ← rd v.bits block
  let word ← shr (if neg then ~~~w else w) shift
  let word ← shl word shift
  let (p, c) ← succLoopC neg (v.bits.drop (block + 1)) block word
  pure (p, c + 1)

end BitVector

namespace Darray

/-- `scanWord` (`darray.hpp:31-46`) with the number of calls of `lsb` -/
def scanWordC (size : Nat) : Nat → Word → Nat → BuildState → Option (BuildState × Nat)
  | 0, _, _, _ => none
  | fuel + 1, w, pos, st =>
    match lsb w with
    | none => some (st, 1)
    | some l =>
      let pos := pos + l
      let w := w >>> l
      if pos ≥ size then some (st, 1)
      else do
        let st ← pushPos st pos
        let (st, c) ← scanWordC size fuel (w >>> 1) (pos + 1) st
        pure (st, c + 1)

/-- `scan` (`darray.hpp:27-47`) with the number of calls of `lsb` -/
def scanC (neg : Bool) (data : List Word) (size : Nat) : Nat → Nat → BuildState → Option (BuildState × Nat)
  | 0, _, st => some (st, 0)
  | k + 1, i, st => do
    let w ← getWord neg data i
    let (st, c) ← scanWordC size 65 w (i * 64) st
    let (st, c') ← scanC neg data size k (i + 1) st
    pure (st, c + c')

/-- the constructor (`darray.hpp:17-55`) with the number of calls of `lsb` -/
def buildC (neg : Bool) (bv : BitVector) : Option (Darray × Nat) := do
  let (st, c) ← scanC neg bv.bits bv.size bv.bits.length 0 ⟨[], ⟨[], [], []⟩, 0⟩
  if st.cur.length ≠ 0 then
    let inv ← flush st.cur st.inv
    pure (⟨st.positions, inv⟩, c)
  else pure (⟨st.positions, st.inv⟩, c)

end Darray

namespace EliasFano

/-- `fillLoop` (`elias_fano.hpp:66-70`) with the number of words read by `successor1` -/
def fillLoopC (bv : BitVector) : Nat → Nat → EFBuilder → Option (EFBuilder × Nat)
  | 0, _, b => some (b, 0)
  | k + 1, i, b => do
    let (i, c) ← bv.successorC false i
    let b ← b.pushBack (BitVec.ofNat 64 i)
    let (b, c') ← fillLoopC bv k (i + 1) b
    pure (b, c + c')

/-- the constructor from a bitmap (`elias_fano.hpp:52-73`) with the number of words read by
`successor1` -/
def ofBitmapC (bvb : Builder) (withRank : Bool) : Option (EliasFano × Nat) := do
  let bv ← BitVector.ofBuilder bvb
  let m := (bv.bits.map popcount).sum
  let b ← EFBuilder.new (BitVec.ofNat 64 bv.size) m
  let (b, c) ← fillLoopC bv m 0 b
  let ef ← build b withRank
  pure (ef, c)

variable (ov : Word → Nat → Word)

/-- `accessLoop` (`elias_fano.hpp:117-129`) with the number of low parts it reads -/
def accessLoopC (ef : EliasFano) (lpos : Word) : Nat → Nat → Option (Bool × Nat)
  | 0, _ => some (false, 0)
  | h + 1, rank => do
    let b ← ef.high.access h
    if b then
      let rank ← subU rank 1
      let low ← getLow ov ef rank
      if low = lpos then pure (true, 1)
      else if low < lpos then pure (false, 1)
      else
        let (x, c) ← accessLoopC ef lpos h rank
        pure (x, c + 1)
    else pure (false, 0)

/-- `operator[]` (`elias_fano.hpp:109-130`) with the number of low parts read -/
def accessC (ef : EliasFano) (pos : Word) : Option (Bool × Nat) := do
  assertP (pos < ef.size)
  assertP (ef.d0.positions ≠ 0)
  let hRank ← shr pos ef.l
  let hPos ← ef.d0.select true ef.high hRank.toNat
  let rank ← subU hPos hRank.toNat
  let mask ← EFBuilder.lowMask ef.l
  accessLoopC ov ef (pos &&& mask) hPos rank

/-- `rankLoop` (`elias_fano.hpp:150-157`) with the number of low parts it reads -/
def rankLoopC (ef : EliasFano) (lpos : Word) : Nat → Nat → Option (Nat × Nat)
  | 0, rank => some (rank, 0)
  | h + 1, rank => do
    let b ← ef.high.access h
    if b then
      let r1 ← subU rank 1
      let low ← getLow ov ef r1
      if lpos ≤ low then
        let (r, c) ← rankLoopC ef lpos h r1
        pure (r, c + 1)
      else pure (rank, 1)
    else pure (rank, 0)

/-- `rank` (`elias_fano.hpp:138-158`) with the number of low parts read -/
def rankC (ef : EliasFano) (pos : Word) : Option (Nat × Nat) := do
  assertP (pos ≤ ef.size)
  assertP (ef.d0.positions ≠ 0)
  if pos = ef.size then pure (ef.numOnes, 0)
  else
    let hRank ← shr pos ef.l
    let hPos ← ef.d0.select true ef.high hRank.toNat
    let rank ← subU hPos hRank.toNat
    let mask ← EFBuilder.lowMask ef.l
    rankLoopC ov ef (pos &&& mask) hPos rank

/-- `delta` (`elias_fano.hpp:173-186`) with the number of words read by `predecessor1` -/
def deltaC (ef : EliasFano) (n : Nat) : Option (Word × Nat) := do
  let high ← ef.d1.select false ef.high n
  let low ← getLow ov ef n
  if n ≠ 0 then
    let hm ← subU high 1
    let (p, c) ← ef.high.predecessorC false hm
    let d ← subU high p
    let d ← subU d 1
    let x ← shl (BitVec.ofNat 64 d) ef.l
    let low' ← getLow ov ef (n - 1)
    pure (x + low - low', c)
  else
    let d ← subU high n
    let x ← shl (BitVec.ofNat 64 d) ef.l
    pure (x ||| low, 0)

/-- `select_range` (`elias_fano.hpp:190-199`) with the number of words read by `successor1` -/
def selectRangeC (ef : EliasFano) (n : Nat) : Option ((Word × Word) × Nat) := do
  assertP (n + 1 < ef.numOnes)
  let hb ← ef.d1.select false ef.high n
  let lb ← getLow ov ef n
  let (he, c) ← ef.high.successorC false (hb + 1)
  let le ← getLow ov ef (n + 1)
  let db ← subU hb n
  let xb ← shl (BitVec.ofNat 64 db) ef.l
  let de ← subU he (n + 1)
  let xe ← shl (BitVec.ofNat 64 de) ef.l
  pure ((xb ||| lb, xe ||| le), c)

end EliasFano
end Succinct
