import Verif.Model.Release

/-! # Construction of a `bp_vector` with assertions compiled out

`build_min_tree` (`bp_vector.cpp:628-708`) in 64-bit arithmetic like `MachineBp.lean`, without its assertions.  The constructor of the base class
`rs_bit_vector` has no assertion.  `none` is a read or write outside an array or overflow of `excess_t`; every loop gets as many iterations as it can make. -/
namespace Succinct
namespace Release
open Machine (at_ put s32 vlen)
open Machine.BpVector (nBits minW superMinLoop completeLeaves fillLoop treeLoop)

/-- `bp_vector.cpp:642` and `663`: the conversion to `block_min_excess_t`, a 16-bit integer (`bp_vector.hpp:67`), keeps the low 16 bits -/
def flushMin (mins : List Int) (curMin : Int) : List Int := mins ++ [Int.bmod curMin (2^16)]

/-- `bp_vector.cpp:635-645` -/
def blockStart (st : BpVector.BlockState) (subBlock : Word) : BpVector.BlockState :=
  if subBlock % 4 = 0 then
    let curExc := if subBlock % (4 * 32) = 0 then 0 else st.curExc
    if subBlock ≠ 0 then ⟨flushMin st.mins st.curMin, curExc, curExc⟩
    else ⟨st.mins, st.curMin, curExc⟩
  else st

/-- `bp_vector.cpp:634-659`; the loop over the bits of a word is that of `BpVector.lean` -/
def blockLoop (bits : List Word) (size : Word) : Nat → Word → BpVector.BlockState → Option BpVector.BlockState
  | fuel, subBlock, st =>
    if subBlock < vlen bits then
      match fuel with
      | 0 => none
      | fuel + 1 => do
        let st := blockStart st subBlock
        let word ← at_ bits subBlock
        let r := BpVector.bitLoop word (nBits (vlen bits) size subBlock).toNat 1#64 st.curMin st.curExc
        blockLoop bits size fuel (subBlock + 1) ⟨st.mins, r.1, r.2⟩
    else some st

/-- `bp_vector.cpp:632-663` -/
def blockMins (bits : List Word) (size : Word) : Option (List Int) := do
  let st ← blockLoop bits size bits.length 0 ⟨[], 0, 0⟩
  pure (flushMin st.mins st.curMin)

/-- `bp_vector.cpp:680-690` -/
def leafMin (rs : Machine.RSBitVector) (mins : List Int) (nBlocks s : Word) : Option Int := do
  let superExc ← blockExcess rs (s * 32)
  superMinLoop mins superExc (minW ((s + 1) * 32) nBlocks) 32 (s * 32) (s32 rs.bv.size)

/-- `bp_vector.cpp:679-691` -/
def leavesLoop (rs : Machine.RSBitVector) (mins : List Int) (nBlocks nSuper internal : Word) :
    Nat → Word → List Int → Option (List Int)
  | fuel, s, tree =>
    if s < nSuper then
      match fuel with
      | 0 => none
      | fuel + 1 => do
        let x ← leafMin rs mins nBlocks s
        let tree ← put tree (internal + s) x
        leavesLoop rs mins nBlocks nSuper internal fuel (s + 1) tree
    else some tree

/-- `bp_vector.cpp:628-708`.  For an empty vector `m_internal_nodes` keeps its indeterminate value; the
model uses 0, no query reads it. -/
def buildMinTree (rs : Machine.RSBitVector) : Option Machine.BpVector := do
  if rs.bv.size = 0 then pure ⟨rs, 0, [], []⟩
  else
    let mins ← blockMins rs.bv.bits rs.bv.size
    let nBlocks := Machine.ceilDiv (vlen rs.bv.bits) 4
    let nSuper := (nBlocks + 32 - 1) / 32
    let internal ← completeLeaves nSuper 64 1
    let treeSize := internal + nSuper
    let tree ← leavesLoop rs mins nBlocks nSuper internal nSuper.toNat 0 (List.replicate treeSize.toNat 0)
    let tree ← fillLoop (s32 rs.bv.size) internal internal.toNat 0 tree
    let tree ← treeLoop (treeSize - 1).toNat (treeSize - 1) tree
    pure ⟨rs, internal, mins, tree⟩

/-- constructor `bp_vector.hpp:19-26` -/
def bpBuild (bv : Machine.BitVector) (withHints withHints0 : Bool) : Option Machine.BpVector := do
  let rs ← Machine.RSBitVector.build bv withHints withHints0
  buildMinTree rs

end Release
end Succinct
