import Verif.Model.BpVector

/-! # The member `bp_vector` may leave uninitialised

`m_internal_nodes` (`bp_vector.hpp:97`) is set by neither constructor and by `build_min_tree` only if the vector is not
empty (`bp_vector.cpp:630,673`). -/
namespace Succinct.BpVector

/-- constructor `bp_vector.hpp:19-26` of an object in memory where `m_internal_nodes` holds `g` -/
def buildOver (g : Nat) (bv : BitVector) (withHints withHints0 : Bool) : Option BpVector := do
  let rs ← RSBitVector.build bv withHints withHints0
  if rs.bv.size = 0 then pure ⟨rs, g, [], []⟩
  else buildMinTree rs

end Succinct.BpVector
