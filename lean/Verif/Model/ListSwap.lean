import Verif.Model.Life
import Verif.Model.Gamma
import Verif.Spec.GammaSwap

/-! # `forward_enumerator.hpp:5-23`: enumerators of `elias_fano_list` and `elias_fano_compressed_list` objects that are swapped

These containers have no specialisation of `forward_enumerator`.  The enumerator holds a pointer to the container and an index
(`forward_enumerator.hpp:21-22`). -/
namespace Succinct
open Spec

namespace ListSwap

/-- A history of `forward_enumerator<elias_fano_list>` on object `i` with `m_idx = k`: `next` is `forward_enumerator.hpp:15-18` with
`operator[]` of `elias_fano_list.hpp:38-41`, `swap` is `elias_fano_list.hpp:52-55`. -/
def runList (ov : Word → Nat → Word) (i : Nat) : Objs EFList → Nat → List SeqOp → Option (List Word)
  | _, _, [] => some []
  | s, k, .swap x y :: ops => runList ov i (EFList.swap .whole s x y) k ops
  | s, k, .next :: ops => do
    let (x, k) ← forwardNext ((s i).get ov) k
    let outs ← runList ov i s k ops
    pure (x :: outs)

/-- The same with `forward_enumerator<elias_fano_compressed_list>`: `operator[]` is `elias_fano_compressed_list.hpp:43-48`, `swap` is
`elias_fano_compressed_list.hpp:55-59`. -/
def runCompressed (ov : Word → Nat → Word) (i : Nat) : Objs EFCompressedList → Nat → List SeqOp → Option (List Word)
  | _, _, [] => some []
  | s, k, .swap x y :: ops => runCompressed ov i (EFCompressedList.swap .whole s x y) k ops
  | s, k, .next :: ops => do
    let (x, k) ← forwardNext ((s i).get ov) k
    let outs ← runCompressed ov i s k ops
    pure (x :: outs)

end ListSwap
end Succinct
