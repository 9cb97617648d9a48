import Verif.Model.Life
import Verif.Spec.GammaSwap

/-! # `topk_vector.hpp:44-133`: the enumerator of a `topk_vector` that is swapped

The enumerator holds a pointer to the `topk_vector` (`topk_vector.hpp:130`), so after `swap` (`topk_vector.hpp:176-180`) it reads the
new tree and the new values; the queue holds values read before. -/
namespace Succinct
open Spec

namespace TopKSwap
variable {α : Type}

/-- A history of an enumerator on object `i`.  `next` (`topk_vector.hpp:51-78`) looks up object `i` at every call if the pointer is set;
`swap` is `topk_vector.hpp:176-180`. -/
def run (h : HeapOps (QElem α)) (i : Nat) : Objs (TopK α) → TopKEnum α → List SeqOp → Option (List (Option (α × Nat)))
  | _, _, [] => some []
  | s, e, .swap x y :: ops => run h i (TopK.swap .whole s x y) e ops
  | s, e, .next :: ops => do
    let (r, e) ← TopKEnum.next h { e with topkv := e.topkv.map fun _ => s i }
    if r then do
      let x ← e.cur
      let outs ← run h i s e ops
      pure (some x :: outs)
    else do
      let outs ← run h i s e ops
      pure (none :: outs)

/-- `objs[i].get_topk_enumerator(lo, hi)` (`topk_vector.hpp:142-147`), then the history -/
def start (h : HeapOps (QElem α)) (s : Objs (TopK α)) (i lo hi : Nat) (ops : List SeqOp) : Option (List (Option (α × Nat))) := do
  let e ← (s i).getEnumerator lo hi TopKEnum.new
  run h i s e ops

end TopKSwap
end Succinct
