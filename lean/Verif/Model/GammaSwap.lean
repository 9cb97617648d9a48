import Verif.Model.Life
import Verif.Spec.GammaSwap

/-! # `gamma_vector.hpp:81-118`, `gamma_bit_vector.hpp:90-133`: forward enumerators of containers that are swapped

The enumerator holds a pointer to the container, a pointer to the words of its unary part (inside `m_high_bits_enumerator`,
`bit_vector.hpp:519`) and a pointer to its member `m_low_bits` (inside `m_low_bits_enumerator`, `bit_vector.hpp:424`).  `swap` moves the
words from object to object but not in memory (`mappable_vector.hpp:61-66`), so `hw`, the words of the unary part, stay the same. -/
namespace Succinct
open Broadword Spec

namespace GammaSwap

/-- `gamma_vector.hpp:99-109`; `c` is what `*m_c` holds now -/
def nextG (hw : List Word) (c : GammaVec) (e : GammaEnum) : Option (Word × GammaEnum) := do
  let s ← c.size
  assertP (e.idx ≤ s)
  let u ← e.high
  let (nextPos, u) ← UEnum.next hw u
  let d ← subU nextPos e.pos
  let l ← subU d 1
  let (chunk, low) ← Enum.take c.low e.low l
  let one ← shl 1 l
  pure ((chunk ||| one) - 1, ⟨e.idx + 1, nextPos, some u, low⟩)

/-- `gamma_bit_vector.hpp:114-124`; `c` is what `*m_c` holds now -/
def nextB (hw : List Word) (c : GammaVec) (e : GammaEnum) : Option (Word × GammaEnum) := do
  let s ← c.size
  assertP (e.idx ≤ s)
  let u ← e.high
  let (nextPos, u) ← UEnum.next hw u
  let d ← subU nextPos e.pos
  let l ← subU d 1
  let (chunk, low) ← Enum.take c.low e.low (l + 1)
  let one ← shl 1 (l + 1)
  pure ((chunk ||| one) - 2, ⟨e.idx + 1, nextPos, some u, low⟩)

/-- A history of an enumerator on object `i`: `next` (`gamma_vector.hpp:99-109`, `gamma_bit_vector.hpp:114-124`) looks up object `i`
at every call, `swap` is `gamma_vector.hpp:53-57`, `gamma_bit_vector.hpp:59-63`. -/
def run (next : List Word → GammaVec → GammaEnum → Option (Word × GammaEnum)) (i : Nat) (hw : List Word) :
    Objs GammaVec → GammaEnum → List SeqOp → Option (List Word)
  | _, _, [] => some []
  | s, e, .swap x y :: ops => run next i hw (GammaVec.swap .whole s x y) e ops
  | s, e, .next :: ops => do
    let (z, e) ← next hw (s i) e
    let outs ← run next i hw s e ops
    pure (z :: outs)

/-- `forward_enumerator<gamma_vector>(objs[i], idx)` (`gamma_vector.hpp:86-97`), then the history. -/
def startG (s : Objs GammaVec) (i idx : Nat) (ops : List SeqOp) : Option (List Word) := do
  let e ← GammaVector.enumNew (s i) idx
  run nextG i (s i).high.bits.bits s e ops

/-- `forward_enumerator<gamma_bit_vector>(objs[i], idx)` (`gamma_bit_vector.hpp:95-106`), then the history. -/
def startB (s : Objs GammaVec) (i idx : Nat) (ops : List SeqOp) : Option (List Word) := do
  let e ← GammaBitVector.enumNew (s i) idx
  run nextB i (s i).high.bits.bits s e ops

end GammaSwap
end Succinct
