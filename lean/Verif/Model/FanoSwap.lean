import Verif.Model.Life
import Verif.Spec.GammaSwap

/-! # `elias_fano.hpp:201-252`: `select_enumerator` of an `elias_fano` that is swapped

The enumerator copies `m_l`, the mask and the number of parts in a word, holds a pointer to the object and a pointer to the words of the
high part (inside `m_high_enum`, `bit_vector.hpp:519`).  `swap` moves the words from object to object but not in memory
(`mappable_vector.hpp:61-66`). -/
namespace Succinct
open Broadword Spec

namespace FanoSwap

/-- `elias_fano.hpp:225-228`; `l` is the copy in the enumerator, `c` what `*m_ef` holds now.  As in `SelEnum.refill`, `subU` reports
`m_chunks_in_word - 1` for `m_l = 0`. -/
def refill (l : Nat) (c : EliasFano) (e : EliasFano.SelEnum) : Option (Word × Nat) :=
  if e.chunksAvail = 0 then do
    let w ← c.low.getWord (e.i * l)
    let a ← subU (if l ≠ 0 then 64 / l else 0) 1
    pure (w, a)
  else some (e.lowBuf, e.chunksAvail - 1)

/-- `elias_fano.hpp:224-240`; `hw` are the words of the high part, which `m_high_enum` points to -/
def next (l : Nat) (hw : List Word) (c : EliasFano) (e : EliasFano.SelEnum) : Option (Word × EliasFano.SelEnum) := do
  let (buf, avail) ← refill l c e
  let u ← e.high
  let (high, u) ← UEnum.next hw u
  let s ← c.d1.select false c.high e.i
  assertP (high = s)
  let mask ← EFBuilder.lowMask l
  let d ← subU high e.i
  let x ← shl (BitVec.ofNat 64 d) l
  let buf' ← shr buf l
  pure (x ||| (buf &&& mask), ⟨e.i + 1, some u, buf', avail⟩)

/-- A history of an enumerator on object `i`: `next` (`elias_fano.hpp:224-240`) looks up object `i` at every call, `swap` is
`elias_fano.hpp:92-99`. -/
def run (i l : Nat) (hw : List Word) : Objs EliasFano → EliasFano.SelEnum → List SeqOp → Option (List Word)
  | _, _, [] => some []
  | s, e, .swap x y :: ops => run i l hw (EliasFano.swap .whole s x y) e ops
  | s, e, .next :: ops => do
    let (z, e) ← next l hw (s i) e
    let outs ← run i l hw s e ops
    pure (z :: outs)

/-- `select_enumerator(objs[i], idx)` (`elias_fano.hpp:203-222`), then the history. -/
def start (s : Objs EliasFano) (i idx : Nat) (ops : List SeqOp) : Option (List Word) := do
  let e ← EliasFano.SelEnum.new (s i) idx
  run i (s i).l (s i).high.bits s e ops

end FanoSwap
end Succinct
