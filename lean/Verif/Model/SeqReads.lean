import Verif.Model.Reads
import Verif.Model.EliasFano
import Verif.Model.Gamma

/-! # What the enumerators of `elias_fano`, `gamma_vector` and `gamma_bit_vector` read

The functions of `Model/EliasFano` and `Model/Gamma` once more, with the words of the high part they read (by `unary_enumerator`, `Model/Reads`) and
what they read of the low part: the positions passed to `get_word`, and for the gamma coded vectors the number of calls of `fill_buf`.  The words read by
the one `select` of the constructors are not recorded, nor those read by the `select` in the assertion of `elias_fano.hpp:231`. -/
namespace Succinct

namespace EliasFano

/-- `elias_fano.hpp:203-222`; the words of `m_high_bits` read -/
def SelEnum.newR (ef : EliasFano) (i : Nat) : Option (SelEnum × List Nat) := do
  let _ ← EFBuilder.lowMask ef.l
  let avail := if ef.l ≠ 0 then 0 else ef.numOnes
  if ef.numOnes = 0 then pure (⟨i, none, 0, avail⟩, [])
  else
    let pos ← ef.d1.select false ef.high i
    let (u, t) ← UEnum.newR ef.high.bits pos
    assertP (ef.l < 64)
    pure (⟨i, some u, 0, avail⟩, t)

/-- `elias_fano.hpp:225-228`; the last result lists the arguments of `get_word` -/
def SelEnum.refillR (ef : EliasFano) (e : SelEnum) : Option (Word × Nat × List Nat) :=
  if e.chunksAvail = 0 then do
    let w ← ef.low.getWord (e.i * ef.l)
    let a ← subU (if ef.l ≠ 0 then 64 / ef.l else 0) 1
    pure (w, a, [e.i * ef.l])
  else some (e.lowBuf, e.chunksAvail - 1, [])

/-- `elias_fano.hpp:224-240`; the last two results are the words of `m_high_bits` read and the arguments of `m_low_bits.get_word` -/
def SelEnum.nextR (ef : EliasFano) (e : SelEnum) : Option (Word × SelEnum × List Nat × List Nat) := do
  let (buf, avail, g) ← refillR ef e
  let u ← e.high
  let (high, u, t) ← UEnum.nextR ef.high.bits u
  let s ← ef.d1.select false ef.high e.i
  assertP (high = s)
  let mask ← EFBuilder.lowMask ef.l
  let d ← subU high e.i
  let x ← shl (BitVec.ofNat 64 d) ef.l
  let buf' ← shr buf ef.l
  pure (x ||| (buf &&& mask), ⟨e.i + 1, some u, buf', avail⟩, t, g)

/-- `k` successive calls of `select_enumerator::next` (`elias_fano.hpp:224-240`) -/
def SelEnum.runR (ef : EliasFano) : Nat → SelEnum → Option (List Word × List Nat × List Nat)
  | 0, _ => some ([], [], [])
  | k + 1, e => do
    let (x, e, t, g) ← nextR ef e
    let (xs, ts, gs) ← runR ef k e
    pure (x :: xs, t ++ ts, g ++ gs)

end EliasFano

namespace GammaVector

/-- `gamma_vector.hpp:86-97`; the words of the high part read.  The enumerator of the low part reads nothing yet. -/
def enumNewR (v : GammaVec) (idx : Nat) : Option (GammaEnum × List Nat) := do
  let s ← v.size
  if idx < s then
    let pos ← v.high.select idx
    let (u, t) ← UEnum.newR v.high.bits.bits (pos + 1)
    let off ← subU pos idx
    pure (⟨idx, pos, some u, Enum.new off⟩, t)
  else pure (⟨idx, 0, none, Enum.new 0⟩, [])

/-- `gamma_vector.hpp:99-109`; the last two results are the words of the high part read and the number of calls of `fill_buf` -/
def enumNextR (v : GammaVec) (e : GammaEnum) : Option (Word × GammaEnum × List Nat × Nat) := do
  let s ← v.size
  assertP (e.idx ≤ s)
  let u ← e.high
  let (nextPos, u, t) ← UEnum.nextR v.high.bits.bits u
  let d ← subU nextPos e.pos
  let l ← subU d 1
  let (chunk, low, f) ← Enum.takeF v.low e.low l
  let one ← shl 1 l
  pure ((chunk ||| one) - 1, ⟨e.idx + 1, nextPos, some u, low⟩, t, f)

/-- `k` calls of `next` (`gamma_vector.hpp:99-109`) -/
def enumRunR (v : GammaVec) : Nat → GammaEnum → Option (List Word × List Nat × Nat)
  | 0, _ => some ([], [], 0)
  | k + 1, e => do
    let (x, e, t, f) ← enumNextR v e
    let (xs, ts, fs) ← enumRunR v k e
    pure (x :: xs, t ++ ts, f + fs)

end GammaVector

namespace GammaBitVector

/-- `gamma_bit_vector.hpp:95-106`; the words of the high part read -/
def enumNewR (v : GammaVec) (idx : Nat) : Option (GammaEnum × List Nat) := do
  let s ← v.size
  if idx < s then
    let pos ← v.high.select idx
    let (u, t) ← UEnum.newR v.high.bits.bits (pos + 1)
    pure (⟨idx, pos, some u, Enum.new pos⟩, t)
  else pure (⟨idx, 0, none, Enum.new 0⟩, [])

/-- `gamma_bit_vector.hpp:114-124`; the last two results are the words of the high part read and the number of calls of `fill_buf` -/
def enumNextR (v : GammaVec) (e : GammaEnum) : Option (Word × GammaEnum × List Nat × Nat) := do
  let s ← v.size
  assertP (e.idx ≤ s)
  let u ← e.high
  let (nextPos, u, t) ← UEnum.nextR v.high.bits.bits u
  let d ← subU nextPos e.pos
  let l ← subU d 1
  let (chunk, low, f) ← Enum.takeF v.low e.low (l + 1)
  let one ← shl 1 (l + 1)
  pure ((chunk ||| one) - 2, ⟨e.idx + 1, nextPos, some u, low⟩, t, f)

/-- `k` calls of `next` (`gamma_bit_vector.hpp:114-124`) -/
def enumRunR (v : GammaVec) : Nat → GammaEnum → Option (List Word × List Nat × Nat)
  | 0, _ => some ([], [], 0)
  | k + 1, e => do
    let (x, e, t, f) ← enumNextR v e
    let (xs, ts, fs) ← enumRunR v k e
    pure (x :: xs, t ++ ts, f + fs)

end GammaBitVector
end Succinct
