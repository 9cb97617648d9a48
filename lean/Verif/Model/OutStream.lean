import Verif.Model.Mapper

/-! # `mapper.hpp`: freezing to a stream that can fail

`freeze_visitor` writes to a `std::ofstream` and never looks at its state (`mapper.hpp:59,73,84`), nor do the two `freeze`
functions (`mapper.hpp:234-247`).  A write on a stream whose state is not good does nothing.  A write that fails sets the state, and bytes that
were still buffered, of this write and of earlier ones, may be lost, so that the file holds some prefix of what was written to the stream.  Which write fails and what is
left then is up to the environment. -/
namespace Succinct.Mapper

/-- what the environment does with a write: accept it, or fail and leave the first `k` bytes of everything written so far (`mapper.hpp:59,73,84`) -/
inductive Fate
  | ok
  | fail (k : Nat)
deriving DecidableEq, Repr

/-- a `std::ofstream` (`mapper.hpp:95`): its file, or what will be in it after the next flush, and whether its state is good -/
structure OStream where
  file : List Byte
  good : Bool
deriving DecidableEq, Repr

/-- `m_fout.write(p, n)` (`mapper.hpp:59,73,84`) -/
def OStream.write (s : OStream) (f : Fate) (bs : List Byte) : OStream :=
  if s.good then
    match f with
    | .ok => ⟨s.file ++ bs, true⟩
    | .fail k => ⟨(s.file ++ bs).take k, false⟩
  else s

/-- the destructor of the stream at the end of `freeze` (`mapper.hpp:245-247`) writes out its buffer and closes the file; errors are ignored -/
def OStream.close (s : OStream) (f : Fate) : List Byte :=
  match f with
  | .ok => s.file
  | .fail k => s.file.take k

/-- a `freeze_visitor` (`mapper.hpp:95-97`); `fates` are those of the writes to come -/
structure SOut where
  stream : OStream
  written : Nat
  fates : Nat → Fate

/-- a write with the counter increment that follows it (`mapper.hpp:59-60,73-74,84-85`) -/
def SOut.put (o : SOut) (bs : List Byte) (n : Nat) : SOut := ⟨o.stream.write (o.fates 0) bs, o.written + n, fun i => o.fates (i + 1)⟩

/-- `mapper.hpp:63-88` applied to every field in order, as `freezeV` -/
def freezeS : Val → SOut → Option SOut
  | .done, o => some o
  | .pod _ bs rest, o => freezeS rest (o.put bs bs.length)
  | .vec _ es xs rest, o => do
    let o := o.put (leEnc 8 xs.length) 8
    let n := xs.length * es % 2^64
    let data ← rdBytes xs.flatten 0 n
    freezeS rest (o.put data n)
  | .obj _ inner rest, o => do
    let o ← freezeS inner o
    freezeS rest o

/-- `mapper.hpp:53-61,234-240`: the stream afterwards and the returned count -/
def freezeStream (x : Val) (s : OStream) (flags : Nat) (fates : Nat → Fate) : Option (OStream × Nat) := do
  let o ← freezeS x (SOut.put ⟨s, 0, fates⟩ (leEnc 8 flags) 8)
  pure (o.stream, o.written)

/-- `mapper.hpp:242-247`: the file afterwards and the returned count.  Opening the file truncates it; if it cannot be opened (`opened = false`) the state of
the stream is not good and the file stays what it was, here `old`. -/
def freezeFile (x : Val) (old : List Byte) (opened : Bool) (flags : Nat) (fates : Nat → Fate) (last : Fate) : Option (List Byte × Nat) := do
  let s : OStream := if opened then ⟨[], true⟩ else ⟨old, false⟩
  let (s, n) ← freezeStream x s flags fates
  pure (if opened then s.close last else s.file, n)

end Succinct.Mapper
