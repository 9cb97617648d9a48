import Verif.Model.BitVector

/-! # `util.hpp`

Not modelled here: `auto_file` (`Model/AutoFile`), the opening of files,
I/O errors. -/
namespace Succinct.Util

/-- `char` (`util.hpp:30`) -/
abbrev Byte := BitVec 8

/-! ## int2nat, nat2int -/

/-- a signed 64-bit result (`util.hpp:250,252,259`); overflow is undefined behaviour -/
def i64 (x : Int) : Option Int := if -2^63 ≤ x ∧ x < 2^63 then some x else none

/-- conversion `uint64_t(x)` (`util.hpp:250,252`) -/
def toU64 (x : Int) : Nat := (x % 2^64).toNat
/-- conversion `int64_t(n)` (two's complement; `util.hpp:259,261`) -/
def toI64 (n : Nat) : Int := Int.bmod n (2^64)

/-- `util.hpp:247-254`; `x` ranges over `int64_t` -/
def int2nat (x : Int) : Option Nat := do
  if x < 0 then
    let y ← i64 (-2 * x)
    let z ← i64 (y - 1)
    pure (toU64 z)
  else
    let y ← i64 (2 * x)
    pure (toU64 y)

/-- `util.hpp:256-263`; `n` ranges over `uint64_t` -/
def nat2int (n : Nat) : Option Int :=
  if n % 2 ≠ 0 then i64 (-(toI64 ((n + 1) % 2^64 / 2)))
  else some (toI64 (n / 2))

/-! ## fast_getline

A stream is the list of bytes not read yet. -/

/-- `util.hpp:29` -/
def maxBuffer : Nat := 65536

/-- the bytes `fgets` (`util.hpp:33`) stores when it may store at most `n`: up to and including the first newline -/
def fgetsTake : Nat → List Byte → List Byte
  | 0, _ => []
  | _ + 1, [] => []
  | n + 1, c :: cs => if c = 10 then [c] else c :: fgetsTake n cs

/-- C library `fgets(buffer, size, input)` (`util.hpp:33`): `none` if the stream is at its end (the buffer is left
alone), otherwise the stored bytes (a NUL is stored after them) and the rest of the stream -/
def fgets (size : Nat) (s : List Byte) : Option (List Byte × List Byte) :=
  if s = [] then none else
  let t := fgetsTake (size - 1) s
  some (t, s.drop t.length)

/-- the C string at the beginning of a buffer holding these bytes followed by a NUL (`util.hpp:40`) -/
def cstr (b : List Byte) : List Byte := b.takeWhile (· ≠ 0)

/-- the loop `util.hpp:32-44`; the buffer is `none` until `fgets` first fills it.  Reading it before
that, or the last character of an empty string, is undefined.  Returns the value of the early
`return false` or the line, and the rest of the stream.  The first argument bounds the number of
iterations; `fastGetline` supplies enough (each one consumes a byte or ends the loop). -/
def getlineLoop : Nat → List Byte → Option (List Byte) → List Byte → Option ((Bool × List Byte) × List Byte)
  | 0, _, _, _ => none
  | fuel + 1, line, buf, s =>
    match fgets maxBuffer s with
    | none =>
      if line = [] then some ((false, line), s)
      else do
        let b ← buf
        let line := line ++ cstr b
        let _ ← line.getLast?
        pure ((true, line), s)
    | some (b, s) => do
      let line := line ++ cstr b
      let c ← line.getLast?
      if c = 10 then pure ((true, line), s) else getlineLoop fuel line (some b) s

/-- `util.hpp:15-23` on the reversed string: the loop of lines 18-21 removes characters from the end -/
def trimRev : List Byte → List Byte
  | [] => []
  | c :: cs => if c = 13 ∨ c = 10 then trimRev cs else c :: cs

/-- `trim_newline_chars`, `util.hpp:15-23` -/
def trimNewlineChars (s : List Byte) : List Byte := (trimRev s.reverse).reverse

/-- `util.hpp:26-49`: the returned flag and the line, and the rest of the stream -/
def fastGetline (s : List Byte) (trim : Bool) : Option ((Bool × List Byte) × List Byte) := do
  let ((ok, line), s) ← getlineLoop (s.length + 2) [] none s
  if !ok then pure ((false, line), s)
  else if trim then pure ((true, trimNewlineChars line), s)
  else pure ((true, line), s)

/-- repeated calls of `fast_getline` (`util.hpp:26-49`) until one returns `false`: the lines they return -/
def getlines (trim : Bool) : Nat → List Byte → Option (List (List Byte))
  | 0, _ => none
  | fuel + 1, s => do
    let ((ok, line), s) ← fastGetline s trim
    if ok then do
      let r ← getlines trim fuel s
      pure (line :: r)
    else pure []

/-! ## line_iterator -/

/-- `util.hpp:86-88`; `file` is `none` when `m_file` is null, otherwise what can still be read from it
(iterators sharing one `FILE*`: `Model/LineShare`) -/
structure LineIter where
  line : List Byte
  file : Option (List Byte)
  trim : Bool
deriving DecidableEq, Repr

namespace LineIter

/-- `util.hpp:62-65` -/
def new (input : List Byte) (trim : Bool) : LineIter := ⟨[], some input, trim⟩

/-- `util.hpp:70-75` -/
def increment (it : LineIter) : Option LineIter := do
  let s ← it.file
  let ((ok, line), s) ← fastGetline s it.trim
  if ok then pure ⟨line, some s, it.trim⟩ else pure ⟨line, none, it.trim⟩

/-- `util.hpp:77-80` against the default constructed iterator of lines 58-60 -/
def atEnd (it : LineIter) : Bool := it.file.isNone

/-- `for (it = begin; it != end; ++it)` collecting `*it` (`util.hpp:82-84`) -/
def collect : Nat → LineIter → Option (List (List Byte))
  | 0, _ => none
  | fuel + 1, it =>
    if it.atEnd then some []
    else do
      let it' ← it.increment
      let r ← collect fuel it'
      pure (it.line :: r)

end LineIter

/-! ## buffer_line_iterator

`cur` is `m_cur_pos - m_buffer`, `none` for the null pointer.  After a last line without newline the
code computes the pointer `m_end + 1` (line 187), which is outside what the language allows although no
memory is accessed through it; the model lets it pass. -/
structure BufIter where
  buf : List Byte
  cur : Option Nat
  val : List Byte
deriving DecidableEq, Repr

namespace BufIter

/-- the loop `util.hpp:183-185`; the first argument is `m_end - m_cur_pos` -/
def scan (buf : List Byte) : Nat → Nat → Option Nat
  | 0, p => some p
  | n + 1, p => do
    let c ← rd buf p
    if c ≠ 10 then scan buf n (p + 1) else pure p

/-- `*(end - 1) == '\r'`, evaluated only if `begin != end` (`util.hpp:189-191`) -/
def dropCr (buf : List Byte) (b e : Nat) : Option Nat :=
  if b ≠ e then do
    let c ← rd buf (e - 1)
    if c = 13 then pure (e - 1) else pure e
  else pure e

/-- `util.hpp:176-193` -/
def increment (it : BufIter) : Option BufIter := do
  let p ← it.cur
  if p ≥ it.buf.length then pure { it with cur := none }
  else
    let e ← scan it.buf (it.buf.length - p) p
    let e' ← dropCr it.buf p e
    pure ⟨it.buf, some (e + 1), (it.buf.drop p).take (e' - p)⟩

/-- `util.hpp:165-171`, `mmap_lines::begin` (`220-223`); the buffer pointer is not null -/
def new (buf : List Byte) : Option BufIter := increment ⟨buf, some 0, []⟩

/-- `util.hpp:195-197` against the default constructed iterator (`159-163`, `mmap_lines::end` `225-228`) -/
def atEnd (it : BufIter) : Bool := it.cur.isNone

/-- `util.hpp:199-203` -/
def deref (it : BufIter) : Option (List Byte) := do
  let _ ← it.cur
  pure it.val

/-- `for (it = begin; it != end; ++it)` collecting `*it` (`util.hpp:176-203`) -/
def collect : Nat → BufIter → Option (List (List Byte))
  | 0, _ => none
  | fuel + 1, it =>
    if it.atEnd then some []
    else do
      let x ← it.deref
      let it' ← it.increment
      let r ← collect fuel it'
      pure (x :: r)

/-- a full traversal of the buffer (`util.hpp:165-203`) -/
def lines (buf : List Byte) : Option (List (List Byte)) := do
  let it ← new buf
  collect (buf.length + 2) it

end BufIter
end Succinct.Util
