import Verif.Model.Util

/-! # Several `line_iterator`s on several files (`util.hpp:51-95`)

Copies of a `line_iterator` share the `FILE*` (line 87), so that an increment of one takes a line away from the others.  A file is the list
of bytes not read from it yet, a `FILE*` its number.  Not modelled: closing a file while iterators refer to it, seeking. -/
namespace Succinct.Util

/-- `util.hpp:86-88`; `file` is `none` for a null `m_file` -/
structure ShIter where
  line : List Byte
  file : Option Nat
  trim : Bool
deriving DecidableEq, Repr

/-- the open files and the iterators, in order of creation (`util.hpp:51-89`) -/
structure Shared where
  files : List (List Byte)
  iters : List ShIter
deriving DecidableEq, Repr

/-- what a program does with iterators (`util.hpp:58-84`) -/
inductive ShOp
  /-- `line_iterator(file, trim)`, `util.hpp:62-65` -/
  | open (file : Nat) (trim : Bool)
  /-- copy construction (compiler generated, `util.hpp:86-88`) -/
  | copy (i : Nat)
  /-- assignment of iterator `j` to iterator `i` (compiler generated, `util.hpp:86-88`) -/
  | assign (i j : Nat)
  /-- `++`, `util.hpp:70-75` -/
  | inc (i : Nat)
deriving DecidableEq, Repr

/-- an increment: the file, whether newlines are trimmed, and the line obtained, or `none` if there was no more (`util.hpp:72`) -/
structure ShEvent where
  file : Nat
  trim : Bool
  line : Option (List Byte)
deriving DecidableEq, Repr

namespace Shared

/-- `util.hpp:77-80` -/
def equal (a b : ShIter) : Bool := a.file == b.file

/-- `increment`, `util.hpp:70-75` -/
def inc (st : Shared) (i : Nat) : Option (Shared × List ShEvent) := do
  let it ← rd st.iters i
  let f ← it.file
  let s ← rd st.files f
  let ((ok, line), s) ← fastGetline s it.trim
  let files := st.files.set f s
  if ok then pure (⟨files, st.iters.set i ⟨line, some f, it.trim⟩⟩, [⟨f, it.trim, some line⟩])
  else pure (⟨files, st.iters.set i ⟨line, none, it.trim⟩⟩, [⟨f, it.trim, none⟩])

/-- one operation (`util.hpp:58-75`) -/
def step (st : Shared) : ShOp → Option (Shared × List ShEvent)
  | .open f trim => do
    let _ ← rd st.files f
    pure (⟨st.files, st.iters ++ [⟨[], some f, trim⟩]⟩, [])
  | .copy i => do
    let it ← rd st.iters i
    pure (⟨st.files, st.iters ++ [it]⟩, [])
  | .assign i j => do
    let it ← rd st.iters j
    let _ ← rd st.iters i
    pure (⟨st.files, st.iters.set i it⟩, [])
  | .inc i => inc st i

/-- a program (`util.hpp:58-84`): the final state and the increments made -/
def run (st : Shared) : List ShOp → Option (Shared × List ShEvent)
  | [] => some (st, [])
  | op :: ops => do
    let (st, ev) ← step st op
    let (st, evs) ← run st ops
    pure (st, ev ++ evs)

end Shared

/-! ## Adaptors -/

/-- `identity_adaptor`, `util.hpp:134-140`: a range is the list of its bytes -/
def identityAdaptor (s : List Byte) : List Byte := s

/-- `stl_string_adaptor`, `util.hpp:142-150`: the bytes of the string and the NUL after them -/
def stlStringAdaptor (s : List Byte) : List Byte := (s ++ [0]).take (s.length + 1)

end Succinct.Util
