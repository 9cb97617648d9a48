import Verif.Spec.Files

/-! # `util::auto_file` (`util.hpp:97-130`)

A `FILE*` is a number, or nothing if null; each call of `fopen` that succeeds gives a new one.  A block of a program that
declares an `auto_file` is a `scope`: the object is destroyed when the block is left, normally or by an exception (the rules of
C++, not code of the library).  Copies are private and not defined (`util.hpp:126-127`), so there is one object for each
declaration. -/
namespace Succinct.AutoFile
open Spec

/-- the exceptions a constructor can throw (`util.hpp:104-107`) -/
inductive Exc where
  | invalidArgument
  | badAlloc
deriving DecidableEq, Repr

/-- what the system does in a constructor: `fopen` succeeds; it fails; it fails and there is no memory for the message -/
inductive Sys where
  | ok
  | fails
  | failsNoMem
deriving DecidableEq, Repr

/-- `fopen` (C library): the next handle, or null -/
def fopen (s : Sys) (next : Nat) : Option Nat × Nat × List FileEvent :=
  match s with
  | .ok => (some next, next + 1, [.opened next])
  | _ => (none, next, [])

/-- constructor, `util.hpp:99-110`: the value of `m_file`, or the exception -/
def ctor (s : Sys) (next : Nat) : Except Exc (Option Nat) × Nat × List FileEvent :=
  let (file, next, es) := fopen s next
  if file.isNone then
    match s with
    | .failsNoMem => (.error .badAlloc, next, es)
    | _ => (.error .invalidArgument, next, es)
  else (.ok file, next, es)

/-- destructor, `util.hpp:112-117` -/
def dtor (file : Option Nat) : List FileEvent :=
  match file with
  | some h => [.closed h]
  | none => []

/-- `util.hpp:119-122` -/
def get (file : Option Nat) : Option Nat := file

/-- programs: `use k` reads from `get()` of the `k`-th object in scope, counted from the inside; `save k` copies that pointer to
a variable (as `lines(f.get())` does, `util.hpp:93-95`) and `useSaved` reads from the variable -/
inductive Prog where
  | skip
  | use (k : Nat)
  | save (k : Nat)
  | useSaved
  | throw_ (e : Exc)
  | seq (p q : Prog)
  | scope (s : Sys) (body : Prog)
  | catch_ (p q : Prog)
deriving DecidableEq, Repr

/-- state: next handle and the variable for a saved pointer -/
structure St where
  next : Nat
  saved : Option Nat
deriving DecidableEq, Repr

/-- run a program with the objects `env` in scope: the exception that leaves it, the state and what was done with files.
Nothing if a null pointer or an object that does not exist is used. -/
def run : Prog → List (Option Nat) → St → Option (Option Exc × St × List FileEvent)
  | .skip, _, s => some (none, s, [])
  | .use k, env, s => do
    let file ← env[k]?
    let h ← get file
    pure (none, s, [.used h])
  | .save k, env, s => do
    let file ← env[k]?
    pure (none, { s with saved := get file }, [])
  | .useSaved, _, s => do
    let h ← s.saved
    pure (none, s, [.used h])
  | .throw_ e, _, s => some (some e, s, [])
  | .seq p q, env, s =>
    match run p env s with
    | none => none
    | some (some e, s, es) => some (some e, s, es)
    | some (none, s, es) =>
      match run q env s with
      | none => none
      | some (r, s, fs) => some (r, s, es ++ fs)
  | .scope sys body, env, s =>
    match ctor sys s.next with
    | (.error e, next, es) => some (some e, { s with next := next }, es)
    | (.ok file, next, es) =>
      match run body (file :: env) { s with next := next } with
      | none => none
      | some (r, s, fs) => some (r, s, es ++ fs ++ dtor file)
  | .catch_ p q, env, s =>
    match run p env s with
    | none => none
    | some (none, s, es) => some (none, s, es)
    | some (some _, s, es) =>
      match run q env s with
      | none => none
      | some (r, s, fs) => some (r, s, es ++ fs)

end Succinct.AutoFile
