/-! # What may be done with files

A record of what a program did with files: opened, read, closed.  `replay` follows it with the list of files that are open. -/
namespace Succinct.Spec

inductive FileEvent where
  | opened (h : Nat)
  | used (h : Nat)
  | closed (h : Nat)
deriving DecidableEq, Repr

/-- the files open afterwards; nothing if a file was opened twice, or used or closed while not open -/
def replay : List FileEvent → List Nat → Option (List Nat)
  | [], o => some o
  | .opened h :: es, o => if h ∈ o then none else replay es (h :: o)
  | .used h :: es, o => if h ∈ o then replay es o else none
  | .closed h :: es, o => if h ∈ o then replay es (o.erase h) else none

end Succinct.Spec
