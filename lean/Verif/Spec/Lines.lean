/-! # Lines of a text, trimming -/
namespace Succinct.Spec

/-- `segs` cuts `s` after every newline: every piece but the last consists of non-newline bytes followed
by one newline, the last (if present) is non-empty and may lack the newline -/
inductive Lines : List (BitVec 8) → List (List (BitVec 8)) → Prop
  | nil : Lines [] []
  | last (x : List (BitVec 8)) : x ≠ [] → (10 : BitVec 8) ∉ x → Lines x [x]
  | cons (x : List (BitVec 8)) {s : List (BitVec 8)} {ls : List (List (BitVec 8))} :
      (10 : BitVec 8) ∉ x → Lines s ls → Lines (x ++ [10] ++ s) ((x ++ [10]) :: ls)

/-- the text is empty or ends with a newline -/
def Terminated (s : List (BitVec 8)) : Prop := s = [] ∨ s.getLast? = some 10

/-- `t` is `s` without its trailing carriage returns and newlines -/
def IsTrimmed (s t : List (BitVec 8)) : Prop :=
  ∃ r, s = t ++ r ∧ (∀ c ∈ r, c = 13 ∨ c = 10) ∧ ∀ c, t.getLast? = some c → c ≠ 13 ∧ c ≠ 10

/-- `t` is the line `s` without its newline and without one carriage return before it -/
def IsChomped (s t : List (BitVec 8)) : Prop :=
  ∃ u, (s = u ++ [10] ∨ (s = u ∧ (10 : BitVec 8) ∉ u)) ∧ (u = t ++ [13] ∨ (u = t ∧ t.getLast? ≠ some 13))

end Succinct.Spec
