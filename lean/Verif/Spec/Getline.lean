/-! # What `fast_getline` makes of an arbitrary file -/
namespace Succinct.Spec

/-- `cs` cuts the file `s` into the pieces that successive `fgets` calls with a buffer of 65536 bytes return: a piece ends after a newline, after
65535 bytes or at the end of the file -/
inductive Cut : List (BitVec 8) → List (List (BitVec 8)) → Prop
  | nil : Cut [] []
  | cons (c : List (BitVec 8)) {s : List (BitVec 8)} {cs : List (List (BitVec 8))} : c ≠ [] → c.length ≤ 65535 → (10 : BitVec 8) ∉ c.dropLast →
      (c.getLast? = some 10 ∨ c.length = 65535 ∨ s = []) → Cut s cs → Cut (c ++ s) (c :: cs)

/-- the bytes of a piece before its first NUL -/
def visible (c : List (BitVec 8)) : List (BitVec 8) := c.takeWhile (· ≠ 0)

/-- a piece that ends a line: it has a newline and no NUL -/
def Complete (c : List (BitVec 8)) : Prop := (0 : BitVec 8) ∉ c ∧ c.getLast? = some 10

/-- What is read from the pieces `cs`: the visible bytes of the pieces up to a complete one make a line; those of the pieces left over make the last
line, which ends with the visible bytes of the last piece once more.  No line may begin with a NUL byte. -/
inductive Reads : List (List (BitVec 8)) → List (List (BitVec 8)) → Prop
  | nil : Reads [] []
  | line (g : List (List (BitVec 8))) (c : List (BitVec 8)) {cs ls : List (List (BitVec 8))} : (∀ d ∈ g, ¬ Complete d) → Complete c →
      (∀ d, (g ++ [c]).head? = some d → d.head? ≠ some 0) → Reads cs ls → Reads (g ++ c :: cs) ((g ++ [c]).flatMap visible :: ls)
  | last (g : List (List (BitVec 8))) (c : List (BitVec 8)) : (∀ d ∈ g ++ [c], ¬ Complete d) → (∀ d, (g ++ [c]).head? = some d → d.head? ≠ some 0) →
      Reads (g ++ [c]) [(g ++ [c, c]).flatMap visible]

end Succinct.Spec
