/-!
# Specification vocabulary for bit sequences

Everything here is about plain lists of Booleans; nothing refers to the model of the C++ code.
-/
namespace Succinct.Spec

/-- number of ones among the first `p` bits -/
def rank1 (l : List Bool) (p : Nat) : Nat := (l.take p).count true

/-- number of zeros among the first `p` bits -/
def rank0 (l : List Bool) (p : Nat) : Nat := (l.take p).count false

/-- `p` is the position of the one of rank `k` -/
def IsSelect1 (l : List Bool) (k p : Nat) : Prop := l[p]? = some true ∧ rank1 l p = k

/-- `p` is the position of the zero of rank `k` -/
def IsSelect0 (l : List Bool) (k p : Nat) : Prop := l[p]? = some false ∧ rank0 l p = k

/-- `q` is the largest position `≤ p` holding the bit `b` -/
def IsPred (b : Bool) (l : List Bool) (p q : Nat) : Prop :=
  q ≤ p ∧ l[q]? = some b ∧ ∀ r, q < r → r ≤ p → l[r]? ≠ some b

/-- `q` is the smallest position `≥ p` holding the bit `b` -/
def IsSucc (b : Bool) (l : List Bool) (p q : Nat) : Prop :=
  p ≤ q ∧ l[q]? = some b ∧ ∀ r, p ≤ r → r < q → l[r]? ≠ some b

/-- the `64` bits of a word, least significant first -/
def wordBits (x : BitVec 64) : List Bool := (List.range 64).map fun i => x.getLsbD i

/-- the `n` lowest bits of a word, least significant first -/
def lowBits (x : BitVec 64) (n : Nat) : List Bool := (List.range n).map fun i => x.getLsbD i

/-- the `i`-th field of `w` bits of a word -/
def field (w : Nat) (x : BitVec 64) (i : Nat) : BitVec w := x.extractLsb' (w*i) w

/-- `i` is the index of the most significant set bit -/
def IsMsb (x : BitVec 64) (i : Nat) : Prop :=
  i < 64 ∧ x.getLsbD i = true ∧ ∀ j, i < j → x.getLsbD j = false

/-- `i` is the index of the least significant set bit -/
def IsLsb (x : BitVec 64) (i : Nat) : Prop :=
  i < 64 ∧ x.getLsbD i = true ∧ ∀ j, j < i → x.getLsbD j = false

end Succinct.Spec
