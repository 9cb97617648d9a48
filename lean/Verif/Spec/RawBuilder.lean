import Verif.Spec.Builder

/-!
# Builder histories without preconditions

What a history of builder calls leaves in the buffer when no call checks its arguments.  The buffer is a list of whole words, of which
the first `size` bits are the vector and the others padding.  Appending means or-ing onto what the padding holds.
-/
namespace Succinct.Spec

/-- a buffer and the number of its bits in use -/
structure Raw where
  size : Nat
  bits : List Bool
deriving DecidableEq

/-- the number of bits of as many words as `n` bits need -/
def roundUp (n : Nat) : Nat := 64 * ((n + 63) / 64)

/-- enlarge the buffer by zeros, to hold `n` bits -/
def growTo (n : Nat) (r : List Bool) : List Bool := r ++ List.replicate (roundUp n - r.length) false

/-- or the bits of `x` onto the buffer from position `pos` on; what does not fit is lost -/
def orAt (pos : Nat) (x r : List Bool) : List Bool :=
  (List.range r.length).map fun i => r.getD i false || (decide (pos ≤ i) && x.getD (i - pos) false)

/-- overwrite `len` bits from `pos` on with those of `x`; the other bits of `x` are or-ed onto the rest of the last word written to -/
def overwrite (pos : Nat) (x : List Bool) (len : Nat) (r : List Bool) : List Bool :=
  (List.range r.length).map fun i =>
    if pos ≤ i ∧ i < pos + len then x.getD (i - pos) false
    else r.getD i false || (decide (pos ≤ i ∧ i < roundUp (pos + len)) && x.getD (i - pos) false)

/-- The buffer a history produces; `none`: a call writes outside of the buffer. -/
def Prog.raw : Prog → Option Raw
  | new n b => some ⟨n, growTo n (List.replicate n b)⟩
  | pushBack p b => do let r ← p.raw; some ⟨r.size + 1, orAt r.size [b] (growTo (r.size + 1) r.bits)⟩
  | set p pos b => do
    let r ← p.raw
    if pos < r.bits.length then some ⟨r.size, r.bits.set pos b⟩ else none
  | setBits p pos bits len => do
    let r ← p.raw
    if len = 0 then some r
    else if roundUp (pos + len) ≤ r.bits.length then some ⟨r.size, overwrite pos (wordBits bits) len r.bits⟩ else none
  | appendBits p bits len => do
    let r ← p.raw
    if len = 0 then some r else some ⟨r.size + len, orAt r.size (wordBits bits) (growTo (r.size + len) r.bits)⟩
  | zeroExtend p n => do let r ← p.raw; some ⟨r.size + n, growTo (r.size + n) r.bits⟩
  | oneExtend p n => do let r ← p.raw; some ⟨r.size + n, orAt r.size (List.replicate n true) (growTo (r.size + n) r.bits)⟩
  | append p q => do
    let r ← p.raw
    let s ← q.raw
    some ⟨r.size + s.size, orAt r.size s.bits (growTo (r.size + s.size) r.bits)⟩
  | reverse p => do let r ← p.raw; some ⟨r.size, growTo r.size (r.bits.take r.size).reverse⟩
  | reserve p _ => p.raw

/-- No field is longer than a word, and every reallocating `reserve` happens while the builder holds a whole number of words. -/
def Prog.Tame : Prog → Prop
  | new _ _ => True
  | pushBack p _ | set p _ _ | zeroExtend p _ | oneExtend p _ | reverse p => p.Tame
  | setBits p _ _ len | appendBits p _ len => p.Tame ∧ len ≤ 64
  | append p q => p.Tame ∧ q.Tame
  | reserve p r => p.Tame ∧ (r = true → ∀ s, p.raw = some s → s.size % 64 = 0)

end Succinct.Spec
