import Verif.Spec.Bits

/-!
# Specification of builder histories

A history is a program over plain bit lists.  `spec` gives the resulting list, or `none` when a
documented precondition of some call is violated.
-/
namespace Succinct.Spec

/-- Histories of calls on builders.  `append p q` runs two independent histories and appends the
second builder to the first. -/
inductive Prog where
  | new (size : Nat) (init : Bool)
  | pushBack (p : Prog) (b : Bool)
  | set (p : Prog) (pos : Nat) (b : Bool)
  | setBits (p : Prog) (pos : Nat) (bits : BitVec 64) (len : Nat)
  | appendBits (p : Prog) (bits : BitVec 64) (len : Nat)
  | zeroExtend (p : Prog) (n : Nat)
  | oneExtend (p : Prog) (n : Nat)
  | append (p q : Prog)
  | reverse (p : Prog)
  | reserve (p : Prog) (reallocates : Bool)

/-- the argument of `set_bits`/`append_bits` fits in `len ≤ 64` bits -/
def Fits (bits : BitVec 64) (len : Nat) : Prop := len ≤ 64 ∧ bits.toNat < 2^len

instance (bits : BitVec 64) (len : Nat) : Decidable (Fits bits len) := by unfold Fits; infer_instance

/-- The list of bits a history should produce. `none`: a precondition is violated.  A reallocating
`reserve` is harmless in this specification, wherever it happens. -/
def Prog.spec : Prog → Option (List Bool)
  | new n b => some (List.replicate n b)
  | pushBack p b => do let l ← p.spec; some (l ++ [b])
  | set p pos b => do
    let l ← p.spec
    if pos < l.length then some (l.set pos b) else none
  | setBits p pos bits len => do
    let l ← p.spec
    if pos + len ≤ l.length ∧ Fits bits len then
      some (l.take pos ++ lowBits bits len ++ l.drop (pos + len)) else none
  | appendBits p bits len => do
    let l ← p.spec
    if Fits bits len then some (l ++ lowBits bits len) else none
  | zeroExtend p n => do let l ← p.spec; some (l ++ List.replicate n false)
  | oneExtend p n => do let l ← p.spec; some (l ++ List.replicate n true)
  | append p q => do let l ← p.spec; let m ← q.spec; some (l ++ m)
  | reverse p => do let l ← p.spec; some l.reverse
  | reserve p _ => p.spec

/-- Every reallocating `reserve` happens while the builder holds a whole number of words. -/
def Prog.ReserveAligned : Prog → Prop
  | new _ _ => True
  | pushBack p _ | set p _ _ | setBits p _ _ _ | appendBits p _ _ | zeroExtend p _
  | oneExtend p _ | reverse p => p.ReserveAligned
  | append p q => p.ReserveAligned ∧ q.ReserveAligned
  | reserve p r => p.ReserveAligned ∧ (r = true → ∀ l, p.spec = some l → l.length % 64 = 0)

end Succinct.Spec
