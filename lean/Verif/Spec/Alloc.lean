import Verif.Spec.Builder

/-! # Builder histories in which memory runs out

Specification over plain bit lists.  A call comes with the number `k` of growths that still succeed in it. -/
namespace Succinct.Spec

/-- a call on a builder; the argument of `append` comes from a history of its own -/
inductive BCall where
  | reserve (reallocates : Bool)
  | pushBack (x : Bool)
  | set (pos : Nat) (x : Bool)
  | setBits (pos : Nat) (bits : BitVec 64) (len : Nat)
  | appendBits (bits : BitVec 64) (len : Nat)
  | zeroExtend (n : Nat)
  | oneExtend (n : Nat)
  | append (q : Prog)
  | reverse

/-- a builder holds `l`; or it holds the whole words `l`, but its `size()` tells of `n` further bits there is no memory for -/
inductive BState where
  | whole (l : List Bool)
  | short (l : List Bool) (n : Nat)

/-- words needed for `n` bits -/
def wordCount (n : Nat) : Nat := (n + 63)/64

/-- `x` is to be appended to `l`, which takes at most one growth.  If that fails, the whole words `kept` are there and `size()` is already that of `l ++ x`. -/
def grow (k : Nat) (l x kept : List Bool) : BState × Bool :=
  if wordCount (l.length + x.length) ≠ wordCount l.length ∧ k = 0 then (.short kept (l.length + x.length - kept.length), true)
  else (.whole (l ++ x), false)

/-- `l` filled up with zeros to whole words -/
def fillUp (l : List Bool) : List Bool := l ++ List.replicate (64 * wordCount l.length - l.length) false

/-- the state after a call and whether it threw; `none` if the call is not allowed in this state -/
def BCall.spec (k : Nat) : BState → BCall → Option (BState × Bool)
  | .whole l, .reserve r => if k = 0 then some (.whole l, true) else if r = true ∧ l.length % 64 ≠ 0 then none else some (.whole l, false)
  | .whole l, .pushBack x => if l.length % 64 = 0 ∧ k = 0 then some (.whole l, true) else some (.whole (l ++ [x]), false)
  | .whole l, .set pos x => if pos < l.length then some (.whole (l.set pos x), false) else none
  | .whole l, .setBits pos bits len =>
    if pos + len ≤ l.length ∧ Fits bits len then some (.whole (l.take pos ++ lowBits bits len ++ l.drop (pos + len)), false) else none
  | .whole l, .appendBits bits len =>
    if Fits bits len then some (grow k l (lowBits bits len) ((l ++ lowBits bits len).take (64 * wordCount l.length))) else none
  | .whole l, .zeroExtend n => some (grow k l (List.replicate n false) (fillUp l))
  | .whole l, .oneExtend n =>
    if k < wordCount (l.length + n) - wordCount l.length then
      let kept := (l ++ List.replicate n true).take (64 * (wordCount l.length + k))
      some (.short kept (l.length + min n (64 * (k + 1)) - kept.length), true)
    else some (.whole (l ++ List.replicate n true), false)
  | .whole l, .append q => do
    let m ← q.spec
    some (grow k l m (fillUp l))
  | .whole l, .reverse => some (.whole l.reverse, false)
  | .short l n, .reserve _ => some (.short l n, decide (k = 0))
  | .short l n, .set pos x => if pos < l.length then some (.short (l.set pos x) n, false) else none
  | .short l n, .zeroExtend m => if k = 0 then some (.short l (n + m), true) else some (.whole (l ++ List.replicate (n + m) false), false)
  | .short _ _, _ => none

/-- histories used as arguments of `append` keep to the alignment of `reserve` -/
def BCall.ok : BCall → Prop
  | .append q => q.ReserveAligned
  | _ => True

/-- a history: the final state and which calls threw -/
def runSpec : BState → List (BCall × Nat) → Option (BState × List Bool)
  | s, [] => some (s, [])
  | s, (c, k) :: cs => do
    let (s, t) ← c.spec k s
    let (s, ts) ← runSpec s cs
    pure (s, t :: ts)

end Succinct.Spec
