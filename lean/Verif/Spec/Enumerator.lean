import Verif.Spec.Bits

/-! # Specification of the bit stream and of the unary stream of a list of bits -/
namespace Succinct.Spec

/-- the integer with the given binary digits, least significant first -/
def bitsToNat (l : List Bool) : Nat := l.foldr (fun b n => b.toNat + 2*n) 0

inductive EnumOp where
  | next
  | take (n : Nat)
  | skipZeros
deriving DecidableEq, Repr

inductive EnumOut where
  | bit (b : Bool)
  | val (n : Nat)
deriving DecidableEq, Repr

/-- One read of the stream `l` at position `p`: operation, answer, new position. -/
inductive StreamStep (l : List Bool) : Nat → EnumOp → EnumOut → Nat → Prop
  | next {p b} : l[p]? = some b → StreamStep l p .next (.bit b) (p+1)
  | take {p n} : n ≤ 64 → p + n ≤ l.length →
      StreamStep l p (.take n) (.val (bitsToNat ((l.drop p).take n))) (p+n)
  | skipZeros {p q} : IsSucc true l p q → StreamStep l p .skipZeros (.val (q - p)) (q+1)

/-- A history of reads; every answer is recorded with the position after it. -/
inductive StreamRun (l : List Bool) : Nat → List EnumOp → List (EnumOut × Nat) → Prop
  | nil {p} : StreamRun l p [] []
  | cons {p op o p' ops outs} : StreamStep l p op o p' → StreamRun l p' ops outs →
      StreamRun l p (op :: ops) ((o, p') :: outs)

/-- No `skip_zeros` directly after a `take(64)` that returned something else than 0 (ignoring `take(0)`); `b` tells
whether the last call was such a `take(64)`. -/
def NoStale : Bool → List EnumOp → List (EnumOut × Nat) → Prop
  | b, .next :: ops, _ :: outs => NoStale false ops outs
  | b, .take n :: ops, o :: outs => NoStale (if n = 64 then decide (o.1 ≠ .val 0) else if n = 0 then b else false) ops outs
  | b, .skipZeros :: ops, _ :: outs => b = false ∧ NoStale false ops outs
  | _, _, _ => True

inductive UnaryOp where
  | next
  | skip (k : Nat)
  | skipNoMove (k : Nat)
  | skip0 (k : Nat)
deriving DecidableEq, Repr

/-- One call on a unary stream.  `c` is the first position not yet consumed.  The answer is the
returned value, if the call returns one. -/
inductive UnaryStep (l : List Bool) : Nat → UnaryOp → Option Nat → Nat → Prop
  | next {c q} : IsSucc true l c q → UnaryStep l c .next (some q) (q+1)
  | skip {c k q} : c ≤ q → IsSelect1 l (rank1 l c + k) q → UnaryStep l c (.skip k) none q
  | skipNoMove {c k q} : c ≤ q → IsSelect1 l (rank1 l c + k) q → UnaryStep l c (.skipNoMove k) (some q) c
  | skip0 {c k q} : c ≤ q → IsSelect0 l (rank0 l c + k) q → UnaryStep l c (.skip0 k) none q

inductive UnaryRun (l : List Bool) : Nat → List UnaryOp → List (Option Nat) → Prop
  | nil {c} : UnaryRun l c [] []
  | cons {c op o c' ops outs} : UnaryStep l c op o c' → UnaryRun l c' ops outs →
      UnaryRun l c (op :: ops) (o :: outs)

/-- A history of calls with `position()` after each; `pos` is the position before.  After `next` the position is that of the one
returned, after `skip` and `skip0` that of the one or zero skipped to; `skip_no_move` leaves it. -/
inductive UnaryRunPos (l : List Bool) : Nat → Nat → List UnaryOp → List (Option Nat × Nat) → Prop
  | nil {c pos} : UnaryRunPos l c pos [] []
  | cons {c pos op o c' ops outs} (pos') : UnaryStep l c op o c' →
      (pos' = match op with | .next => c' - 1 | .skipNoMove _ => pos | .skip _ => c' | .skip0 _ => c') →
      UnaryRunPos l c' pos' ops outs → UnaryRunPos l c pos (op :: ops) ((o, pos') :: outs)

/-- No `skip0` directly after a `next` (ignoring `skip_no_move`). -/
def NoSkip0AfterNext : Bool → List UnaryOp → Prop
  | _, [] => True
  | _, .next :: ops => NoSkip0AfterNext true ops
  | _, .skip _ :: ops => NoSkip0AfterNext false ops
  | b, .skipNoMove _ :: ops => NoSkip0AfterNext b ops
  | b, .skip0 _ :: ops => b = false ∧ NoSkip0AfterNext false ops

end Succinct.Spec
