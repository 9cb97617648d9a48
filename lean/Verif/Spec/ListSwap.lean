import Verif.Spec.TopKSwap

/-! # Reading a sequence position by position while sequences are exchanged -/
namespace Succinct.Spec

/-- Each read through object `i` takes the value at the next position (`k` to begin with) of what the object holds by then; there is no
answer if the content has no such position. -/
def readThrough {α : Type} (i : Nat) : (Nat → List α) → Nat → List SeqOp → Option (List α)
  | _, _, [] => some []
  | a, k, .swap x y :: ops => readThrough i (swapped a x y) k ops
  | a, k, .next :: ops =>
    match (a i)[k]?, readThrough i a (k+1) ops with
    | some v, some outs => some (v :: outs)
    | _, _ => none

end Succinct.Spec
