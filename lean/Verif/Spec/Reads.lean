import Verif.Spec.Enumerator

/-! # Words read -/
namespace Succinct.Spec

/-- the words behind that of position `p`, up to that of position `q` -/
def wordsTo (p q : Nat) : List Nat := List.range' (p / 64 + 1) (q / 64 - p / 64)

/-- for a history of calls with answers and positions, begun at position `p`: each call reads the words behind the current one, up to that of the bit
it looks for (for `skip_no_move` the answer, for the others the new position) -/
def unaryReads : Nat → List UnaryOp → List (Option Nat × Nat) → List (List Nat)
  | p, .skipNoMove _ :: ops, (o, p') :: outs => wordsTo p (o.getD 0) :: unaryReads p' ops outs
  | p, _ :: ops, (_, p') :: outs => wordsTo p p' :: unaryReads p' ops outs
  | _, _, _ => []

end Succinct.Spec
