import Verif.Spec.Enumerator
import Verif.Spec.Padded

/-! # What `unary_enumerator` does for every history

The bits read are those of whole words: the bits of the vector and zeros up to a multiple of 64.  The state is `position()` and whether the
one there has been returned by `next` (`t`).  `skip0` counts such a one as a zero. -/
namespace Succinct.Spec

/-- one call: operation, returned value, new state -/
inductive UnaryAct (l : List Bool) : Nat → Bool → UnaryOp → Option Nat → Nat → Bool → Prop
  | next {p t q} : IsSucc true l (p + t.toNat) q → UnaryAct l p t .next (some q) q true
  | skip {p t k q} : p + t.toNat ≤ q → IsSelect1 l (rank1 l (p + t.toNat) + k) q → UnaryAct l p t (.skip k) none q false
  | skipNoMove {p t k q} : p + t.toNat ≤ q → IsSelect1 l (rank1 l (p + t.toNat) + k) q → UnaryAct l p t (.skipNoMove k) (some q) p t
  | skip0 {p t k q} : p ≤ q → IsSelect0 (if t then l.set p false else l) (rank0 l p + k) q →
      UnaryAct l p t (.skip0 k) none q (t && q == p)

/-- a history of calls; returned values with `position()` after each -/
inductive UnaryActRun (l : List Bool) : Nat → Bool → List UnaryOp → List (Option Nat × Nat) → Prop
  | nil {p t} : UnaryActRun l p t [] []
  | cons {p t op o p' t' ops outs} : UnaryAct l p t op o p' t' → UnaryActRun l p' t' ops outs →
      UnaryActRun l p t (op :: ops) ((o, p') :: outs)

end Succinct.Spec
