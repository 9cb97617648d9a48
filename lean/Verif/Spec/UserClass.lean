import Verif.Model.UserClass

/-! # What freezing and mapping should do for a user-defined class -/
namespace Succinct.Spec
open Succinct.Mapper

/-- the branches look only at members in `S` or passed to the visitor before -/
def Causal : List Nat → Visit → Prop
  | _, .stop => True
  | S, .pod m _ rest => Causal (m :: S) rest
  | S, .vec m _ rest => Causal (m :: S) rest
  | S, .test p yes no => (∀ u v : Nat → Option Content, (∀ m ∈ S, u m = v m) → p u = p v) ∧ Causal S yes ∧ Causal S no

/-- the members passed to the visitor for an object of which `u` is seen -/
def passed (u : Nat → Option Content) : Visit → List Nat
  | .stop => []
  | .pod m _ rest => m :: passed u rest
  | .vec m _ rest => m :: passed u rest
  | .test p yes no => if p u then passed u yes else passed u no

/-- every member passed to the visitor is of the type named, and a vector takes fewer than `2^64` bytes -/
def WellTyped (u : Nat → Option Content) : Visit → Prop
  | .stop => True
  | .pod m k rest => (∃ bs, u m = some (.pod bs) ∧ bs.length = k) ∧ WellTyped u rest
  | .vec m es rest => (∃ xs, u m = some (.vec xs) ∧ (∀ x ∈ xs, x.length = es) ∧ xs.length < 2^64 ∧ xs.length * es < 2^64) ∧ WellTyped u rest
  | .test p yes no => if p u then WellTyped u yes else WellTyped u no

/-- the bytes an object takes: those of a POD; eight for the length of a vector, and its elements -/
def bytesOf (u : Nat → Option Content) : Visit → Nat
  | .stop => 0
  | .pod _ k rest => k + bytesOf u rest
  | .vec m es rest => (match u m with | some (.vec xs) => 8 + xs.length * es | _ => 0) + bytesOf u rest
  | .test p yes no => if p u then bytesOf u yes else bytesOf u no

end Succinct.Spec
