import Verif.Spec.GammaSwap

/-! # Listing an increasing sequence while sequences are exchanged

A value is stored in two parts: the quotient by `2^l` in one place, the lowest `l` binary digits in another. -/
namespace Succinct.Spec

/-- the low parts of a sequence, one after the other -/
def lowSeq (l : Nat) (xs : List (BitVec 64)) : List Bool := xs.flatMap (lowBits · l)

/-- how many values are read -/
def nexts (ops : List SeqOp) : Nat := (ops.filter (· = .next)).length

/-- Listing through object `i`, which held `v` with low parts of `l` digits when the listing began, from value `k` on, while the contents
`a` of the objects (width of the low parts, values) change.  A value can be read as long as the object holds a value `k` whose quotient
is that of value `k` of `v`.  The low part is read from `src`, of which `left` parts are held, and when none is left from what object `i`
holds by then, at the place where it was in `v`. -/
inductive FanoMix (l i : Nat) (v : List (BitVec 64)) :
    (Nat → Nat × List (BitVec 64)) → List Bool → Nat → Nat → List SeqOp → List (BitVec 64) → Prop
  | nil {a src left k} : FanoMix l i v a src left k [] []
  | swap {a src left k ops outs x y} : FanoMix l i v (swapped a x y) src left k ops outs →
      FanoMix l i v a src left k (.swap x y :: ops) outs
  | held {a src left k ops outs x y z} : v[k]? = some x → (a i).2[k]? = some y → y.toNat / 2^(a i).1 = x.toNat / 2^l → l = 0 ∨ 0 < left →
      z.toNat = x.toNat / 2^l * 2^l + bitsToNat ((src.drop (k * l)).take l) →
      FanoMix l i v a src (left - 1) (k+1) ops outs → FanoMix l i v a src left k (.next :: ops) (z :: outs)
  | fresh {a src left k ops outs x y z} : v[k]? = some x → (a i).2[k]? = some y → y.toNat / 2^(a i).1 = x.toNat / 2^l → l ≠ 0 ∧ left = 0 →
      k * l < (lowSeq (a i).1 (a i).2).length →
      z.toNat = x.toNat / 2^l * 2^l + bitsToNat (((lowSeq (a i).1 (a i).2).drop (k * l)).take l) →
      FanoMix l i v a (lowSeq (a i).1 (a i).2) (64 / l - 1) (k+1) ops outs →
      FanoMix l i v a src left k (.next :: ops) (z :: outs)

end Succinct.Spec
