import Verif.Spec.EnumSwap

/-! # Listing a sequence of gamma codes while sequences are exchanged

A value `x` is stored as the binary digits of `x + c`: their number less one in unary in one place, the digits behind the leading
one in another. -/
namespace Succinct.Spec

/-- the next value is read, or the contents of two objects are exchanged -/
inductive SeqOp where
  | next
  | swap (x y : Nat)
deriving DecidableEq, Repr

/-- contents after an exchange -/
def swapped {α : Type} (a : Nat → α) (x y : Nat) : Nat → α := fun k => if k = x then a y else if k = y then a x else a k

/-- digits behind the leading one -/
def digits (c : Nat) (x : BitVec 64) : Nat := Nat.log2 (x.toNat + c)

/-- the digits of a sequence, each value without its leading one, lowest first -/
def digitSeq (c : Nat) (xs : List (BitVec 64)) : List Bool := xs.flatMap fun x => lowBits (x + BitVec.ofNat 64 c) (digits c x)

/-- where the digits of value `k` begin -/
def digitPos (c : Nat) (xs : List (BitVec 64)) (k : Nat) : Nat := ((xs.take k).map (digits c)).sum

/-- Listing through object `i`, which held `v` when the listing began, from value `k` on, while the contents `a` of the objects change.
The number of digits is always that of value `k` of `v`, and so is the place where they are looked for.  But they are digits of `src`, of
which `left` are held, if these are enough, and otherwise digits of what object `i` holds by then. -/
inductive GammaMix (c i : Nat) (v : List (BitVec 64)) :
    (Nat → List (BitVec 64)) → List Bool → Nat → Nat → List SeqOp → List (BitVec 64) → Prop
  | nil {a src left k} : GammaMix c i v a src left k [] []
  | swap {a src left k ops outs x y} : GammaMix c i v (swapped a x y) src left k ops outs →
      GammaMix c i v a src left k (.swap x y :: ops) outs
  | held {a src left k ops outs y z} : v[k]? = some y → k ≤ (a i).length → digits c y ≤ left →
      z.toNat + c = 2^digits c y + bitsToNat ((src.drop (digitPos c v k)).take (digits c y)) →
      GammaMix c i v a src (left - digits c y) (k+1) ops outs → GammaMix c i v a src left k (.next :: ops) (z :: outs)
  | fresh {a src left k ops outs y z} : v[k]? = some y → k ≤ (a i).length → left < digits c y →
      digitPos c v k < (digitSeq c (a i)).length →
      z.toNat + c = 2^digits c y + bitsToNat (((zeroTail (digitSeq c (a i))).drop (digitPos c v k)).take (digits c y)) →
      GammaMix c i v a (zeroTail (digitSeq c (a i))) (64 - digits c y) (k+1) ops outs →
      GammaMix c i v a src left k (.next :: ops) (z :: outs)

end Succinct.Spec
