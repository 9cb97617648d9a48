import Verif.Lemmas.EnumSwap

/-! # C124: enumerators of vectors that are swapped -/
namespace Succinct
open Broadword Spec EnumSwap

/-- **C124**: vectors with any contents, an `enumerator` on vector `i` at `p`, then any interleaving of swaps of two vectors, emptying of
vectors and reads through the enumerator.  Every answer and position is as if the enumerator held up to 64 bits of the vector it last
fetched from: what these suffice for comes from them, everything else from what vector `i` holds at that time. -/
theorem C124_enumerator (ls : List (List Bool)) (i p : Nat) (hi : i < ls.length) (ops : List (SwapOp EnumOp)) (outs : List (EnumOut × Nat))
    (h : SwapStream i ls [] 0 p ops outs) (hs : NoStale false (reads ops) outs) :
    EnumSwap.run i (Mem.ofRanges ls) (Enum.new p) ops = some outs :=
  run_swap i h _ _ false hi (Holds.ofRanges ls) hs (Or.inl (Enum.new_good p)) (fun _ => Enum.new_good p) rfl

/-- **C124**: no answer of `next` or `take` mixes two vectors.  A call that the bits held suffice for does not look at the vector at all; any other is
the same as that of a new enumerator at the same position. -/
theorem C124_one_vector (v v' : BitVector) (e : Enum) (op : EnumOp) (n : Nat) (hn : op.need = some n) :
    (n ≤ e.avail → Enum.step v e op = Enum.step v' e op) ∧
    (e.avail < n → Enum.step v e op = Enum.step v (Enum.new e.pos) op) := by
  have hfill : Enum.fillBuf v (Enum.new e.pos) = Enum.fillBuf v e := rfl
  cases op with
  | next =>
    cases hn
    unfold Enum.step
    simp only [next_bind]
    constructor
    · intro h; rw [if_neg (by omega), if_neg (by omega)]
    · intro h; rw [if_pos (by omega), if_pos (show (Enum.new e.pos).avail = 0 from rfl), hfill]
  | take k =>
    cases hn
    unfold Enum.step
    simp only [take_bind]
    constructor
    · intro h; rw [if_neg (by omega), if_neg (by omega)]
    · intro h; rw [if_pos h, if_pos (show (Enum.new e.pos).avail < n from (by omega : 0 < n)), hfill]
  | skipZeros => cases hn

/-- **C124**: a `unary_enumerator` made on vector `i` goes on reading what the vector held at that time, whatever vectors are swapped. -/
theorem C124_unary (ls : List (List Bool)) (i p : Nat) (l : List Bool) (hl : ls[i]? = some l) (hp : p < l.length)
    (ops : List (SwapOp UnaryOp)) (outs : List (Option Nat))
    (hops : ∀ op ∈ ops, match op with | .swap x y => x < ls.length ∧ y < ls.length | .drop _ => False | .read _ => True)
    (h : UnaryRun l p (reads ops) outs) (hs : NoSkip0AfterNext false (reads ops)) :
    EnumSwap.unary (Mem.ofRanges ls) i p ops = some outs := by
  have hm := Holds.ofRanges ls
  obtain ⟨o, e1, _, e3⟩ := hm.rep i l hl
  obtain ⟨e, k1, k2, k3⟩ := UEnum.new_good e3 p hp
  unfold EnumSwap.unary rd
  simp only [Option.bind_eq_bind]
  rw [e1, Option.bind_some, k1, Option.bind_some, runUnary_swap o.data _ ops _ e rfl (by rw [hm.len]; exact hops)]
  exact UEnum.run_good e3 _ e p false outs h hs k2 (fun _ => k3)

/-- 70 ones, 70 zeros -/
def swapBits : List (List Bool) := [List.replicate 70 true, List.replicate 70 false]

/-- what is read through the enumerator is the content of neither vector: 64 ones, then a zero -/
theorem C124_mixed :
    EnumSwap.run 0 (Mem.ofRanges swapBits) (Enum.new 0) [.read .next, .swap 0 1, .read (.take 63), .read .next] =
      some [(.bit true, 1), (.val (2^63 - 1), 64), (.bit false, 65)] := by decide +kernel

/-- the history of `C124_mixed` is one of those of `C124_enumerator` -/
example : SwapStream 0 swapBits [] 0 0 [.read .next, .swap 0 1, .read (.take 63), .read .next]
    [(.bit true, 1), (.val (2^63 - 1), 64), (.bit false, 65)] := by
  have e : bitsToNat (((zeroTail (List.replicate 70 true)).drop 1).take 63) = 2^63 - 1 := by decide +kernel
  refine .fresh (n := 1) (l := List.replicate 70 true) rfl (by decide) rfl (by decide) (.next (by decide +kernel)) ?_
  refine .swap (by decide) (by decide) ?_
  refine .held (n := 63) rfl (by decide) (by rw [← e]; exact .take (by decide) (by decide +kernel)) ?_
  exact .fresh (n := 1) (l := List.replicate 70 false) rfl (by decide) (by decide +kernel) (by decide) (.next (by decide +kernel)) .nil

/-- the zeros that `skip_zeros` counts may be those of two vectors: here 62 of the first, then 3 of the second, up to its one at 67 -/
def zeroBits : List (List Bool) := [[false, true] ++ List.replicate 65 false, List.replicate 67 false ++ [true]]

example : EnumSwap.run 0 (Mem.ofRanges zeroBits) (Enum.new 0) [.read .skipZeros, .swap 1 0, .read .skipZeros] =
    some [(.val 1, 2), (.val 65, 68)] := by decide +kernel

example : SwapStream 0 zeroBits [] 0 0 [.read .skipZeros, .swap 1 0, .read .skipZeros] [(.val 1, 2), (.val 65, 68)] := by
  refine .zerosFresh (l := [false, true] ++ List.replicate 65 false) (q := 1) (fun k _ h => absurd h (by omega)) rfl
    ⟨by decide, by decide, fun r _ h => by have : r = 0 := by omega
                                           subst this; decide⟩ ?_
  refine .swap (by decide) (by decide) ?_
  refine .zerosFresh (l := List.replicate 67 false ++ [true]) (q := 67) ?_ (by decide +kernel)
    ⟨by decide, by decide, fun r _ h => ?_⟩ .nil
  · intro k h1 h2
    have : ∀ k, 2 ≤ k → k < 64 → (zeroTail ([false, true] ++ List.replicate 65 false))[k]? ≠ some true := by decide +kernel
    exact this k h1 (by omega)
  · have : ∀ r < 67, (List.replicate 67 false ++ [true])[r]? ≠ some true := by decide +kernel
    exact this r h

/-- a unary enumerator of the ones does not notice that the vector now holds zeros -/
example : EnumSwap.unary (Mem.ofRanges swapBits) 0 62 [.read .next, .swap 0 1, .read (.skip 5), .read .next] =
    some [some 62, none, some 68] := by decide +kernel

/-- **C124**: but it must not outlive the words.  After `bit_vector().swap(v)` on the vector it was made on it reads freed memory as soon
as it leaves its word, wherever the words were moved before. -/
theorem C124_unary_freed :
    EnumSwap.unary (Mem.ofRanges swapBits) 0 62 [.read .next, .swap 0 1, .drop 0, .read (.skip 5), .read .next] = some [some 62, none, some 68] ∧
    EnumSwap.unary (Mem.ofRanges swapBits) 0 62 [.read .next, .swap 0 1, .drop 1, .read .next] = some [some 62, some 63] ∧
    EnumSwap.unary (Mem.ofRanges swapBits) 0 62 [.read .next, .swap 0 1, .drop 1, .read .next, .read .next] = none := by decide +kernel

end Succinct
