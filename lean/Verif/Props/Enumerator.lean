import Verif.Lemmas.Enumerator

/-! # C07, C08: the enumerators of `bit_vector` -/
namespace Succinct
open Spec

/-- **C07** (all histories but one pattern).  An enumerator created at `p` and driven by any history
of reads that stays inside the vector answers exactly like the stream of bits, and `position()`
agrees after every call.  Missing from the full claim: histories with a `skip_zeros` directly after
a `take(64)` that returned something else than 0; `C07_stale_partial` tells what the code answers there, and
`C07_enumerator_false` shows the claim is false for those. -/
theorem C07_enumerator_partial (l : List Bool) (p : Nat) (ops : List EnumOp) (outs : List (EnumOut × Nat))
    (h : StreamRun l p ops outs) (hs : NoStale false ops outs) :
    Enum.run (BitVector.ofRange l) (Enum.new p) ops = some outs :=
  Enum.run_good (BitVector.ofRange_rep l) ops (Enum.new p) p false outs h hs (Or.inl (Enum.new_good p))
    (fun _ => Enum.new_good p)

/-- 64 ones, a zero and a one -/
def staleBits : List Bool := List.replicate 64 true ++ [false, true]

theorem staleBits_run : StreamRun staleBits 0 [.take 64, .skipZeros] [(.val (2^64-1), 64), (.val 1, 66)] := by
  have e : bitsToNat ((staleBits.drop 0).take 64) = 2^64-1 := by decide +kernel
  have h := StreamRun.cons (StreamStep.take (l := staleBits) (p := 0) (n := 64) (by decide) (by decide))
    (StreamRun.cons (StreamStep.skipZeros (p := 64) (q := 65)
      ⟨by decide, by decide +kernel, by
        intro r h1 h2
        have : r = 64 := by omega
        subst this
        decide +kernel⟩)
      (StreamRun.nil))
  rw [e] at h
  exact h

/-- **C07 is false as stated**: `take(64)` leaves the consumed word in the buffer
(`bit_vector.hpp:383-388`) and a following `skip_zeros` reads it again. -/
theorem C07_enumerator_false :
    ∃ l p ops outs, StreamRun l p ops outs ∧ Enum.run (BitVector.ofRange l) (Enum.new p) ops ≠ some outs :=
  ⟨staleBits, 0, [.take 64, .skipZeros], [(.val (2^64-1), 64), (.val 1, 66)], staleBits_run, by decide +kernel⟩

/-- **C07**, the remaining pattern: after any such history, a `take(64)` that returns the 64 bits before `q`, the first one of which is at
`r < q`, followed by `skip_zeros`.  The code answers the number of zeros before `r`, which were consumed already; so
the answer is right exactly if the one at `r` is repeated 64 positions later and only zeros are in between.  Missing:
what happens after that. -/
theorem C07_stale_partial (l : List Bool) (p : Nat) (ops : List EnumOp) (outs : List (EnumOut × Nat)) (h : StreamRun l p ops outs)
    (hs : NoStale false ops outs) (q r : Nat) (hq : q = (outs.map Prod.snd).getLastD p + 64) (hql : q ≤ l.length)
    (hr : IsSucc true l (q - 64) r) (hrq : r < q) :
    Enum.run (BitVector.ofRange l) (Enum.new p) (ops ++ [.take 64, .skipZeros]) =
      some (outs ++ [(.val (bitsToNat ((l.drop (q-64)).take 64)), q), (.val (r - (q-64)), r + 64 + 1)]) ∧
    ∀ s, IsSucc true l q s → (StreamRun l q [.skipZeros] [(.val (r - (q-64)), r + 64 + 1)] ↔ s = r + 64) := by
  refine ⟨Enum.run_prefix (BitVector.ofRange_rep l) _ _ ops (Enum.new p) p false outs h hs (Or.inl (Enum.new_good p))
    (fun _ => Enum.new_good p) (fun e' hw => ?_), fun s hs => ⟨fun hrun => ?_, fun hsr => ?_⟩⟩
  · have := Enum.stale_run (BitVector.ofRange_rep l) e' (q-64) r (by rwa [show q - 64 = (outs.map Prod.snd).getLastD p by omega]) (by omega) hr (by omega)
    have h1 := hr.1
    rwa [show q - 64 + 64 = q by omega, show q + (r - (q-64)) + 1 = r + 64 + 1 by omega] at this
  · generalize ho : (EnumOut.val (r - (q-64)), r + 64 + 1) = o at hrun
    cases hrun with
    | cons hstep hrest =>
      rename_i o' p'
      cases hstep with
      | skipZeros ht =>
        rename_i t
        simp only [Prod.mk.injEq, EnumOut.val.injEq] at ho
        have hst : s = t := by
          rcases Nat.lt_trichotomy s t with hlt | heq | hgt
          · exact absurd hs.2.1 (ht.2.2 s hs.1 hlt)
          · exact heq
          · exact absurd ht.2.1 (hs.2.2 t ht.1 hgt)
        omega
  · have h1 := hr.1
    have := StreamRun.cons (StreamStep.skipZeros hs) StreamRun.nil
    rwa [hsr, show r + 64 - q = r - (q - 64) by omega] at this

/-- what the code answers in that situation: 0 instead of 1, at position 65 instead of 66 -/
example : Enum.run (BitVector.ofRange staleBits) (Enum.new 0) [.take 64, .skipZeros] =
    some [(.val (2^64-1), 64), (.val 0, 65)] := by decide +kernel

/-- `take(64)` of a zero word may be followed by `skip_zeros` -/
example : ∃ outs, StreamRun (List.replicate 64 false ++ [false, true]) 0 [.take 64, .skipZeros] outs ∧ NoStale false [.take 64, .skipZeros] outs := by
  have e : bitsToNat (((List.replicate 64 false ++ [false, true]).drop 0).take 64) = 0 := by decide +kernel
  refine ⟨[(.val 0, 64), (.val 1, 66)], ?_, by simp [NoStale]⟩
  have h := StreamRun.cons (StreamStep.take (l := List.replicate 64 false ++ [false, true]) (p := 0) (n := 64) (by decide) (by decide))
    (StreamRun.cons (StreamStep.skipZeros (p := 64) (q := 65)
      ⟨by decide, by decide +kernel, by
        intro r h1 h2
        have : r = 64 := by omega
        subst this
        decide +kernel⟩)
      (StreamRun.nil))
  rw [e] at h
  exact h
/-- `C07_stale_partial`: the hypotheses hold for `staleBits` with `ops = []`, `q = 64`, `r = 0` -/
example : StreamRun staleBits 0 [] [] ∧ NoStale false [] [] ∧ IsSucc true staleBits (64 - 64) 0 :=
  ⟨.nil, trivial, by decide, by decide +kernel, fun r _ h => by omega⟩
example : ∃ outs, StreamRun staleBits 0 [.next, .take 13, .skipZeros] outs :=
  ⟨_, .cons (.next (b := true) (by decide +kernel)) (.cons (.take (by decide) (by decide)) (.cons (.skipZeros (q := 14)
    ⟨by decide, by decide +kernel, fun r h1 h2 => by omega⟩) .nil))⟩

/-- **C08** (all histories but one pattern).  A unary enumerator created inside the vector and
driven by any history for which the requested ones and zeros exist answers as specified.  Missing
from the full claim: histories with a `skip0` directly after a `next`; `C08_unary_false` shows the
claim is false for those. -/
theorem C08_unary_partial (l : List Bool) (p : Nat) (hp : p < l.length) (ops : List UnaryOp)
    (outs : List (Option Nat)) (h : UnaryRun l p ops outs) (hs : NoSkip0AfterNext false ops) :
    (UEnum.new (BitVector.ofRange l).bits p).bind (fun e => UEnum.run (BitVector.ofRange l).bits e ops) = some outs := by
  have hr := (BitVector.ofRange_rep l).repr
  obtain ⟨e, k1, k2, k3⟩ := UEnum.new_good hr p hp
  rw [k1, Option.bind_some]
  exact UEnum.run_good hr ops e p false outs h hs k2 (fun _ => k3)

/-- **C08**, with `position()` after every call: the answers and positions are as specified exactly for the histories without a `skip0`
directly after a `next` (`skip_no_move` ignored).  Missing: what the code does after such a `skip0`. -/
theorem C08_unary_exact_partial (l : List Bool) (p : Nat) (hp : p < l.length) (ops : List UnaryOp)
    (outs : List (Option Nat × Nat)) (h : UnaryRunPos l p p ops outs) :
    (UEnum.new (BitVector.ofRange l).bits p).bind (fun e => UEnum.runPos (BitVector.ofRange l).bits e ops) = some outs ↔
      NoSkip0AfterNext false ops := by
  have hr := (BitVector.ofRange_rep l).repr
  obtain ⟨e, k1, k2, k3⟩ := UEnum.new_good hr p hp
  rw [k1, Option.bind_some]
  exact UEnum.runPos_iff hr ops e p p false outs h k2 k3 (fun _ => rfl) (by simp)

def skip0Bits : List Bool := [true, true, false, true]

theorem skip0Bits_run : UnaryRun skip0Bits 0 [.next, .skip0 0, .next] [some 0, none, some 3] :=
  .cons (.next ⟨by decide, by decide, fun r h1 h2 => by omega⟩)
    (.cons (.skip0 (q := 2) (by decide) ⟨by decide, by decide⟩)
      (.cons (.next ⟨by decide, by decide, fun r h1 h2 => by
        have : r = 2 := by omega
        subst this
        decide⟩) .nil))

/-- **C08 is false as stated**: after `next()` the enumerator still stands on the one it returned,
whose bit is cleared in the buffer, and `skip0` (`bit_vector.hpp:501-517`) counts it as a zero. -/
theorem C08_unary_false :
    ∃ l p ops outs, p < l.length ∧ UnaryRun l p ops outs ∧
      (UEnum.new (BitVector.ofRange l).bits p).bind (fun e => UEnum.run (BitVector.ofRange l).bits e ops) ≠ some outs :=
  ⟨skip0Bits, 0, [.next, .skip0 0, .next], [some 0, none, some 3], by decide, skip0Bits_run, by decide +kernel⟩

/-- what the code answers: the next one is 1 instead of 3 -/
example : (UEnum.new (BitVector.ofRange skip0Bits).bits 0).bind
    (fun e => UEnum.run (BitVector.ofRange skip0Bits).bits e [.next, .skip0 0, .next]) =
    some [some 0, none, some 1] := by decide +kernel

/-- The constructor reads a word at `pos / 64` without checking: at the end of a vector with a whole
number of words it is out of bounds. -/
theorem C08_unary_end_oob (l : List Bool) (h : l.length % 64 = 0) :
    UEnum.new (BitVector.ofRange l).bits l.length = none := by
  have hr := (BitVector.ofRange_rep l).len
  unfold UEnum.new rd
  rw [List.getElem?_eq_none (by omega)]; rfl

/-- `C08_unary_exact_partial`: a history of either kind -/
example : UnaryRunPos skip0Bits 0 0 [.next, .skip0 0] [(some 0, 0), (none, 2)] ∧ UnaryRunPos skip0Bits 0 0 [.skip 1, .skip0 0] [(none, 1), (none, 2)] :=
  ⟨.cons 0 (.next ⟨by decide, by decide, fun r h1 h2 => by omega⟩) rfl (.cons 2 (.skip0 (by decide) ⟨by decide, by decide⟩) rfl .nil),
   .cons 1 (.skip (by decide) ⟨by decide, by decide⟩) rfl (.cons 2 (.skip0 (by decide) ⟨by decide, by decide⟩) rfl .nil)⟩

example : NoSkip0AfterNext false [.skip0 1, .next, .skip 2, .skip0 0, .skipNoMove 1, .next] := by
  simp [NoSkip0AfterNext]
example : ∃ outs, UnaryRun skip0Bits 0 [.skip0 0, .next] outs :=
  ⟨_, .cons (.skip0 (q := 2) (by decide) ⟨by decide, by decide⟩)
      (.cons (.next (q := 3) ⟨by decide, by decide, fun r h1 h2 => by
        have : r = 2 := by omega
        subst this
        decide⟩) .nil)⟩

end Succinct
