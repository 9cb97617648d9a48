import Verif.Lemmas.Alloc
import Verif.Props.BitVector

/-! # C83: `bit_vector_builder` when memory runs out -/
namespace Succinct
open Spec

theorem held_ofBuilder_none {b : Builder} {l : List Bool} {n : Nat} (h : Held b (.short l n)) : BitVector.ofBuilder b = none := by
  obtain ⟨h1, h2, h3, h4⟩ := h
  have := h3.len
  unfold BitVector.ofBuilder assertP
  rw [if_neg (by rw [h1, this, wordsFor_eq, wordsFor_eq]; omega)]
  rfl

/-- **C83.**  A history of calls in which any call may run out of memory, the exception being caught and the builder used again: exactly those calls throw that
the specification says, and in the end the builder makes the bit vector of the specified bits, or, if a failed call has left `size()` ahead of the words,
no bit vector (an assertion of the constructor fails). -/
theorem C83_history (cs : List (BCall × Nat)) (hc : ∀ c ∈ cs, c.1.ok) (st : BState) (ts : List Bool) (h : runSpec (.whole []) cs = some (st, ts)) :
    ∃ b0 b, Builder.new 0 false = some b0 ∧ Builder.runA b0 cs = some (b, ts) ∧
      match st with
      | .whole l => BitVector.ofBuilder b = some (BitVector.ofRange l)
      | .short l n => b.size = l.length + n ∧ 0 < n ∧ BitVector.ofBuilder b = none := by
  obtain ⟨b0, e0, i0⟩ := Builder.new_inv 0 false
  obtain ⟨b, e, hb⟩ := Builder.runA_inv cs hc b0 (.whole []) i0 _ h
  refine ⟨b0, b, e0, e, ?_⟩
  cases st with
  | whole l =>
    obtain ⟨v, ev, hv⟩ := BitVector.ofBuilder_rep b l hb
    simp only []
    rw [ev, BitVector.eq_ofRange hv]
  | short l n => exact ⟨hb.1, hb.2.1, held_ofBuilder_none hb⟩

/-- `push_back` has the strong guarantee: if memory runs out the builder is what it was, and the call can be repeated. -/
theorem C83_push_back (p : Prog) (l : List Bool) (h : p.spec = some l) (hr : p.ReserveAligned) (x : Bool) :
    ∃ b, Builder.run p = some b ∧ ∀ k, ∃ o, b.pushBackA k x = some o ∧
      (o.threw = true ↔ l.length % 64 = 0 ∧ k = 0) ∧ (o.threw = true → o.b = b) ∧
      (o.threw = false → BitVector.ofBuilder o.b = some (BitVector.ofRange (l ++ [x]))) := by
  obtain ⟨b, e, hb⟩ := Builder.run_inv p l h hr
  refine ⟨b, e, fun k => ?_⟩
  obtain ⟨o, eo, ho⟩ := Builder.pushBackA_inv b l hb x k
  refine ⟨o, eo, ?_⟩
  split at ho
  · rename_i hh
    subst ho
    exact ⟨⟨fun _ => hh, fun _ => rfl⟩, fun _ => rfl, (nomatch ·)⟩
  · rename_i hh
    obtain ⟨h1, h2⟩ := ho
    obtain ⟨v, ev, hv⟩ := BitVector.ofBuilder_rep o.b _ h2
    rw [h1]
    exact ⟨⟨(nomatch ·), fun h => absurd h hh⟩, (nomatch ·), fun _ => by rw [ev, BitVector.eq_ofRange hv]⟩

/-- A call that runs out of memory in the middle of the history can be made up for: `zero_extend` with memory at hand gives a builder whose bits are the
words that were stored, followed by zeros up to the `size()` it had claimed. -/
theorem C83_repair (cs : List (BCall × Nat)) (hc : ∀ c ∈ cs, c.1.ok) (l : List Bool) (n : Nat) (ts : List Bool)
    (h : runSpec (.whole []) cs = some (.short l n, ts)) (m k : Nat) (hk : 0 < k) :
    ∃ b0 b, Builder.new 0 false = some b0 ∧ Builder.runA b0 (cs ++ [(.zeroExtend m, k)]) = some (b, ts ++ [false]) ∧
      BitVector.ofBuilder b = some (BitVector.ofRange (l ++ List.replicate (n + m) false)) := by
  have key : ∀ (cs : List (BCall × Nat)) (s : BState) (ts : List Bool), runSpec s cs = some (.short l n, ts) →
      runSpec s (cs ++ [(.zeroExtend m, k)]) = some (.whole (l ++ List.replicate (n + m) false), ts ++ [false]) := by
    intro cs
    induction cs with
    | nil =>
      intro s ts h
      cases h
      simp [runSpec, BCall.spec, show k ≠ 0 by omega]
    | cons c cs ih =>
      intro s ts h
      obtain ⟨c, j⟩ := c
      unfold runSpec at h
      simp only [Option.bind_eq_bind, Option.bind_eq_some_iff] at h
      obtain ⟨⟨s1, t⟩, e1, ⟨s2, ts2⟩, e2, h⟩ := h
      cases h
      simp only [List.cons_append, runSpec, Option.bind_eq_bind, e1, Option.bind_some, ih _ _ e2]
      rfl
  have hc' : ∀ c ∈ cs ++ [(BCall.zeroExtend m, k)], c.1.ok := by
    intro c hm
    rcases List.mem_append.1 hm with hm | hm
    · exact hc c hm
    · rw [List.mem_singleton] at hm; subst hm; trivial
  exact C83_history _ hc' _ _ (key cs _ ts h)

/-- The other members do not have that guarantee.  64 zeros, `append_bits` of three bits runs out of memory, is repeated with memory at hand: the repeated
call writes into the first word (bits appended before are changed), and no bit vector can be made. -/
theorem C83_retry_false : ∃ b o o', Builder.new 64 false = some b ∧ b.appendBitsA 0 5 3 = some o ∧ o.threw = true ∧ o.b.size = 67 ∧
    o.b.appendBitsA 1 5 3 = some o' ∧ o'.threw = false ∧ o'.b.size = 70 ∧ b.bits = [0] ∧ o'.b.bits = [40] ∧ BitVector.ofBuilder o'.b = none :=
  ⟨⟨[0], 64, some 0⟩, ⟨⟨[0], 67, some 0⟩, true, 0⟩, ⟨⟨[40], 70, some 0⟩, false, 1⟩, by decide +kernel⟩

/-- An empty builder has no current word: if its first `append_bits` runs out of memory, the next `push_back` dereferences an uninitialised pointer. -/
theorem C83_uninit_false : ∃ b o, Builder.new 0 false = some b ∧ b.appendBitsA 0 5 3 = some o ∧ o.threw = true ∧ ∀ k x, o.b.pushBackA k x = none :=
  ⟨⟨[], 0, none⟩, ⟨⟨[], 3, none⟩, true, 0⟩, by decide +kernel, by decide +kernel, rfl, fun k x => by cases x <;> rfl⟩

/-- Nor is the second call refused: with `append_bits` repeated on an empty builder the bits are lost although nothing is thrown. -/
theorem C83_lost_false : ∃ b o, Builder.new 0 false = some b ∧ b.appendBitsA 0 5 64 = some o ∧ o.threw = true ∧
    ∃ o', o.b.appendBitsA 1 5 64 = some o' ∧ o'.threw = false ∧ o'.b.size = 128 ∧ o'.b.bits = [5] ∧ BitVector.ofBuilder o'.b = none :=
  ⟨⟨[], 0, none⟩, ⟨⟨[], 64, none⟩, true, 0⟩, by decide +kernel, by decide +kernel, rfl, ⟨⟨[5], 128, some 0⟩, false, 0⟩, by decide +kernel⟩

/-- a history with all kinds of failures: `push_back` fails and is repeated, `one_extend` fails at its second growth, `set` and a failing `reserve` follow,
and `zero_extend` repairs the builder -/
def exampleCalls : List (BCall × Nat) :=
  [(.pushBack true, 0), (.pushBack true, 1), (.appendBits 6 3, 0), (.oneExtend 150, 1), (.set 1 true, 0), (.reserve true, 0), (.zeroExtend 2, 0),
   (.zeroExtend 1, 1), (.pushBack true, 0), (.reverse, 0), (.append (.oneExtend (.new 3 false) 5), 0), (.append (.new 64 true), 0)]

example : (runSpec (.whole []) exampleCalls).map (fun r => (match r.1 with | .whole l => (l.length, 0) | .short l n => (l.length, n), r.2)) =
    some ((192, 16), [true, false, false, true, false, true, true, false, false, false, false, true]) := by decide +kernel

example : ∀ c ∈ exampleCalls, c.1.ok := by simp [exampleCalls, BCall.ok, Prog.ReserveAligned]

/-- and one that ends well -/
example : runSpec (.whole []) [(.zeroExtend 62, 1), (.appendBits 0xf 4, 0), (.zeroExtend 0, 1)] =
    some (.whole (List.replicate 62 false ++ [true, true, false, false]), [false, true, false]) := by rfl

end Succinct
