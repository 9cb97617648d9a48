import Verif.Lemmas.MappableIter
import Verif.Props.Util

/-! # C130: iterators of `mappable_vector` kept by the caller -/
namespace Succinct
open Spec Mappable
variable {α : Type}

/-- **C130**: iterators `[begin(), end())` taken from object `i` after any program `cs` still show the same elements after any further
program `cs'` exactly if these are mapped (or none), or some object still holds them; and then this object, found by following the swaps, has these
contents.  Otherwise the buffer has been freed. -/
theorem C130_iterators (cs cs' : List (Cmd α)) (a a' : Contents α) (hr : Run (fun _ => none) cs a) (hr' : Run a cs' a') :
    ∃ s s', run init cs = some s ∧ run s cs' = some s' ∧ ∀ i v xs, s.vecs i = some v → a i = some xs →
      readRange s.heap (range v) = some xs ∧
      readRange s'.heap (range v) = (if v.deleter = none ∨ holder (some i) cs' ≠ none then some xs else none) ∧
      ∀ j, holder (some i) cs' = some j → a' j = some xs := by
  obtain ⟨s, e, hi⟩ := run_inv init_inv hr
  obtain ⟨s', e', hi'⟩ := run_inv hi hr'
  refine ⟨s, s', e, e', fun i v xs hv ha => ?_⟩
  have hgood := (run_facts cs init s e).2.2 (fun i v h => by cases h) i v hv
  obtain ⟨v', hv', hc, hs⟩ := hi.live i xs ha
  rw [hv] at hv'
  cases hv'
  obtain ⟨mono, held, _⟩ := run_facts cs' s s' e'
  have hheld := held v (some i) hv
  have hkeep : v.deleter = none ∨ holder (some i) cs' ≠ none → contents s'.heap v = some xs := by
    intro hk
    cases hd : v.deleter with
    | none =>
      rw [← hc]
      unfold contents
      cases hdat : v.data with
      | null => rfl
      | image ys => rfl
      | heap id => rw [hi.own i v id hv hdat] at hd; cases hd
    | some id =>
      cases hj : holder (some i) cs' with
      | none => rcases hk with hk | hk
                · rw [hd] at hk; cases hk
                · exact absurd hj hk
      | some j =>
        rw [hj] at hheld
        obtain ⟨zs, hz⟩ := hi'.owned j v id hheld hd
        obtain ⟨ys, hy⟩ := hi.owned i v id hv hd
        rw [← hc]
        unfold contents
        rw [hgood id hd]
        simp only []
        rcases mono id _ hy with g | g
        · rw [g, hy]
        · rw [g] at hz; cases hz
  refine ⟨hc, ?_, fun j hj => ?_⟩
  · rw [readRange_eq]
    split
    · rename_i hk; exact hkeep hk
    · rename_i hk
      cases hd : v.deleter with
      | none => exact absurd (Or.inl hd) hk
      | some id =>
        cases hj : holder (some i) cs' with
        | some j => exact absurd (Or.inr (by rw [hj]; exact Option.some_ne_none j)) hk
        | none =>
          rw [hj] at hheld
          unfold contents
          rw [hgood id hd]
          simp only []
          rw [hheld id hd]
  · rw [hj] at hheld
    have h1 := hkeep (Or.inr (by rw [hj]; exact Option.some_ne_none j))
    cases ha' : a' j with
    | none =>
      have := hi'.dead j ha'
      rw [show s'.vecs j = some v from hheld] at this; cases this
    | some ys =>
      obtain ⟨w, hw, hcw, _⟩ := hi'.live j ys ha'
      rw [show s'.vecs j = some v from hheld] at hw
      cases hw
      rw [h1] at hcw; exact hcw.symm ▸ rfl

/-- 1, 2 are moved to object 1 by a swap and survive the end of object 0, but not that of object 1 -/
example : holder (α := Nat) (some 0) [.swap 0 1, .destroy 0] = some 1 ∧ holder (α := Nat) (some 0) [.swap 0 1, .destroy 1] = none ∧
    Run (fun _ => none) [.newRange 0 [1, 2], .new 1] ((Contents.set (fun _ => none) 0 (some [1, 2])).set 1 (some [])) :=
  ⟨by decide, by decide, .cons (.newRange 0 _ rfl) (.cons (.new 1 rfl) (.nil _))⟩

/-- the same in the model -/
theorem C130_example :
    (run (init : State Nat) [.newRange 0 [1, 2], .new 1, .swap 0 1, .destroy 0]).bind (fun s => readRange s.heap (.heap 0, 2)) = some [1, 2] ∧
    (run (init : State Nat) [.newRange 0 [1, 2], .new 1, .swap 0 1, .destroy 1]).bind (fun s => readRange s.heap (.heap 0, 2)) = none ∧
    (run (init : State Nat) [.newRange 0 [1, 2]]).bind (fun s => (s.vecs 0).map range) = some (.heap 0, 2) := ⟨rfl, rfl, rfl⟩

end Succinct
