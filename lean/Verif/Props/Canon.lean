import Verif.Props.CartesianTree
import Verif.Lemmas.CartesianCanon

/-!
# C62: a `cartesian_tree` is determined by, and determines, the answers to its range queries
-/
namespace Succinct
open Spec

/-- **C62**: only the outcomes of the comparisons matter.  Two sequences, possibly of different types
and under different comparators (orders or not), whose entries compare alike give the same object. -/
theorem C62_comparisons {α β : Type} (comp : α → α → Bool) (comp' : β → β → Bool) (v : List α) (w : List β)
    (hl : v.length = w.length)
    (h : ∀ (i j : Nat) x y x' y', j < i → v[i]? = some x → v[j]? = some y → w[i]? = some x' → w[j]? = some y' → comp x y = comp' x' y') :
    CartesianTree.build comp v = CartesianTree.build comp' w := by
  by_cases hv : v = []
  · subst hv
    obtain rfl := List.eq_nil_of_length_eq_zero hl.symm
    rfl
  · have hw : w ≠ [] := by rintro rfl; exact hv (List.eq_nil_of_length_eq_zero hl)
    obtain ⟨f, hf1, hf⟩ := exists_fn v hv
    obtain ⟨f', hf1', hf'⟩ := exists_fn w hw
    rw [← hf1, ← hf1', ← hl]
    refine build_same comp comp' f f' v.length (fun i idx => ∀ j ∈ idx, j < i) nofun ?_ ?_
    · intro i idx hi hp j hj
      have := hp j hj
      exact h i j _ _ _ _ this (hf i hi) (hf j (by omega)) (hf' i (by omega)) (hf' j (by omega))
    · intro i idx _ hp j hj
      rcases List.mem_cons.1 hj with e | e
      · omega
      · have := hp j ((List.dropWhile_sublist _).mem e); omega

/-- **C62**: under strict weak orders, two sequences of the same length give the same object if and
only if every range has its leftmost minimum at the same position in both. -/
theorem C62_canonical {α β : Type} (comp : α → α → Bool) (comp' : β → β → Bool) (ho : StrictWeak comp) (ho' : StrictWeak comp')
    (v : List α) (w : List β) (hl : v.length = w.length) (hv : v.length < 2^30 - 1) :
    CartesianTree.build comp v = CartesianTree.build comp' w ↔
      ∀ a b m, a ≤ b → b < v.length → (IsLeftmostMin comp v a b m ↔ IsLeftmostMin comp' w a b m) := by
  refine ⟨fun h a b m hab hb => ?_, build_canonical ho ho' v w hl⟩
  obtain ⟨t, e, ht⟩ := C36_rmq comp ho v hv
  obtain ⟨t', e', ht'⟩ := C36_rmq comp' ho' w (by omega)
  rw [h, e'] at e
  cases e
  obtain ⟨m1, q1, i1⟩ := ht a b hab hb
  obtain ⟨m2, q2, i2⟩ := ht' a b hab (by omega)
  rw [q1] at q2
  cases q2
  constructor
  · intro i; rw [C36_unique comp v a b m m1 i i1]; exact i2
  · intro i; rw [C36_unique comp' w a b m m1 i i2]; exact i1

/-- two different sequences with the same shape … -/
example : CartesianTree.build (fun a b : Nat => decide (a < b)) [30, 10, 40, 10, 50] =
    CartesianTree.build (fun a b : Int => decide (b < a)) [-2, 5, -7, 5, -100] := by
  refine C62_comparisons _ _ _ _ rfl fun i j x y x' y' hji h1 h2 h3 h4 => ?_
  have hi : i < 5 := by simpa using (List.getElem?_eq_some_iff.1 h1).1
  have key : ∀ i : Fin 5, ∀ j : Fin 5, decide ([30, 10, 40, 10, 50].getD i.1 0 < [30, 10, 40, 10, 50].getD j.1 0) =
    decide (([-2, 5, -7, 5, -100] : List Int).getD j.1 0 < ([-2, 5, -7, 5, -100] : List Int).getD i.1 0) := by decide
  have := key ⟨i, hi⟩ ⟨j, by omega⟩
  simpa [List.getD, h1, h2, h3, h4] using this
/-- … and two whose ties break differently, and so differ -/
example : CartesianTree.build (fun a b : Nat => decide (a < b)) [10, 10] ≠
    CartesianTree.build (fun a b : Nat => decide (a < b)) [20, 10] := by
  intro h
  exact absurd (congrArg (Option.map fun t => t.bp.rs.bv) h) (by decide +kernel)

end Succinct
