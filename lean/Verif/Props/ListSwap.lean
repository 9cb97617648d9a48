import Verif.Lemmas.ListSwap
import Verif.Props.EliasFano
import Verif.Props.TopKOver

/-! # C129: enumerators of Elias-Fano lists that are swapped -/
namespace Succinct
open Spec

/-- **C129**, `elias_fano_list`: each call of `next` is defined exactly if the content now in place has a value at the next position, and
this value is the answer. -/
theorem C129_list (a : Nat → List Word) (ha : ∀ j, ((a j).map BitVec.toNat).sum < 2^64 - 1 ∧ (a j).length ≤ 2^62) :
    ∃ s : Objs EFList, (∀ j, EFList.build (a j) = some (s j)) ∧
      ∀ ov i k ops, ListSwap.runList ov i s k ops = readThrough i a k ops := by
  have hex := fun j => C26_list (a j) (ha j).1 (ha j).2
  refine ⟨fun j => (hex j).choose, fun j => (hex j).choose_spec.1, fun ov i k ops => ListSwap.runList_eq ov i ops _ a k fun j k => ?_⟩
  by_cases hk : k < (a j).length
  · exact (hex j).choose_spec.2.2.2 ov k hk
  · rw [List.getElem?_eq_none (by omega)]
    exact none_of ((C73_lists (a j) [] ov).1 _ (ha j).2 (hex j).choose_spec.1 k) hk

/-- **C129**, `elias_fano_compressed_list` -/
theorem C129_compressed_list (a : Nat → List Word) (ha : ∀ j, (∀ x ∈ a j, x ≠ BitVec.allOnes 64) ∧ (a j).length < 2^57) :
    ∃ s : Objs EFCompressedList, (∀ j, EFCompressedList.build (a j) = some (s j)) ∧
      ∀ ov i k ops, ListSwap.runCompressed ov i s k ops = readThrough i a k ops := by
  have hex := fun j => C27_compressed_list (a j) (ha j).1 (ha j).2
  refine ⟨fun j => (hex j).choose, fun j => (hex j).choose_spec.1, fun ov i k ops => ListSwap.runCompressed_eq ov i ops _ a k fun j k => ?_⟩
  by_cases hk : k < (a j).length
  · exact (hex j).choose_spec.2.2 ov k hk
  · rw [List.getElem?_eq_none (by omega)]
    exact none_of ((C73_lists (a j) [] ov).2.1 _ (ha j).2 (hex j).choose_spec.1 k) hk

/-- **C129**: so, unlike with the gamma vectors (C126), every answer is a value the object held at its position. -/
theorem C129_held (a : Nat → List Word) (ha : ∀ j, ((a j).map BitVec.toNat).sum < 2^64 - 1 ∧ (a j).length < 2^57) :
    ∃ (s : Objs EFList) (t : Objs EFCompressedList), (∀ j, EFList.build (a j) = some (s j)) ∧ (∀ j, EFCompressedList.build (a j) = some (t j)) ∧
      ∀ ov i k ops outs, (ListSwap.runList ov i s k ops = some outs ↔ ListSwap.runCompressed ov i t k ops = some outs) ∧
        (ListSwap.runList ov i s k ops = some outs → outs.length = Spec.nexts ops ∧
          ∀ (n : Nat) v, outs[n]? = some v → ∃ c ∈ heldIn i a ops, c[k + n]? = some v) := by
  obtain ⟨s, h1, h2⟩ := C129_list a (fun j => ⟨(ha j).1, by have := (ha j).2; omega⟩)
  obtain ⟨t, h3, h4⟩ := C129_compressed_list a (fun j => ⟨fun x hx hc => by
    have h5 := ListSwap.le_sum _ _ (List.mem_map_of_mem (f := BitVec.toNat) hx)
    have h6 := (ha j).1
    rw [hc] at h5
    have h7 : (BitVec.allOnes 64).toNat = 2^64 - 1 := by decide
    omega, (ha j).2⟩)
  refine ⟨s, t, h1, h3, fun ov i k ops outs => ⟨by rw [h2, h4], fun h => ?_⟩⟩
  rw [h2] at h
  exact ListSwap.readThrough_held i ops a k outs h

/-- 5, 6 and 1, 1, 3: the second answer is from the other content, and a third call is defined only there -/
example : readThrough 0 (fun j => if j = 0 then [(5 : Word), 6] else [1, 1, 3]) 0 [.next, .swap 0 1, .next, .next] = some [5, 1, 3] ∧
    readThrough 0 (fun j => if j = 0 then [(5 : Word), 6] else [1, 1, 3]) 0 [.next, .swap 0 1, .next, .swap 1 0, .next] = none := by decide +kernel

example : ∀ j : Nat, (((if j = 0 then [(5 : Word), 6] else [1, 1, 3]) : List Word).map BitVec.toNat).sum < 2^64 - 1 ∧
    ((if j = 0 then [(5 : Word), 6] else [1, 1, 3]) : List Word).length < 2^57 := by
  intro j
  split <;> decide +kernel

end Succinct
