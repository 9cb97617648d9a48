import Verif.Model.ListSwap
import Verif.Spec.ListSwap
import Verif.Spec.FanoSwap
import Verif.Lemmas.TopKSwap

/-! # Generic forward enumerators while objects are swapped -/
namespace Succinct
open Spec
open RSBitVector (bind_pure_some)

namespace ListSwap

theorem next_eq {α : Type} (get : Nat → Option α) (c : List α) (k : Nat) (h : get k = c[k]?) (f : Nat → Option (List α)) :
    (do let (x, k) ← forwardNext get k
        let outs ← f k
        pure (x :: outs)) = (match c[k]?, f (k+1) with | some v, some outs => some (v :: outs) | _, _ => none) := by
  unfold forwardNext
  rw [h]
  cases c[k]? with
  | none => rfl
  | some v =>
    cases hf : f (k+1) with
    | none =>
      simp only [bind_pure_some, hf]
      show ((pure (v, k+1) : Option _) >>= _) = _
      rw [show (pure (v, k+1) : Option (α × Nat)) = some (v, k+1) from rfl, bind_pure_some]
      simp only [hf]; rfl
    | some outs =>
      simp only [bind_pure_some, hf]
      show ((pure (v, k+1) : Option _) >>= _) = _
      rw [show (pure (v, k+1) : Option (α × Nat)) = some (v, k+1) from rfl, bind_pure_some]
      simp only [hf]; rfl

theorem swapped_all {S T : Type} {P : S → T → Prop} {s : Nat → S} {a : Nat → T} (h : ∀ j, P (s j) (a j)) (x y j : Nat) :
    P (swapped s x y j) (swapped a x y j) := by
  unfold swapped
  split
  · exact h y
  · split
    · exact h x
    · exact h j

theorem runList_eq (ov : Word → Nat → Word) (i : Nat) : ∀ (ops : List SeqOp) (s : Objs EFList) (a : Nat → List Word) (k : Nat),
    (∀ j k, (s j).get ov k = (a j)[k]?) → runList ov i s k ops = readThrough i a k ops
  | [], _, _, _, _ => rfl
  | .swap x y :: ops, s, a, k, h => by
    unfold runList readThrough
    refine runList_eq ov i ops _ _ k ?_
    rw [EFList.swap_eq Field.whole_ok, stdSwap_whole]
    exact swapped_all (P := fun (t : EFList) c => ∀ k, t.get ov k = c[k]?) h x y
  | .next :: ops, s, a, k, h => by
    unfold runList readThrough
    rw [← runList_eq ov i ops s a (k+1) h]
    exact next_eq _ (a i) k (h i k) (fun k => runList ov i s k ops)

theorem runCompressed_eq (ov : Word → Nat → Word) (i : Nat) : ∀ (ops : List SeqOp) (s : Objs EFCompressedList) (a : Nat → List Word) (k : Nat),
    (∀ j k, (s j).get ov k = (a j)[k]?) → runCompressed ov i s k ops = readThrough i a k ops
  | [], _, _, _, _ => rfl
  | .swap x y :: ops, s, a, k, h => by
    unfold runCompressed readThrough
    refine runCompressed_eq ov i ops _ _ k ?_
    rw [EFCompressedList.swap_eq Field.whole_ok, stdSwap_whole]
    exact swapped_all (P := fun (t : EFCompressedList) c => ∀ k, t.get ov k = c[k]?) h x y
  | .next :: ops, s, a, k, h => by
    unfold runCompressed readThrough
    rw [← runCompressed_eq ov i ops s a (k+1) h]
    exact next_eq _ (a i) k (h i k) (fun k => runCompressed ov i s k ops)

theorem readThrough_held {α : Type} (i : Nat) : ∀ (ops : List SeqOp) (a : Nat → List α) (k : Nat) (outs : List α), readThrough i a k ops = some outs →
    outs.length = Spec.nexts ops ∧ ∀ (n : Nat) v, outs[n]? = some v → ∃ c ∈ heldIn i a ops, c[k + n]? = some v
  | [], a, k, outs, h => by
    unfold readThrough at h
    rw [← Option.some.inj h]
    exact ⟨rfl, fun n v hv => (by simp at hv)⟩
  | .swap x y :: ops, a, k, outs, h => by
    unfold readThrough at h
    obtain ⟨h1, h2⟩ := readThrough_held i ops _ k outs h
    refine ⟨h1, fun n v hv => ?_⟩
    obtain ⟨c, hc, e⟩ := h2 n v hv
    exact ⟨c, List.mem_cons_of_mem _ hc, e⟩
  | .next :: ops, a, k, outs, h => by
    unfold readThrough at h
    split at h
    · rename_i w outs' e1 e2
      obtain ⟨h1, h2⟩ := readThrough_held i ops a (k+1) outs' e2
      rw [← Option.some.inj h]
      refine ⟨by rw [List.length_cons, h1]; simp [Spec.nexts], fun n v hv => ?_⟩
      cases n with
      | zero => exact ⟨a i, TopKSwap.held_head i _ a, by rw [← hv]; exact e1⟩
      | succ n =>
        obtain ⟨c, hc, e⟩ := h2 n v hv
        exact ⟨c, hc, by rw [← e, show k + (n + 1) = k + 1 + n by omega]⟩
    · cases h

theorem le_sum : ∀ (l : List Nat) (x : Nat), x ∈ l → x ≤ l.sum
  | [], _, h => by cases h
  | y :: l, x, h => by
    rw [List.sum_cons]
    rcases List.mem_cons.1 h with e | e
    · omega
    · have := le_sum l x e
      omega

end ListSwap
end Succinct
