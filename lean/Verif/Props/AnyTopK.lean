import Verif.Lemmas.AnyTopK

/-! # C94: `topk_vector` when the comparisons are not an order -/
namespace Succinct
open Spec
open RSBitVector (bind_pure_some)

/-- what an enumerator delivers does not depend on its current entry -/
theorem nexts_cur {α : Type} (h : HeapOps (QElem α)) (k : Nat) (e : TopKEnum α) (c : Option (α × Nat)) : TopKEnum.nexts h k { e with cur := c } = TopKEnum.nexts h k e := by
  induction k generalizing e with
  | zero => rfl
  | succ k ih =>
    unfold TopKEnum.nexts TopKEnum.next
    by_cases hq : e.q = []
    · rw [if_pos hq, if_pos hq, bind_pure_some, bind_pure_some]
      simp only [Bool.false_eq_true, if_false]
      rw [ih]
    · rw [if_neg hq, if_neg hq]

/-- **C94.**  Whatever `<` and `==` of the value type do (floating point numbers with NaN, for example), and although heap functions promise nothing then
but to rearrange: `topk(a, b, k)` fails no assertion and returns the first `k` of an arrangement `s` of the entries of the range that does not depend on `k`, so that it has
`min(k, b - a + 1)` entries, with distinct indices of the range, each with the value at that index; the enumerator delivers the whole of `s`, each entry once. -/
theorem C94_topk {α : Type} (o : Ops α) (h : HeapOps (QElem α)) (hh : h.Rearranges) (v : List α) (hv : v.length < 2^30 - 1) :
    ∃ t, TopK.build o v = some t ∧ ∀ a b, a ≤ b → b < v.length → ∃ s : List (α × Nat), s.Perm (entries v a b) ∧ s.length = b - a + 1 ∧
      (∀ k, t.topk h a b k = some (s.take k)) ∧
      ∀ e0, ∃ e, t.getEnumerator a b e0 = some e ∧ ∀ k, e.nexts h k = some ((List.range k).map fun i => s[i]?) := by
  obtain ⟨t, e, h1⟩ := C93_rmq (fun x y => o.lt y x) v hv
  have hb : AnyTopK.Built v ⟨v, t⟩ := ⟨rfl, fun a b hab hbv => by
    obtain ⟨m, e, m1, m2, _⟩ := h1 a b hab hbv
    exact ⟨m, e, m1, m2⟩⟩
  refine ⟨⟨v, t⟩, by unfold TopK.build; rw [e, bind_pure_some]; rfl, fun a b hab hbv => ?_⟩
  have hlen := TopKEnum.entries_length v a b hab hbv
  obtain ⟨en, e1, hi⟩ := AnyTopK.set_inv hb TopKEnum.new a b hab hbv
  obtain ⟨s, s1, s3, s4⟩ := AnyTopK.deliver hh _ en _ rfl hi
  refine ⟨s, s1, by rw [s1.length_eq, hlen], fun k => ?_, fun e0 => ?_⟩
  rotate_left
  · have e2 : TopKEnum.set e0 ⟨v, t⟩ a b = (TopKEnum.set TopKEnum.new ⟨v, t⟩ a b).map fun e => { e with cur := e0.cur } := by
      unfold TopKEnum.set
      rw [assertP_eq _ hab, bind_pure_some, bind_pure_some]
      cases TopKEnum.elemFor ⟨v, t⟩ a b <;> rfl
    refine ⟨{ en with cur := e0.cur }, by show TopKEnum.set e0 _ a b = _; rw [e2, e1]; rfl, fun k => ?_⟩
    rw [nexts_cur, s3]
  obtain ⟨e', rem', g1, g2, g3⟩ := s4 (min (b - a + 1) k) [] (by rw [hlen]; omega)
  unfold TopK.topk TopK.getEnumerator
  rw [subU_eq _ _ hab, bind_pure_some]
  simp only []
  rw [e1, bind_pure_some, g1, bind_pure_some]
  simp only [List.nil_append]
  have htake : s.take (min (b - a + 1) k) = s.take k := by
    have := s1.length_eq
    rw [List.take_eq_take_iff]; omega
  have hcheck : TopK.topkCheck h (min (b - a + 1) k) k e' = some () := by
    unfold TopK.topkCheck
    split
    · rfl
    · have : rem' = [] := List.length_eq_zero_iff.1 (by rw [g3, hlen]; omega)
      subst this
      unfold TopKEnum.next
      rw [if_pos g2.empty, bind_pure_some]; rfl
  rw [hcheck, bind_pure_some, htake]
  rfl

/-- the heap functions that sort rearrange, for every comparator -/
theorem sortHeap_rearranges {β : Type} (cmp : β → β → Bool) : (sortHeap cmp).Rearranges where
  push q := ⟨_, rfl, sortDesc_perm cmp q⟩
  pop q hq := by
    cases q with
    | nil => exact absurd rfl hq
    | cons x q => exact ⟨_, rfl, (List.Perm.append_right _ (sortDesc_perm cmp q)).trans List.perm_append_comm⟩

def nanOps : Ops (Option Int) := ⟨nanLt, fun x y => x.isSome && x == y⟩

/-- **C94**: a NaN (`none`) may keep the greatest value from being found: of 1, NaN, 3 the greatest two are said to be 1 and NaN -/
theorem C94_nan_false : (TopK.build nanOps [some 1, none, some 3] >>= fun t => t.topk (sortHeap (viComp nanOps)) 0 2 2) = some [(some 1, 0), (none, 1)] := by
  decide +kernel

end Succinct
