import Verif.Model.Cost
import Verif.Props.AnyTopK

/-! # C95: calls of the comparator, range queries -/
namespace Succinct
open Spec
open RSBitVector (bind_pure_some)

namespace CartesianBuilder
variable {α : Type} (comp : α → α → Bool)

theorem popLoopC_spec (x : α) (st : List α) (b : Builder) :
    (popLoopC comp x st b).map (fun r => (r.1, r.2.1)) = popLoop comp x st b ∧
    ∀ r, popLoopC comp x st b = some r → r.2.2.length + r.1.length ≤ st.length + 1 ∧ (st = [] → r.2.2 = []) ∧ ∀ c ∈ r.2.2, c.1 = x ∧ c.2 ∈ st := by
  induction st generalizing b with
  | nil =>
    refine ⟨rfl, fun r h => ?_⟩
    cases h
    simp
  | cons y st ih =>
    unfold popLoopC popLoop
    by_cases hc : comp x y = true
    · rw [if_pos hc, if_pos hc]
      cases hb : b.pushBack true with
      | none => exact ⟨rfl, fun r h => by cases h⟩
      | some b1 =>
        rw [bind_pure_some, bind_pure_some]
        obtain ⟨h1, h2⟩ := ih b1
        cases hp : popLoopC comp x st b1 with
        | none => rw [← h1, hp]; exact ⟨rfl, fun r h => by cases h⟩
        | some r =>
          obtain ⟨st', b', c'⟩ := r
          obtain ⟨h3, h4, h5⟩ := h2 _ hp
          simp only [] at h3 h4 h5
          rw [← h1, hp, bind_pure_some]
          refine ⟨rfl, fun r' h => ?_⟩
          cases h
          refine ⟨by simp only [List.length_cons]; omega, by simp, ?_⟩
          intro c hc
          rcases List.mem_cons.1 hc with rfl | hc
          · exact ⟨rfl, List.mem_cons_self⟩
          · exact ⟨(h5 c hc).1, List.mem_cons_of_mem _ (h5 c hc).2⟩
    · rw [if_neg hc, if_neg hc]
      refine ⟨rfl, fun r h => ?_⟩
      cases h
      simp; omega

theorem pushBackC_spec (s : CartesianBuilder α) (x : α) :
    (pushBackC comp s x).map (·.1) = pushBack comp s x ∧
    ∀ r, pushBackC comp s x = some r → r.2.length + r.1.stack.length ≤ s.stack.length + 2 ∧ 1 ≤ r.1.stack.length ∧ (s.stack = [] → r.2 = [] ∧ r.1.stack.length = 1) := by
  unfold pushBackC pushBack
  cases hb : s.bp.pushBack false with
  | none => exact ⟨rfl, fun r h => by cases h⟩
  | some b =>
    rw [bind_pure_some, bind_pure_some]
    obtain ⟨h1, h2⟩ := popLoopC_spec comp x s.stack b
    cases hp : popLoopC comp x s.stack b with
    | none => rw [← h1, hp]; exact ⟨rfl, fun r h => by cases h⟩
    | some r =>
      obtain ⟨st', b', c'⟩ := r
      obtain ⟨h3, h4, h5⟩ := h2 _ hp
      simp only [] at h3 h4 h5
      rw [← h1, hp, bind_pure_some]
      refine ⟨rfl, fun r' h => ?_⟩
      cases h
      refine ⟨by simp only [List.length_cons]; omega, by simp, fun hs => ?_⟩
      have := h4 hs
      rw [hs] at hp
      cases hp
      exact ⟨rfl, rfl⟩

theorem pushAllC_spec (v : List α) (s : CartesianBuilder α) :
    (pushAllC comp v s).map (·.1) = pushAll comp v s ∧
    ∀ r, pushAllC comp v s = some r → r.2.length + r.1.stack.length ≤ s.stack.length + 2 * v.length ∧
      (s.stack = [] → v ≠ [] → r.2.length + r.1.stack.length + 1 ≤ 2 * v.length ∧ 1 ≤ r.1.stack.length) ∧ (1 ≤ s.stack.length → 1 ≤ r.1.stack.length) := by
  induction v generalizing s with
  | nil =>
    refine ⟨rfl, fun r h => ?_⟩
    cases h
    exact ⟨by simp, fun _ h => absurd rfl h, id⟩
  | cons x v ih =>
    unfold pushAllC pushAll
    obtain ⟨h1, h2⟩ := pushBackC_spec comp s x
    cases hp : pushBackC comp s x with
    | none => rw [← h1, hp]; exact ⟨rfl, fun r h => by cases h⟩
    | some r =>
      obtain ⟨h3, h4, h5⟩ := h2 r hp
      rw [← h1, hp, bind_pure_some]
      obtain ⟨g1, g2⟩ := ih r.1
      cases hq : pushAllC comp v r.1 with
      | none =>
        refine ⟨?_, fun r h => ?_⟩
        · show Option.map _ (pushAllC comp v r.1 >>= _) = pushAll comp v r.1
          rw [← g1, hq]; rfl
        · have h : (pushAllC comp v _ >>= _) = some _ := h
          rw [hq] at h; cases h
      | some r2 =>
        obtain ⟨k1, k2, k3⟩ := g2 r2 hq
        refine ⟨?_, fun r' h => ?_⟩
        · show Option.map _ (pushAllC comp v r.1 >>= _) = pushAll comp v r.1
          rw [← g1, hq]; rfl
        · have h : (pushAllC comp v r.1 >>= fun p => some (p.1, r.2 ++ p.2)) = some r' := h
          rw [hq, bind_pure_some] at h
          cases h
          simp only [List.length_append, List.length_cons]
          refine ⟨by omega, fun hs _ => ⟨?_, k3 h4⟩, fun _ => k3 h4⟩
          obtain ⟨a1, a2⟩ := h5 hs
          rw [a1]
          simp only [List.length_nil]
          omega

end CartesianBuilder

/-- **C95.**  Building a cartesian tree over `n > 0` values calls the comparator at most `2 n - 2` times, whatever it answers. -/
theorem C95_comparisons {α : Type} (comp : α → α → Bool) (v : List α) (hv : v.length < 2^30 - 1) :
    ∃ t c, CartesianTree.build comp v = some t ∧ CartesianTree.buildC comp v = some (t, c) ∧ c.length ≤ 2 * v.length - 2 := by
  obtain ⟨s, e, h⟩ := CartesianBuilder.new_ok (α := α) 0 false
  obtain ⟨s1, e1, h1⟩ := CartesianBuilder.pushAll_ok comp v s _ h
  obtain ⟨t, e2, h2⟩ := CartesianTree.ofBuilder_spec comp v hv s1 h1
  obtain ⟨g1, g2⟩ := CartesianBuilder.pushAllC_spec comp v s
  rw [e1] at g1
  obtain ⟨⟨s', c⟩, g3, g4⟩ := Option.map_eq_some_iff.1 g1
  cases g4
  have hs : s.stack = [] := by rw [h.stack]
  obtain ⟨k1, k2, k3⟩ := g2 _ g3
  refine ⟨t, c, by unfold CartesianTree.build; rw [e, bind_pure_some, e1, bind_pure_some, e2], by unfold CartesianTree.buildC; rw [e, bind_pure_some, g3, bind_pure_some]; simp only []; rw [e2]; rfl, ?_⟩
  cases v with
  | nil => rw [hs] at k1; simp only [List.length_nil] at k1 ⊢; omega
  | cons x v =>
    obtain ⟨a1, a2⟩ := k2 hs (by simp)
    simp only [] at a1 a2
    omega

/-- the counted version of one call of `next()` does what `next()` does; each query adds an element to the queue -/
theorem nextC_spec {α : Type} {h : HeapOps (QElem α)} (hh : h.Rearranges) (e : TopKEnum α) :
    (TopKEnum.nextC h e).map (·.1) = (TopKEnum.next h e).map (·.2) ∧
    ∀ r, TopKEnum.nextC h e = some r → r.2 ≤ 2 ∧ (e.q ≠ [] → r.1.q.length + 1 = e.q.length + r.2) ∧ (e.q = [] → r = (e, 0)) := by
  unfold TopKEnum.nextC TopKEnum.next
  by_cases hq : e.q = []
  · rw [if_pos hq, if_pos hq]
    refine ⟨rfl, fun r h => ?_⟩
    cases h
    exact ⟨by simp, fun h => absurd hq h, fun _ => rfl⟩
  · rw [if_neg hq, if_neg hq]
    obtain ⟨q0, p1, pp0⟩ := hh.pop e.q hq
    rw [p1, bind_pure_some, bind_pure_some]
    have hl0 := pp0.length_eq
    have hpos := List.length_pos_iff.2 hq
    cases hx : q0.getLast? with
    | none => exact ⟨rfl, fun r h => by cases h⟩
    | some x =>
      rw [bind_pure_some, bind_pure_some]
      have hl1 : q0.dropLast.length + 1 = e.q.length := by rw [List.length_dropLast]; omega
      generalize q0.dropLast = q1 at hl1
      have left : (TopKEnum.pushLeftC h e.topkv x q1).map (·.1) = TopKEnum.pushLeft h e.topkv x q1 ∧
          ∀ r, TopKEnum.pushLeftC h e.topkv x q1 = some r → r.2 ≤ 1 ∧ r.1.length = q1.length + r.2 := by
        unfold TopKEnum.pushLeftC TopKEnum.pushLeft
        by_cases hc : x.mid ≠ x.a
        · rw [if_pos hc, if_pos hc]
          cases e.topkv with
          | none => exact ⟨rfl, fun r h => by cases h⟩
          | some t =>
            rw [bind_pure_some, bind_pure_some]
            cases subU x.mid 1 with
            | none => exact ⟨rfl, fun r h => by cases h⟩
            | some m1 =>
              rw [bind_pure_some, bind_pure_some]
              cases TopKEnum.elemFor t x.a m1 with
              | none => exact ⟨rfl, fun r h => by cases h⟩
              | some y =>
                rw [bind_pure_some, bind_pure_some]
                obtain ⟨q2, e2, pp2⟩ := hh.push (q1 ++ [y])
                rw [e2, bind_pure_some]
                refine ⟨rfl, fun r h => ?_⟩
                cases h
                have := pp2.length_eq
                simp at this ⊢; omega
        · rw [if_neg hc, if_neg hc]
          refine ⟨rfl, fun r h => ?_⟩
          cases h
          simp
      obtain ⟨l1, l2⟩ := left
      rw [← l1]
      cases hL : TopKEnum.pushLeftC h e.topkv x q1 with
      | none => exact ⟨rfl, fun r h => by cases h⟩
      | some r2 =>
        obtain ⟨q2, m⟩ := r2
        obtain ⟨a1, a2⟩ := l2 _ hL
        simp only [] at a1 a2
        rw [Option.map_some, bind_pure_some, bind_pure_some]
        simp only []
        have right : (TopKEnum.pushRightC h e.topkv x q2).map (·.1) = TopKEnum.pushRight h e.topkv x q2 ∧
            ∀ r, TopKEnum.pushRightC h e.topkv x q2 = some r → r.2 ≤ 1 ∧ r.1.length = q2.length + r.2 := by
          unfold TopKEnum.pushRightC TopKEnum.pushRight
          by_cases hc : x.mid ≠ x.b
          · rw [if_pos hc, if_pos hc]
            cases e.topkv with
            | none => exact ⟨rfl, fun r h => by cases h⟩
            | some t =>
              rw [bind_pure_some, bind_pure_some]
              cases TopKEnum.elemFor t (x.mid + 1) x.b with
              | none => exact ⟨rfl, fun r h => by cases h⟩
              | some y =>
                rw [bind_pure_some, bind_pure_some]
                obtain ⟨q3, e3, pp3⟩ := hh.push (q2 ++ [y])
                rw [e3, bind_pure_some]
                refine ⟨rfl, fun r h => ?_⟩
                cases h
                have := pp3.length_eq
                simp at this ⊢; omega
          · rw [if_neg hc, if_neg hc]
            refine ⟨rfl, fun r h => ?_⟩
            cases h
            simp
        obtain ⟨b1, b2⟩ := right
        rw [← b1]
        cases hR : TopKEnum.pushRightC h e.topkv x q2 with
        | none => exact ⟨rfl, fun r h => by cases h⟩
        | some r3 =>
          obtain ⟨q3, n⟩ := r3
          obtain ⟨c1, c2⟩ := b2 _ hR
          simp only [] at c1 c2
          rw [Option.map_some, bind_pure_some, bind_pure_some]
          refine ⟨rfl, fun r h => ?_⟩
          cases h
          exact ⟨by simp only []; omega, fun _ => by simp only []; omega, fun h => absurd h hq⟩

theorem AnyTopK.Inv.length_le {α : Type} {v : List α} {e : TopKEnum α} {rem : List (α × Nat)} (h : AnyTopK.Inv v e rem) : e.q.length ≤ rem.length := by
  rw [← h.perm.length_eq]
  have hok := h.ok
  generalize e.q = q at hok
  induction q with
  | nil => simp
  | cons x q ih =>
    have hx := hok x (by simp)
    have := List.length_pos_of_mem (TopKEnum.mem_entries.2 ⟨hx.am, hx.mb, hx.val⟩ : (x.val, x.mid) ∈ entries v x.a x.b)
    have := ih fun y hy => hok y (by simp [hy])
    rw [List.flatMap_cons, List.length_append, List.length_cons]
    omega

theorem afterC_spec {α : Type} {h : HeapOps (QElem α)} (hh : h.Rearranges) {v : List α} (k : Nat) : ∀ (e : TopKEnum α) (rem : List (α × Nat)), AnyTopK.Inv v e rem →
    ∃ e' c, TopKEnum.after h k e = some e' ∧ TopKEnum.afterC h k e = some (e', c) ∧ c ≤ 2 * k ∧ c + e.q.length ≤ rem.length ∧
      (rem.length ≤ k → c + e.q.length = rem.length) := by
  induction k with
  | zero =>
    intro e rem hi
    have := hi.length_le
    exact ⟨e, 0, rfl, rfl, by omega, by omega, fun h => by omega⟩
  | succ k ih =>
    intro e rem hi
    obtain ⟨n1, n2⟩ := nextC_spec hh e
    by_cases hr : rem = []
    · subst hr
      have hq := hi.empty
      obtain ⟨e', c, h1, h2, h3, h4, h5⟩ := ih e [] hi
      have e1 : TopKEnum.next h e = some (false, e) := by unfold TopKEnum.next; rw [if_pos hq]
      have e2 : TopKEnum.nextC h e = some (e, 0) := by unfold TopKEnum.nextC; rw [if_pos hq]
      refine ⟨e', c, by unfold TopKEnum.after; rw [e1, bind_pure_some]; exact h1, ?_, by omega, h4, fun _ => h5 (by simp)⟩
      unfold TopKEnum.afterC
      rw [e2, bind_pure_some]
      simp only []
      rw [h2, bind_pure_some, Nat.zero_add]
      rfl
    · obtain ⟨x, rem', e1, g1, g2, g3, g4⟩ := AnyTopK.next_some hh hi hr
      rw [g1] at n1
      obtain ⟨⟨e1', m⟩, m1, m2⟩ := Option.map_eq_some_iff.1 n1
      cases m2
      obtain ⟨a1, a2, _⟩ := n2 _ m1
      have hq : e.q ≠ [] := by
        intro hq
        have := hi.perm; rw [hq] at this; simp at this; exact hr this
      have a2 := a2 hq
      simp only [] at a1 a2
      obtain ⟨e', c, h1, h2, h3, h4, h5⟩ := ih e1 rem' g4
      have hl := g3.length_eq
      rw [List.length_cons] at hl
      refine ⟨e', m + c, by unfold TopKEnum.after; rw [g1, bind_pure_some]; exact h1, ?_, by omega, by omega, fun hk => by have := h5 (by omega); omega⟩
      unfold TopKEnum.afterC
      rw [m1, bind_pure_some]
      simp only []
      rw [h2, bind_pure_some]
      rfl

/-- **C95**, range queries: after getting an enumerator for `[a, b]` and `k` calls of `next()`, at most `2 k + 1` calls of `rmq` and at most one for each
index of the range have been made; exactly one for each index once everything has been delivered.  Nothing is assumed of the comparisons. -/
theorem C95_queries {α : Type} (o : Ops α) (h : HeapOps (QElem α)) (hh : h.Rearranges) (v : List α) (hv : v.length < 2^30 - 1) :
    ∃ t, TopK.build o v = some t ∧ ∀ a b e0 k, a ≤ b → b < v.length → ∃ e e' c, t.getEnumerator a b e0 = some e ∧ e.after h k = some e' ∧
      TopKEnum.enumerateC h t a b k e0 = some (e', c) ∧ c ≤ 2 * k + 1 ∧ c ≤ b - a + 1 ∧ (b - a + 1 ≤ k → c = b - a + 1) := by
  obtain ⟨t, e, h1⟩ := C93_rmq (fun x y => o.lt y x) v hv
  have hb : AnyTopK.Built v ⟨v, t⟩ := ⟨rfl, fun a b hab hbv => by
    obtain ⟨m, e, m1, m2, _⟩ := h1 a b hab hbv
    exact ⟨m, e, m1, m2⟩⟩
  refine ⟨⟨v, t⟩, by unfold TopK.build; rw [e, bind_pure_some]; rfl, fun a b e0 k hab hbv => ?_⟩
  obtain ⟨en, e1, hi⟩ := AnyTopK.set_inv hb e0 a b hab hbv
  have hq : en.q.length = 1 := by
    have e1 := e1
    unfold TopKEnum.set at e1
    obtain ⟨_, _, e1⟩ := Option.bind_eq_some_iff.1 e1
    simp only [] at e1
    obtain ⟨_, _, e1⟩ := Option.bind_eq_some_iff.1 e1
    cases e1
    rfl
  have hlen := TopKEnum.entries_length v a b hab hbv
  obtain ⟨e', c, k1, k2, k3, k4, k5⟩ := afterC_spec hh k en _ hi
  rw [hlen, hq] at k4 k5
  refine ⟨en, e', 1 + c, e1, k1, ?_, by omega, by omega, fun hk => by have := k5 hk; omega⟩
  unfold TopKEnum.enumerateC
  rw [e1, bind_pure_some, k2, bind_pure_some]
  rfl

/-- three values, three comparisons; the bound is four -/
example : (CartesianTree.buildC (fun a b : Nat => decide (a < b)) [1, 2, 0]).map (·.2) = some [(2, 1), (0, 2), (0, 1)] := by decide +kernel
/-- the greatest of three values, in the middle: three range queries after one call of `next()` -/
example : (TopK.build natOps [3, 5, 4] >>= fun t => TopKEnum.enumerateC (sortHeap (viComp natOps)) t 0 2 1 TopKEnum.new).map (·.2) = some 3 := by decide +kernel

end Succinct
