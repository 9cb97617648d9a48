import Verif.Model.TopKAlloc
import Verif.Spec.Drain
import Verif.Props.CartesianTree

/-! # C97: the top-k enumerator when memory runs out -/
namespace Succinct
open Spec
open RSBitVector (bind_pure_some)

namespace TopKEnum
variable {α : Type} {o : Ops α}

theorem pushA_ok (h : HeapOps (QElem α)) (cap : Nat) (deny : Bool) (q : List (QElem α)) (y : QElem α) (hc : ¬ (cap < q.length + 1 ∧ deny = true)) :
    pushA h cap deny q y = (h.pushHeap (q ++ [y])).map (·, false) := by
  unfold pushA
  rw [if_neg hc]
  cases h.pushHeap (q ++ [y]) <;> rfl

/-- there is room for the left part, whose place has just become free -/
theorem pushLeftA_eq (h : HeapOps (QElem α)) (cap : Nat) (deny : Bool) (t : Option (TopK α)) (x : QElem α) (q : List (QElem α)) (hq : q.length + 1 ≤ cap) :
    pushLeftA h cap deny t x q = (pushLeft h t x q).map (·, false) := by
  unfold pushLeftA pushLeft
  by_cases hc : x.mid ≠ x.a
  · rw [if_pos hc, if_pos hc]
    cases t with
    | none => rfl
    | some t =>
      rw [bind_pure_some, bind_pure_some]
      cases subU x.mid 1 with
      | none => rfl
      | some m1 =>
        rw [bind_pure_some, bind_pure_some]
        cases elemFor t x.a m1 with
        | none => rfl
        | some y => rw [bind_pure_some, bind_pure_some]; exact pushA_ok h cap deny q y (by omega)
  · rw [if_neg hc, if_neg hc]; rfl

theorem pushRightA_eq (h : HeapOps (QElem α)) (cap : Nat) (deny : Bool) (t : Option (TopK α)) (x : QElem α) (q : List (QElem α)) (hq : ¬ (cap < q.length + 1 ∧ deny = true)) :
    pushRightA h cap deny t x q = (pushRight h t x q).map (·, false) := by
  unfold pushRightA pushRight
  by_cases hc : x.mid ≠ x.b
  · rw [if_pos hc, if_pos hc]
    cases t with
    | none => rfl
    | some t =>
      rw [bind_pure_some, bind_pure_some]
      cases elemFor t (x.mid + 1) x.b with
      | none => rfl
      | some y => rw [bind_pure_some, bind_pure_some]; exact pushA_ok h cap deny q y hq
  · rw [if_neg hc, if_neg hc]; rfl

/-- one call: as without exceptions, or the right part is lost -/
theorem nextA_some (ho : TotalOrder o.lt o.eq) {h : HeapOps (QElem α)} (hh : h.Valid (viComp o)) {v : List α} {e : TopKEnum α} {rem : List (α × Nat)}
    (hi : Inv o v e rem) (hne : rem ≠ []) (spare : Nat) (deny : Bool) :
    ∃ x e', e'.cur = some x ∧ ((∃ rem', nextA h spare deny e = some (e', false, true) ∧ rem.Perm (x :: rem') ∧ (∀ y ∈ rem', Before o.lt x y) ∧ Inv o v e' rem') ∨
      (∃ rem' c, nextA h spare deny e = some (e', true, false) ∧ rem.Perm (x :: (rem' ++ entries v (x.2 + 1) c)) ∧ x.2 < c ∧ c < v.length ∧
        (∀ y ∈ rem' ++ entries v (x.2 + 1) c, Before o.lt x y) ∧ Inv o v e' rem' ∧ spare = 0 ∧ deny = true)) := by
  cases hq : e.q with
  | nil =>
    have := hi.perm; rw [hq] at this; simp at this; exact absurd this hne
  | cons x q =>
    have hnext := next_some ho hh hi hne
    obtain ⟨y, rem0, e0, n1, n2, n3, n4, n5, _⟩ := hnext
    have n1' := n1
    unfold next at n1'
    rw [if_neg (by rw [hq]; simp), hq] at n1'
    unfold nextA
    rw [if_neg (by rw [hq]; simp), hq]
    obtain ⟨t, ht, hb⟩ := hi.tv (by rw [hq]; simp)
    have hheap := hi.heap
    rw [hq] at hheap
    obtain ⟨q1, p1, hh1, pp1⟩ := hh.pop x q hheap
    rw [p1, bind_pure_some, List.getLast?_concat, bind_pure_some, List.dropLast_concat] at n1' ⊢
    have hl1 := pp1.length_eq
    have hx := hi.ok x (by rw [hq]; simp)
    have hok1 : ∀ y ∈ q1, ElemOK o v y := fun y hy => hi.ok y (by rw [hq]; exact List.mem_cons_of_mem _ (pp1.mem_iff.1 hy))
    rw [pushLeftA_eq h _ deny e.topkv x q1 (by rw [List.length_cons]; omega)]
    obtain ⟨q2, p2, hh2, hok2, len2, perm2⟩ : ∃ q2, pushLeft h e.topkv x q1 = some q2 ∧ IsHeap (viComp o) q2 ∧ (∀ y ∈ q2, ElemOK o v y) ∧
        q2.length ≤ q1.length + 1 ∧ (q2.flatMap fun x => entries v x.a x.b).Perm ((if x.mid ≠ x.a then entries v x.a (x.mid-1) else []) ++ q1.flatMap fun x => entries v x.a x.b) := by
      unfold pushLeft
      by_cases hc : x.mid ≠ x.a
      · rw [if_pos hc, if_pos hc, ht, bind_pure_some]
        have := hx.am; have := hx.mb; have := hx.bv
        rw [subU_eq _ _ (by omega), bind_pure_some]
        obtain ⟨y, ey, oky, ya, yb⟩ := elemFor_spec ho hb x.a (x.mid-1) (by omega) (by omega)
        rw [ey, bind_pure_some]
        obtain ⟨q2, e2, hh2, pp2⟩ := hh.push q1 y hh1
        refine ⟨q2, e2, hh2, fun w hw => ?_, by rw [pp2.length_eq]; simp, ?_⟩
        · rcases List.mem_append.1 (pp2.mem_iff.1 hw) with g | g
          · exact hok1 w g
          · rw [List.mem_singleton.1 g]; exact oky
        · refine (pp2.flatMap_right _).trans ?_
          rw [List.flatMap_append, List.flatMap_singleton, ya, yb]
          exact List.perm_append_comm
      · rw [if_neg hc, if_neg hc]
        exact ⟨q1, rfl, hh1, hok1, by omega, List.Perm.refl _⟩
    rw [p2, bind_pure_some] at n1'
    rw [p2, Option.map_some, bind_pure_some]
    simp only [Bool.false_eq_true, if_false]
    by_cases hthrow : (x :: q).length + spare < q2.length + 1 ∧ deny = true ∧ x.mid ≠ x.b
    · obtain ⟨t1, t2, t3⟩ := hthrow
      rw [List.length_cons] at t1
      have := hx.am; have := hx.mb; have := hx.bv
      obtain ⟨y', ey, _⟩ := elemFor_spec ho hb (x.mid+1) x.b (by omega) (by omega)
      have hr : pushRightA h ((x :: q).length + spare) deny e.topkv x q2 = some (q2, true) := by
        unfold pushRightA pushA
        rw [if_pos t3, ht, bind_pure_some, ey, bind_pure_some, if_pos ⟨by rw [List.length_cons]; omega, t2⟩]
      rw [hr, bind_pure_some]
      have hsplit := entries_split v x.a x.mid x.b hx.am hx.mb x.val hx.val
      rw [if_pos t3] at hsplit
      have hperm : rem.Perm ((x.val, x.mid) :: ((q2.flatMap fun x => entries v x.a x.b) ++ entries v (x.mid + 1) x.b)) := by
        have h1 := hi.perm
        rw [hq, List.flatMap_cons] at h1
        refine h1.symm.trans ((hsplit.append_right _).trans ?_)
        rw [List.cons_append]
        refine List.Perm.cons _ ?_
        refine List.Perm.trans ?_ (List.Perm.append_right _ perm2.symm)
        rw [List.append_assoc, List.append_assoc]
        refine List.Perm.append_left _ ?_
        refine List.Perm.trans List.perm_append_comm ?_
        exact List.Perm.append_right _ (pp1.flatMap_right _).symm
      have hcur : y = (x.val, x.mid) := by
        obtain ⟨_, _, n6⟩ := Option.bind_eq_some_iff.1 n1'
        cases n6
        exact (Option.some.inj n2).symm
      subst hcur
      have hnd := (hperm.map (·.2)).nodup_iff.1 hi.nodup
      rw [List.map_cons, List.nodup_cons, List.map_append, List.nodup_append] at hnd
      refine ⟨(x.val, x.mid), _, rfl, Or.inr ⟨_, x.b, rfl, hperm, by simp only []; omega, hx.bv, fun z hz => ?_,
        ⟨fun _ => ⟨t, ht, hb⟩, hh2, hok2, List.Perm.refl _, hnd.2.1⟩, by omega, t2⟩⟩
      exact n4 z ((List.Perm.cons_inv (n3.symm.trans hperm)).mem_iff.2 hz)
    · have hno : pushRightA h ((x :: q).length + spare) deny e.topkv x q2 = (pushRight h e.topkv x q2).map (·, false) := by
        by_cases hm : x.mid ≠ x.b
        · exact pushRightA_eq h _ deny e.topkv x q2 (fun hc => hthrow ⟨hc.1, hc.2, hm⟩)
        · unfold pushRightA pushRight; rw [if_neg hm, if_neg hm]; rfl
      obtain ⟨q3, n6, n7⟩ := Option.bind_eq_some_iff.1 n1'
      cases n7
      rw [hno, n6, Option.map_some, bind_pure_some]
      exact ⟨y, _, n2, Or.inl ⟨rem0, rfl, n3, n4, n5⟩⟩

theorem nextsA_drained (ho : TotalOrder o.lt o.eq) {h : HeapOps (QElem α)} (hh : h.Valid (viComp o)) {v : List α} (env : List (Nat × Bool)) :
    ∀ (e : TopKEnum α) (s : List (α × Nat)), Inv o v e s → s.Pairwise (Before o.lt) → ∃ outs, nextsA h env e = some outs ∧ Drained s outs ∧
      outs.length = env.length ∧ ∀ i : Nat, (∃ x, outs[i]? = some (true, x)) → env[i]? = some (0, true) := by
  induction env with
  | nil => exact fun e s _ _ => ⟨[], rfl, .nil, rfl, fun i ⟨x, hx⟩ => by simp at hx⟩
  | cons c env ih =>
    obtain ⟨spare, deny⟩ := c
    intro e s hi hs
    unfold nextsA
    cases s with
    | nil =>
      have hn : nextA h spare deny e = some (e, false, false) := by unfold nextA; rw [if_pos hi.empty]
      obtain ⟨outs, h1, h2, h3, h4⟩ := ih e [] hi List.Pairwise.nil
      rw [hn, bind_pure_some]
      simp only []
      rw [h1, bind_pure_some]
      refine ⟨_, rfl, .done h2, by simp [h3], fun i hx => ?_⟩
      cases i with
      | zero => simp at hx
      | succ i => simpa using h4 i (by simpa using hx)
    | cons z s =>
      obtain ⟨x, e', hcur, hc | hc⟩ := nextA_some ho hh hi (by simp) spare deny
      · obtain ⟨rem', n1, n2, n3, n4⟩ := hc
        have hz : z = x := by
          rcases List.mem_cons.1 (n2.mem_iff.1 (List.mem_cons_self ..)) with g | g
          · exact g
          · rcases List.mem_cons.1 (n2.mem_iff.2 (List.mem_cons_self ..)) with g' | g'
            · exact g'.symm
            · exact absurd (List.rel_of_pairwise_cons hs g') (Before.asymm ho.weak (n3 z g))
        subst hz
        have hp := List.Perm.cons_inv n2
        obtain ⟨outs, h1, h2, h3, h4⟩ := ih e' s ⟨n4.tv, n4.heap, n4.ok, n4.perm.trans hp.symm, ((hp.map (·.2)).nodup_iff).2 n4.nodup⟩ (List.Pairwise.of_cons hs)
        rw [n1, bind_pure_some]
        simp only []
        rw [h1, bind_pure_some]
        refine ⟨_, rfl, by simp only [Bool.false_or, if_true, hcur]; exact .next h2, by simp [h3], fun i hx => ?_⟩
        cases i with
        | zero => simp at hx
        | succ i => simpa using h4 i (by simpa using hx)
      · obtain ⟨rem', c, n1, n2, n3, n3', n4, n5, n6, n7⟩ := hc
        have hz : z = x := by
          rcases List.mem_cons.1 (n2.mem_iff.1 (List.mem_cons_self ..)) with g | g
          · exact g
          · rcases List.mem_cons.1 (n2.mem_iff.2 (List.mem_cons_self ..)) with g' | g'
            · exact g'.symm
            · exact absurd (List.rel_of_pairwise_cons hs g') (Before.asymm ho.weak (n4 z g))
        subst hz
        have hp := List.Perm.cons_inv n2
        have hnd := hi.nodup
        rw [List.map_cons, List.nodup_cons] at hnd
        have hnd2 := ((hp.map (·.2)).nodup_iff).1 hnd.2
        rw [List.map_append, List.nodup_append] at hnd2
        have hf : (s.filter fun y => !(decide (z.2 < y.2) && decide (y.2 ≤ c))).Perm rem' := by
          refine (hp.filter _).trans ?_
          rw [List.filter_append, List.filter_eq_self.2, List.filter_eq_nil_iff.2, List.append_nil]
          · intro y hy
            obtain ⟨y1, y2, _⟩ := mem_entries.1 hy
            simp [y2]; omega
          · intro y hy
            by_contra hcon
            have hin : z.2 < y.2 ∧ y.2 ≤ c := by simpa using hcon
            have hlt : y.2 < v.length := by omega
            refine hnd2.2.2 y.2 (List.mem_map.2 ⟨y, hy, rfl⟩) y.2 (List.mem_map.2 ⟨(v[y.2], y.2), mem_entries.2 ⟨by simp only []; omega, hin.2, List.getElem?_eq_getElem hlt⟩, rfl⟩) rfl
        obtain ⟨outs, h1, h2, h3, h4⟩ := ih e' _ ⟨n5.tv, n5.heap, n5.ok, n5.perm.trans hf.symm, ((hf.map (·.2)).nodup_iff).2 n5.nodup⟩ ((List.Pairwise.of_cons hs).filter _)
        rw [n1, bind_pure_some]
        simp only []
        rw [h1, bind_pure_some]
        refine ⟨_, rfl, ?_, by simp [h3], fun i hx => ?_⟩
        · simp only [Bool.true_or, if_true, hcur]
          refine .lost c n3 (fun i i1 i2 => ?_) h2
          have hlt : i < v.length := by omega
          exact ⟨(v[i], i), hp.mem_iff.2 (List.mem_append_right _ (mem_entries.2 ⟨by simp only []; omega, i2, List.getElem?_eq_getElem hlt⟩)), rfl⟩
        · cases i with
          | zero => simp [n6, n7]
          | succ i => simpa using h4 i (by simpa using hx)

end TopKEnum

/-- **C97.**  An enumerator of the range `[a, b]`, with `next()` called any number of times; at each call `m_q` has room for `spare` more elements, and memory may have run out (`deny`).
Only a call without room and without memory throws.  Whoever catches the exception and goes on gets distinct entries of the range in ranking order, the call that throws
included, but those of an interval of indices just behind the entry of that call are lost. -/
theorem C97_topk {α : Type} (o : Ops α) (ho : TotalOrder o.lt o.eq) (h : HeapOps (QElem α)) (hh : h.Valid (viComp o)) (v : List α) (hv : v.length < 2^30 - 1) :
    ∃ t, TopK.build o v = some t ∧ ∀ a b e0 env, a ≤ b → b < v.length → ∃ e s outs, t.getEnumerator a b e0 = some e ∧ IsRanking o.lt v a b s ∧
      e.nextsA h env = some outs ∧ Drained s outs ∧ outs.length = env.length ∧ ∀ i : Nat, (∃ x, outs[i]? = some (true, x)) → env[i]? = some (0, true) := by
  obtain ⟨t, e, hb⟩ := TopK.build_built o ho v hv
  refine ⟨t, e, fun a b e0 env hab hbv => ?_⟩
  obtain ⟨en, e1, hi⟩ := TopKEnum.set_inv ho hb e0 a b hab hbv
  obtain ⟨s, s1, s2, _, _⟩ := TopKEnum.deliver ho hh _ en _ rfl hi
  have hi' : TopKEnum.Inv o v en s := ⟨hi.tv, hi.heap, hi.ok, hi.perm.trans s1.symm, ((s1.map (·.2)).nodup_iff).2 hi.nodup⟩
  obtain ⟨outs, h1, h2, h3, h4⟩ := TopKEnum.nextsA_drained ho hh env en s hi' s2
  exact ⟨en, s, outs, e1, ⟨s1, s2⟩, h1, h2, h3, h4⟩

/-- of 1, 3, 2 the greatest is found, but the call throws: the 2 behind it is never delivered -/
example : (TopK.build natOps [1, 3, 2] >>= fun t => t.getEnumerator 0 2 TopKEnum.new >>= fun e => e.nextsA (sortHeap (viComp natOps)) [(0, true), (0, true), (5, true)]) =
    some [(true, some (3, 1)), (false, some (1, 0)), (false, none)] := by decide +kernel

/-- with room for one more element nothing is lost -/
example : (TopK.build natOps [1, 3, 2] >>= fun t => t.getEnumerator 0 2 TopKEnum.new >>= fun e => e.nextsA (sortHeap (viComp natOps)) [(1, true), (0, true), (0, true)]) =
    some [(false, some (3, 1)), (false, some (2, 2)), (false, some (1, 0))] := by decide +kernel

example : Drained [(3, 1), (2, 2), (1, 0)] [(true, some (3, 1)), (false, some (1, 0)), (false, none)] :=
  .lost 2 (by decide) (fun i h1 h2 => ⟨(2, 2), by simp, by simp only [] at h1 ⊢; omega⟩) (.next (.done .nil))

end Succinct
