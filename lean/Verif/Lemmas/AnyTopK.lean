import Verif.Props.AnyComp

/-! The top-k enumerator when nothing is known of the comparisons. -/
namespace Succinct
open Spec
open RSBitVector (bind_pure_some)

/-- `push_heap` and `pop_heap` (`topk_vector.hpp:59,68,74`) return a rearrangement of what they are given, `pop_heap` unless that is empty -/
structure HeapOps.Rearranges {β : Type} (h : HeapOps β) : Prop where
  push : ∀ q, ∃ q', h.pushHeap q = some q' ∧ q'.Perm q
  pop : ∀ q, q ≠ [] → ∃ q', h.popHeap q = some q' ∧ q'.Perm q

namespace AnyTopK
variable {α : Type}

/-- every range query on `t` answers within the range -/
structure Built (v : List α) (t : TopK α) : Prop where
  vec : t.v = v
  rmq : ∀ a b, a ≤ b → b < v.length → ∃ m, t.tree.rmq a b = some m ∧ a ≤ m ∧ m ≤ b

structure ElemOK (v : List α) (x : QElem α) : Prop where
  am : x.a ≤ x.mid
  mb : x.mid ≤ x.b
  bv : x.b < v.length
  val : v[x.mid]? = some x.val

theorem elemFor_spec {v : List α} {t : TopK α} (hb : Built v t) (a b : Nat) (hab : a ≤ b) (hbv : b < v.length) :
    ∃ x, TopKEnum.elemFor t a b = some x ∧ ElemOK v x ∧ x.a = a ∧ x.b = b := by
  obtain ⟨m, e, h1, h2⟩ := hb.rmq a b hab hbv
  have hml : m < v.length := by omega
  unfold TopKEnum.elemFor
  rw [e, bind_pure_some, hb.vec]
  unfold rd
  rw [List.getElem?_eq_getElem hml, bind_pure_some]
  exact ⟨_, rfl, ⟨h1, h2, hbv, List.getElem?_eq_getElem hml⟩, rfl, rfl⟩

/-- the enumerator still has to deliver exactly the entries `rem` -/
structure Inv (v : List α) (e : TopKEnum α) (rem : List (α × Nat)) : Prop where
  tv : e.q ≠ [] → ∃ t, e.topkv = some t ∧ Built v t
  ok : ∀ x ∈ e.q, ElemOK v x
  perm : (e.q.flatMap fun x => entries v x.a x.b).Perm rem

theorem Inv.empty {v : List α} {e : TopKEnum α} (h : Inv v e []) : e.q = [] := by
  cases hq : e.q with
  | nil => rfl
  | cons x q =>
    have hx := h.ok x (by rw [hq]; simp)
    have h1 : (x.val, x.mid) ∈ entries v x.a x.b := TopKEnum.mem_entries.2 ⟨hx.am, hx.mb, hx.val⟩
    have h2 := h.perm.mem_iff (a := (x.val, x.mid))
    rw [hq, List.flatMap_cons, List.mem_append] at h2
    have := h2.1 (Or.inl h1)
    simp at this

theorem next_some {h : HeapOps (QElem α)} (hh : h.Rearranges) {v : List α} {e : TopKEnum α} {rem : List (α × Nat)} (hi : Inv v e rem) (hne : rem ≠ []) :
    ∃ x rem' e', TopKEnum.next h e = some (true, e') ∧ e'.cur = some x ∧ rem.Perm (x :: rem') ∧ Inv v e' rem' := by
  have hqne : e.q ≠ [] := by
    intro hq
    have := hi.perm; rw [hq] at this; simp at this; exact hne this
  unfold TopKEnum.next
  rw [if_neg hqne]
  obtain ⟨t, ht, hb⟩ := hi.tv hqne
  obtain ⟨q0, p1, pp0⟩ := hh.pop e.q hqne
  have hq0 : q0 ≠ [] := by rintro rfl; exact hqne pp0.symm.eq_nil
  obtain ⟨x, hx0⟩ : ∃ x, q0.getLast? = some x := ⟨_, List.getLast?_eq_some_getLast hq0⟩
  obtain ⟨q1, rfl⟩ := List.getLast?_eq_some_iff.1 hx0
  rw [p1, bind_pure_some, List.getLast?_concat, bind_pure_some, List.dropLast_concat]
  have hx := hi.ok x (pp0.mem_iff.1 (by simp))
  have hok1 : ∀ y ∈ q1, ElemOK v y := fun y hy => hi.ok y (pp0.mem_iff.1 (by simp [hy]))
  obtain ⟨q2, p2, hok2, perm2⟩ : ∃ q2, TopKEnum.pushLeft h e.topkv x q1 = some q2 ∧ (∀ y ∈ q2, ElemOK v y) ∧
      (q2.flatMap fun x => entries v x.a x.b).Perm ((if x.mid ≠ x.a then entries v x.a (x.mid-1) else []) ++ q1.flatMap fun x => entries v x.a x.b) := by
    unfold TopKEnum.pushLeft
    by_cases hc : x.mid ≠ x.a
    · rw [if_pos hc, if_pos hc, ht, bind_pure_some]
      have := hx.am; have := hx.mb; have := hx.bv
      rw [subU_eq _ _ (by omega), bind_pure_some]
      obtain ⟨y, ey, oky, ya, yb⟩ := elemFor_spec hb x.a (x.mid-1) (by omega) (by omega)
      rw [ey, bind_pure_some]
      obtain ⟨q2, e2, pp2⟩ := hh.push (q1 ++ [y])
      refine ⟨q2, e2, fun w hw => ?_, ?_⟩
      · rcases List.mem_append.1 (pp2.mem_iff.1 hw) with g | g
        · exact hok1 w g
        · rw [List.mem_singleton.1 g]; exact oky
      · refine (pp2.flatMap_right _).trans ?_
        rw [List.flatMap_append, List.flatMap_singleton, ya, yb]
        exact List.perm_append_comm
    · rw [if_neg hc, if_neg hc]
      exact ⟨q1, rfl, hok1, List.Perm.refl _⟩
  rw [p2, bind_pure_some]
  obtain ⟨q3, p3, hok3, perm3⟩ : ∃ q3, TopKEnum.pushRight h e.topkv x q2 = some q3 ∧ (∀ y ∈ q3, ElemOK v y) ∧
      (q3.flatMap fun x => entries v x.a x.b).Perm ((if x.mid ≠ x.b then entries v (x.mid+1) x.b else []) ++ q2.flatMap fun x => entries v x.a x.b) := by
    unfold TopKEnum.pushRight
    by_cases hc : x.mid ≠ x.b
    · rw [if_pos hc, if_pos hc, ht, bind_pure_some]
      have := hx.am; have := hx.mb; have := hx.bv
      obtain ⟨y, ey, oky, ya, yb⟩ := elemFor_spec hb (x.mid+1) x.b (by omega) (by omega)
      rw [ey, bind_pure_some]
      obtain ⟨q3, e3, pp3⟩ := hh.push (q2 ++ [y])
      refine ⟨q3, e3, fun w hw => ?_, ?_⟩
      · rcases List.mem_append.1 (pp3.mem_iff.1 hw) with g | g
        · exact hok2 w g
        · rw [List.mem_singleton.1 g]; exact oky
      · refine (pp3.flatMap_right _).trans ?_
        rw [List.flatMap_append, List.flatMap_singleton, ya, yb]
        exact List.perm_append_comm
    · rw [if_neg hc, if_neg hc]
      exact ⟨q2, rfl, hok2, List.Perm.refl _⟩
  rw [p3, bind_pure_some]
  have hsplit := TopKEnum.entries_split v x.a x.mid x.b hx.am hx.mb x.val hx.val
  have hperm : rem.Perm ((x.val, x.mid) :: q3.flatMap fun x => entries v x.a x.b) := by
    have h1 := (pp0.flatMap_right fun x : QElem α => entries v x.a x.b).trans hi.perm
    rw [List.flatMap_append, List.flatMap_singleton] at h1
    refine h1.symm.trans (List.perm_append_comm.trans ((hsplit.append_right _).trans ?_))
    rw [List.cons_append]
    refine List.Perm.cons _ ?_
    refine List.Perm.trans ?_ perm3.symm
    refine List.Perm.trans ?_ (List.Perm.append_left _ perm2.symm)
    rw [← List.append_assoc]
    exact List.Perm.append_right _ List.perm_append_comm
  exact ⟨(x.val, x.mid), _, _, rfl, rfl, hperm, ⟨fun _ => ⟨t, ht, hb⟩, hok3, List.Perm.refl _⟩⟩

theorem deliver {h : HeapOps (QElem α)} (hh : h.Rearranges) {v : List α} :
    ∀ (n : Nat) (e : TopKEnum α) (rem : List (α × Nat)), rem.length = n → Inv v e rem →
      ∃ s : List (α × Nat), s.Perm rem ∧ (∀ k, TopKEnum.nexts h k e = some ((List.range k).map fun i => s[i]?)) ∧
        ∀ k acc, k ≤ n → ∃ e' rem', TopK.topkLoop h k e acc = some (acc ++ s.take k, e') ∧ Inv v e' rem' ∧ rem'.length = n - k := by
  intro n
  induction n with
  | zero =>
    intro e rem hr hi
    have : rem = [] := List.length_eq_zero_iff.1 hr
    subst this
    refine ⟨[], List.Perm.refl _, fun k => ?_, fun k acc hk => ?_⟩
    · induction k with
      | zero => rfl
      | succ k ih =>
        unfold TopKEnum.nexts TopKEnum.next
        rw [if_pos hi.empty, bind_pure_some]
        simp only [Bool.false_eq_true, if_false]
        rw [ih, bind_pure_some, List.range_succ_eq_map]
        simp [Function.comp_def]
    · have : k = 0 := by omega
      subst this
      exact ⟨e, [], by simp [TopK.topkLoop], hi, rfl⟩
  | succ n ih =>
    intro e rem hr hi
    obtain ⟨x, rem', e', h1, h2, h3, h5⟩ := next_some hh hi (by intro hc; rw [hc] at hr; simp at hr)
    have hl := h3.length_eq
    rw [List.length_cons] at hl
    obtain ⟨s, s1, s3, s4⟩ := ih e' rem' (by omega) h5
    refine ⟨x :: s, (List.Perm.cons x s1).trans h3.symm, fun k => ?_, fun k acc hk => ?_⟩
    · cases k with
      | zero => rfl
      | succ k =>
        unfold TopKEnum.nexts
        rw [h1, bind_pure_some]
        simp only [if_true]
        rw [h2, bind_pure_some, s3, bind_pure_some, List.range_succ_eq_map]
        simp
    · cases k with
      | zero => exact ⟨e, rem, by simp [TopK.topkLoop], hi, by omega⟩
      | succ k =>
        obtain ⟨e2, rem2, g1, g2, g3⟩ := s4 k (acc ++ [x]) (by omega)
        refine ⟨e2, rem2, ?_, g2, by omega⟩
        unfold TopK.topkLoop
        rw [h1, bind_pure_some]
        simp only []
        rw [assertP_eq _ trivial, bind_pure_some, h2, bind_pure_some, g1]
        simp

theorem set_inv {v : List α} {t : TopK α} (hb : Built v t) (e : TopKEnum α) (a b : Nat) (hab : a ≤ b) (hbv : b < v.length) :
    ∃ e', TopKEnum.set e t a b = some e' ∧ Inv v e' (entries v a b) := by
  obtain ⟨x, ex, okx, xa, xb⟩ := elemFor_spec hb a b hab hbv
  unfold TopKEnum.set
  rw [assertP_eq _ hab, bind_pure_some, ex, bind_pure_some]
  refine ⟨_, rfl, ⟨fun _ => ⟨t, rfl, hb⟩, ?_, ?_⟩⟩
  · intro y hy
    simp [TopKEnum.clear] at hy; rw [hy]; exact okx
  · simp [TopKEnum.clear, xa, xb]

end AnyTopK
end Succinct
