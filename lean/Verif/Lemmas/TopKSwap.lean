import Verif.Model.TopKSwap
import Verif.Spec.TopKSwap
import Verif.Spec.FanoSwap
import Verif.Lemmas.TopK
import Verif.Lemmas.Life

/-! # The top-k enumerator while objects are swapped -/
namespace Succinct
open Spec
open RSBitVector (bind_pure_some)

namespace TopKSwap
open TopKEnum
variable {α : Type} {o : Ops α}

/-- a queue element as the specification sees it -/
def pend (x : QElem α) : Pending α := ⟨x.val, x.mid, x.a, x.b⟩

/-- the positions a queue element stands for -/
def span (x : QElem α) : List Nat := List.range' x.a (x.b + 1 - x.a)

theorem mem_span (x : QElem α) (p : Nat) : p ∈ span x ↔ x.a ≤ p ∧ p ≤ x.b := by
  unfold span
  rw [List.mem_range'_1]; omega

theorem first_of_ok {c : List α} {x : QElem α} (h : ElemOK o c x) : First o.lt c x.a x.b (pend x) :=
  ⟨rfl, rfl, h.mem, h.best⟩

theorem span_split (x : QElem α) (h1 : x.a ≤ x.mid) (h2 : x.mid ≤ x.b) :
    span x = List.range' x.a (x.mid - x.a) ++ x.mid :: List.range' (x.mid + 1) (x.b - x.mid) := by
  unfold span
  have h3 := List.range'_append_1 (s := x.a) (m := x.mid - x.a) (n := x.b - x.mid + 1)
  rw [show x.mid - x.a + (x.b - x.mid + 1) = x.b + 1 - x.a by omega, show x.a + (x.mid - x.a) = x.mid by omega] at h3
  rw [← h3, List.range'_succ]

/-- the enumerator on the queue `q` -/
structure Inv (o : Ops α) (hi : Nat) (q : List (QElem α)) : Prop where
  heap : IsHeap (viComp o) q
  ok : ∀ x ∈ q, x.a ≤ x.mid ∧ x.mid ≤ x.b ∧ x.b ≤ hi
  nodup : (q.flatMap span).Nodup

/-- one call on a queue that is not empty -/
theorem next_pick (ho : TotalOrder o.lt o.eq) {h : HeapOps (QElem α)} (hh : h.Valid (viComp o)) {w : List α} {t : TopK α} (hb : Built o w t)
    (hi : Nat) (hw : hi < w.length) (e : TopKEnum α) (ht : e.topkv = some t) (hinv : Inv o hi e.q) (hne : e.q ≠ []) :
    ∃ x rest new q', e.q.Perm (x :: rest) ∧ (∀ r ∈ rest, Before o.lt (x.val, x.mid) (r.val, r.mid)) ∧ Split o.lt w (pend x) (new.map pend) ∧
      q'.Perm (new ++ rest) ∧ next h e = some (true, ⟨some t, q', some (x.val, x.mid)⟩) ∧ Inv o hi q' := by
  cases hq : e.q with
  | nil => exact absurd hq hne
  | cons x q =>
    rw [hq] at hinv
    obtain ⟨q1, p1, hh1, pp1⟩ := hh.pop x q hinv.heap
    obtain ⟨xa, xb, xh⟩ := hinv.ok x (by simp)
    obtain ⟨l, q2, p2, hh2, pp2, hl, okl, spl⟩ : ∃ l q2, pushLeft h (some t) x q1 = some q2 ∧ IsHeap (viComp o) q2 ∧ q2.Perm (l ++ q1) ∧
        ((x.mid = x.a ∧ l.map pend = []) ∨ (x.mid ≠ x.a ∧ ∃ p, l.map pend = [p] ∧ First o.lt w x.a (x.mid - 1) p)) ∧
        (∀ y ∈ l, y.a ≤ y.mid ∧ y.mid ≤ y.b ∧ y.b ≤ hi) ∧ l.flatMap span = List.range' x.a (x.mid - x.a) := by
      unfold pushLeft
      by_cases hc : x.mid ≠ x.a
      · rw [if_pos hc, bind_pure_some, subU_eq _ _ (by omega), bind_pure_some]
        obtain ⟨y, ey, oky, ya, yb⟩ := elemFor_spec ho hb x.a (x.mid-1) (by omega) (by omega)
        rw [ey, bind_pure_some]
        obtain ⟨q2, e2, hh2, pp2⟩ := hh.push q1 y hh1
        refine ⟨[y], q2, e2, hh2, pp2.trans List.perm_append_comm, Or.inr ⟨hc, _, rfl, ?_⟩, ?_, ?_⟩
        · have := first_of_ok oky
          rw [ya, yb] at this
          exact this
        · intro z hz
          rw [List.mem_singleton.1 hz]
          exact ⟨oky.am, oky.mb, by omega⟩
        · rw [List.flatMap_singleton]
          unfold span
          rw [ya, yb, show x.mid - 1 + 1 - x.a = x.mid - x.a by omega]
      · rw [if_neg hc]
        refine ⟨[], q1, rfl, hh1, List.Perm.refl _, Or.inl ⟨by omega, rfl⟩, fun y hy => (by cases hy), ?_⟩
        rw [show x.mid - x.a = 0 by omega]; rfl
    obtain ⟨r, q3, p3, hh3, pp3, hr, okr, spr⟩ : ∃ r q3, pushRight h (some t) x q2 = some q3 ∧ IsHeap (viComp o) q3 ∧ q3.Perm (r ++ q2) ∧
        ((x.mid = x.b ∧ r.map pend = []) ∨ (x.mid ≠ x.b ∧ ∃ p, r.map pend = [p] ∧ First o.lt w (x.mid + 1) x.b p)) ∧
        (∀ y ∈ r, y.a ≤ y.mid ∧ y.mid ≤ y.b ∧ y.b ≤ hi) ∧ r.flatMap span = List.range' (x.mid + 1) (x.b - x.mid) := by
      unfold pushRight
      by_cases hc : x.mid ≠ x.b
      · rw [if_pos hc, bind_pure_some]
        obtain ⟨y, ey, oky, ya, yb⟩ := elemFor_spec ho hb (x.mid+1) x.b (by omega) (by omega)
        rw [ey, bind_pure_some]
        obtain ⟨q3, e3, hh3, pp3⟩ := hh.push q2 y hh2
        refine ⟨[y], q3, e3, hh3, pp3.trans List.perm_append_comm, Or.inr ⟨hc, _, rfl, ?_⟩, ?_, ?_⟩
        · have := first_of_ok oky
          rw [ya, yb] at this
          exact this
        · intro z hz
          rw [List.mem_singleton.1 hz]
          exact ⟨oky.am, oky.mb, by omega⟩
        · rw [List.flatMap_singleton]
          unfold span
          rw [ya, yb, show x.b + 1 - (x.mid + 1) = x.b - x.mid by omega]
      · rw [if_neg hc]
        refine ⟨[], q2, rfl, hh2, List.Perm.refl _, Or.inl ⟨by omega, rfl⟩, fun y hy => (by cases hy), ?_⟩
        rw [show x.b - x.mid = 0 by omega]; rfl
    have hperm : q3.Perm ((l ++ r) ++ q) := by
      refine pp3.trans ((List.Perm.append_left r (pp2.trans (List.Perm.append_left l pp1))).trans ?_)
      rw [← List.append_assoc]
      exact List.Perm.append_right q List.perm_append_comm
    have hnd : (x.mid :: q3.flatMap span).Nodup := by
      have h1 := hinv.nodup
      rw [List.flatMap_cons, span_split x xa xb] at h1
      refine (List.Perm.nodup_iff ?_).1 h1
      refine List.Perm.trans ?_ (List.Perm.cons _ (hperm.flatMap_right span).symm)
      rw [List.flatMap_append, List.flatMap_append, spl, spr]
      exact List.Perm.append_right _ List.perm_middle
    refine ⟨x, q, l ++ r, q3, List.Perm.refl _, ?_, ?_, hperm, ?_, hh3, ?_, (List.nodup_cons.1 hnd).2⟩
    · intro y hy
      have hroot := hinv.heap.root (viComp_neg ho) (viComp_irrefl ho) y (List.mem_cons_of_mem _ hy)
      have hnb : ¬ Before o.lt (y.val, y.mid) (x.val, x.mid) := by rw [← viComp_iff ho, hroot]; simp
      have hne : x.mid ≠ y.mid := by
        intro hc
        obtain ⟨ya, yb, _⟩ := hinv.ok y (List.mem_cons_of_mem _ hy)
        have h1 := hinv.nodup
        rw [List.flatMap_cons, List.nodup_append] at h1
        exact h1.2.2 x.mid ((mem_span x _).2 ⟨xa, xb⟩) y.mid (List.mem_flatMap.2 ⟨y, hy, (mem_span y _).2 ⟨ya, yb⟩⟩) hc
      exact (Before.total (lt := o.lt) (p := (x.val, x.mid)) (q := (y.val, y.mid)) hne).resolve_right hnb
    · exact ⟨l.map pend, r.map pend, List.map_append .., hl, hr⟩
    · unfold next
      rw [if_neg hne, hq, p1, bind_pure_some, List.getLast?_concat, bind_pure_some, List.dropLast_concat, ht, p2, bind_pure_some, p3, bind_pure_some]
      rfl
    · intro y hy
      rcases List.mem_append.1 (hperm.mem_iff.1 hy) with g | g
      · rcases List.mem_append.1 g with g | g
        · exact okl y g
        · exact okr y g
      · exact hinv.ok y (List.mem_cons_of_mem _ g)

theorem swap_eq (s : Objs (TopK α)) (x y : Nat) : TopK.swap .whole s x y = swapped s x y := by
  rw [TopK.swap_eq Field.whole_ok, stdSwap_whole]
  rfl

theorem _root_.Succinct.Spec.PickMix.perm {lt : α → α → Bool} {i : Nat} {a : Nat → List α} {bag : List (Pending α)} {ops : List SeqOp} {outs : List (Option (α × Nat))}
    (h : PickMix lt i a bag ops outs) : ∀ bag', bag'.Perm bag → PickMix lt i a bag' ops outs := by
  induction h with
  | nil => intro _ _; exact .nil
  | swap _ ih => intro b hb; exact .swap (ih b hb)
  | done h _ => intro b hb; rw [List.perm_nil.1 hb]; exact .done h
  | pick h1 h2 h3 h4 _ => intro b hb; exact .pick (hb.trans h1) h2 h3 h4

theorem run_mix (ho : TotalOrder o.lt o.eq) {h : HeapOps (QElem α)} (hh : h.Valid (viComp o)) (i hi : Nat) :
    ∀ (ops : List SeqOp) (s : Objs (TopK α)) (a : Nat → List α) (e : TopKEnum α), (∀ j, Built o (a j) (s j) ∧ hi < (a j).length) →
      (∃ t, e.topkv = some t) → Inv o hi e.q → ∃ outs, run h i s e ops = some outs ∧ PickMix o.lt i a (e.q.map pend) ops outs
  | [], s, a, e, _, _, _ => ⟨[], rfl, .nil⟩
  | .swap x y :: ops, s, a, e, hs, ht, he => by
    obtain ⟨outs, o1, o2⟩ := run_mix ho hh i hi ops (TopK.swap .whole s x y) (swapped a x y) e (fun j => by
      rw [swap_eq]
      unfold swapped
      split
      · exact hs y
      · split
        · exact hs x
        · exact hs j) ht he
    exact ⟨outs, by unfold run; exact o1, .swap o2⟩
  | .next :: ops, s, a, e, hs, ⟨t, ht⟩, he => by
    by_cases hq : e.q = []
    · obtain ⟨outs, o1, o2⟩ := run_mix ho hh i hi ops s a { e with topkv := e.topkv.map fun _ => s i } hs ⟨s i, by rw [ht]; rfl⟩ he
      refine ⟨none :: outs, ?_, ?_⟩
      · unfold run next
        rw [if_pos hq, bind_pure_some]
        simp only [Bool.false_eq_true, if_false]
        rw [o1, bind_pure_some]; rfl
      · rw [hq]
        rw [show ({ e with topkv := e.topkv.map fun _ => s i } : TopKEnum α).q = [] from hq] at o2
        exact .done o2
    · obtain ⟨x, rest, new, q', h1, h2, h3, h4, h5, h6⟩ := next_pick ho hh (hs i).1 hi (hs i).2 { e with topkv := e.topkv.map fun _ => s i }
        (by rw [ht]; rfl) he hq
      obtain ⟨outs, o1, o2⟩ := run_mix ho hh i hi ops s a ⟨some (s i), q', some (x.val, x.mid)⟩ hs ⟨s i, rfl⟩ h6
      refine ⟨some (x.val, x.mid) :: outs, ?_, ?_⟩
      · unfold run
        rw [h5, bind_pure_some]
        simp only [if_true]
        rw [bind_pure_some, o1, bind_pure_some]; rfl
      · refine .pick (p := pend x) (rest := rest.map pend) (h1.map pend) ?_ h3 ?_
        · intro r hr
          obtain ⟨y, hy, rfl⟩ := List.mem_map.1 hr
          exact h2 y hy
        · refine PickMix.perm o2 _ ?_
          rw [← List.map_append]
          exact (h4.map pend).symm

theorem _root_.Succinct.Spec.First.unique (ho : TotalOrder o.lt o.eq) {c : List α} {lo hi : Nat} {p q : Pending α} (hp : First o.lt c lo hi p) (hq : First o.lt c lo hi q) :
    p = q := by
  obtain ⟨p1, p2, p3, p4⟩ := hp
  obtain ⟨q1, q2, q3, q4⟩ := hq
  have hi : p.idx = q.idx := by
    by_cases h : p.idx = q.idx
    · exact h
    · exact absurd (q4 _ p3 h) (Before.asymm ho.weak (p4 _ q3 (fun h' => h h'.symm)))
  have hv : p.val = q.val := by
    have h1 := (mem_entries.1 p3).2.2
    have h2 := (mem_entries.1 q3).2.2
    simp only [] at h1 h2
    rw [hi, h2] at h1
    exact (Option.some.inj h1).symm
  cases p; cases q
  simp only [] at p1 p2 q1 q2 hi hv
  rw [p1, p2, q1, q2, hi, hv]

theorem _root_.Succinct.Spec.Split.unique (ho : TotalOrder o.lt o.eq) {c : List α} {p : Pending α} {n n' : List (Pending α)} (h : Split o.lt c p n) (h' : Split o.lt c p n') :
    n = n' := by
  obtain ⟨l, r, rfl, hl, hr⟩ := h
  obtain ⟨l', r', rfl, hl', hr'⟩ := h'
  congr 1
  · rcases hl with ⟨g, rfl⟩ | ⟨g, q, rfl, hq⟩ <;> rcases hl' with ⟨g', rfl⟩ | ⟨g', q', rfl, hq'⟩
    · rfl
    · exact absurd g g'
    · exact absurd g' g
    · rw [First.unique ho hq hq']
  · rcases hr with ⟨g, rfl⟩ | ⟨g, q, rfl, hq⟩ <;> rcases hr' with ⟨g', rfl⟩ | ⟨g', q', rfl, hq'⟩
    · rfl
    · exact absurd g g'
    · exact absurd g' g
    · rw [First.unique ho hq hq']

theorem _root_.Succinct.Spec.PickMix.unique (ho : TotalOrder o.lt o.eq) {i : Nat} {a : Nat → List α} {bag : List (Pending α)} {ops : List SeqOp} {outs : List (Option (α × Nat))}
    (h : PickMix o.lt i a bag ops outs) : ∀ bag' outs', bag'.Perm bag → PickMix o.lt i a bag' ops outs' → outs' = outs := by
  induction h with
  | nil => intro b outs' _ h'; cases h'; rfl
  | swap _ ih => intro b outs' hb h'; cases h' with | swap h' => exact ih _ _ hb h'
  | done _ ih =>
    intro b outs' hb h'
    rw [List.perm_nil.1 hb] at h'
    cases h' with
    | done h' => rw [ih _ _ (List.Perm.refl _) h']
    | pick h1 => exact absurd h1.length_eq (by simp)
  | @pick a bag p rest new ops outs h1 h2 h3 h4 ih =>
    intro b outs' hb h'
    cases h' with
    | done h' => exact absurd (hb.trans h1).length_eq (by simp)
    | @pick _ _ p' rest' new' _ outs2 g1 g2 g3 g4 =>
      have hperm : (p' :: rest').Perm (p :: rest) := g1.symm.trans (hb.trans h1)
      have hpp : p' = p := by
        rcases List.mem_cons.1 (hperm.mem_iff.1 (List.mem_cons_self ..)) with e | e
        · exact e
        · rcases List.mem_cons.1 (hperm.mem_iff.2 (List.mem_cons_self ..)) with e' | e'
          · exact e'.symm
          · exact absurd (g2 _ e') (Before.asymm ho.weak (h2 _ e))
      subst hpp
      have hr : rest'.Perm rest := hperm.cons_inv
      rw [Split.unique ho g3 h3] at g4
      rw [ih _ _ (List.Perm.append_left _ hr) g4]

/-- the positions a pending entry stands for -/
def pspan (p : Pending α) : List Nat := List.range' p.lo (p.hi + 1 - p.lo)

theorem held_head (i : Nat) (ops : List SeqOp) : ∀ a : Nat → List α, a i ∈ heldIn i a ops := by
  induction ops with
  | nil => intro a; exact List.mem_singleton.2 rfl
  | cons op ops ih =>
    intro a
    cases op with
    | next => exact ih a
    | swap x y => exact List.mem_cons_self ..

theorem _root_.Succinct.Spec.First.pspan_eq {lt : α → α → Bool} {c : List α} {lo hi : Nat} {q : Pending α} (h : First lt c lo hi q) :
    pspan q = List.range' lo (hi + 1 - lo) := by
  unfold pspan
  rw [h.1, h.2.1]

theorem _root_.Succinct.Spec.First.facts {lt : α → α → Bool} {c : List α} {lo hi : Nat} {q : Pending α} (h : First lt c lo hi q) :
    (q.lo ≤ q.idx ∧ q.idx ≤ q.hi) ∧ c[q.idx]? = some q.val := by
  obtain ⟨h1, h2, h3, _⟩ := h
  obtain ⟨g1, g2, g3⟩ := mem_entries.1 h3
  exact ⟨⟨by rw [h1]; exact g1, by rw [h2]; exact g2⟩, g3⟩

theorem _root_.Succinct.Spec.Split.facts {lt : α → α → Bool} {c : List α} {p : Pending α} {new : List (Pending α)} (h : Split lt c p new) (hp : p.lo ≤ p.idx ∧ p.idx ≤ p.hi) :
    (pspan p).Perm (p.idx :: new.flatMap pspan) ∧ ∀ q ∈ new, (q.lo ≤ q.idx ∧ q.idx ≤ q.hi) ∧ c[q.idx]? = some q.val := by
  obtain ⟨l, r, rfl, hl, hr⟩ := h
  have sl : l.flatMap pspan = List.range' p.lo (p.idx - p.lo) := by
    rcases hl with ⟨g, rfl⟩ | ⟨g, q, rfl, hq⟩
    · rw [g, Nat.sub_self]; rfl
    · rw [List.flatMap_singleton, hq.pspan_eq, show p.idx - 1 + 1 - p.lo = p.idx - p.lo by omega]
  have sr : r.flatMap pspan = List.range' (p.idx + 1) (p.hi - p.idx) := by
    rcases hr with ⟨g, rfl⟩ | ⟨g, q, rfl, hq⟩
    · rw [g, Nat.sub_self]; rfl
    · rw [List.flatMap_singleton, hq.pspan_eq, show p.hi + 1 - (p.idx + 1) = p.hi - p.idx by omega]
  refine ⟨?_, ?_⟩
  · rw [List.flatMap_append, sl, sr]
    have h3 := span_split (⟨p.val, p.idx, p.lo, p.hi⟩ : QElem α) hp.1 hp.2
    unfold span at h3
    simp only [] at h3
    unfold pspan
    rw [h3]
    exact List.perm_middle
  · intro q hq
    rcases List.mem_append.1 hq with g | g
    · rcases hl with ⟨_, rfl⟩ | ⟨_, q', rfl, hq'⟩
      · cases g
      · rw [List.mem_singleton.1 g]; exact hq'.facts
    · rcases hr with ⟨_, rfl⟩ | ⟨_, q', rfl, hq'⟩
      · cases g
      · rw [List.mem_singleton.1 g]; exact hq'.facts

theorem mix_facts {lt : α → α → Bool} {i : Nat} {H : List (List α)} {a : Nat → List α} {bag : List (Pending α)} {ops : List SeqOp}
    {outs : List (Option (α × Nat))} (h : PickMix lt i a bag ops outs) :
    (bag.flatMap pspan).Nodup → (∀ p ∈ bag, (p.lo ≤ p.idx ∧ p.idx ≤ p.hi) ∧ ∃ c ∈ H, c[p.idx]? = some p.val) → (∀ c ∈ heldIn i a ops, c ∈ H) →
      outs.length = Spec.nexts ops ∧ (outs.filterMap (Option.map Prod.snd)).Nodup ∧
      (∀ x ∈ outs.filterMap (Option.map Prod.snd), x ∈ bag.flatMap pspan) ∧ (∀ e, some e ∈ outs → ∃ c ∈ H, c[e.2]? = some e.1) ∧
      ∀ k : Nat, outs[k]? = some none ↔ (bag.flatMap pspan).length ≤ k ∧ k < Spec.nexts ops := by
  induction h with
  | nil =>
    intro _ _ _
    refine ⟨rfl, List.nodup_nil, fun x hx => (by cases hx), fun e he => (by cases he), fun k => ?_⟩
    simp [Spec.nexts]
  | swap _ ih =>
    intro h1 h2 h3
    obtain ⟨g1, g2, g3, g4, g5⟩ := ih h1 h2 (fun c hc => h3 c (List.mem_cons_of_mem _ hc))
    exact ⟨g1, g2, g3, g4, g5⟩
  | @done a ops outs _ ih =>
    intro h1 h2 h3
    obtain ⟨g1, g2, g3, g4, g5⟩ := ih h1 h2 h3
    have hn : Spec.nexts (.next :: ops) = Spec.nexts ops + 1 := by simp [Spec.nexts]
    refine ⟨by rw [hn, List.length_cons, g1], g2, g3, fun e he => g4 e (by simpa using he), fun k => ?_⟩
    rw [hn]
    cases k with
    | zero => simp
    | succ k =>
      rw [List.getElem?_cons_succ, g5 k]
      simp
  | @pick a bag p rest new ops outs h1 h2 h3 h4 ih =>
    intro n1 n2 n3
    have hp := n2 p (h1.mem_iff.2 (List.mem_cons_self ..))
    obtain ⟨s1, s2⟩ := h3.facts hp.1
    have hperm : (bag.flatMap pspan).Perm (p.idx :: (new ++ rest).flatMap pspan) := by
      refine (h1.flatMap_right pspan).trans ?_
      rw [List.flatMap_cons, List.flatMap_append]
      exact List.Perm.append_right _ s1
    have hnd := (List.Perm.nodup_iff hperm).1 n1
    rw [List.nodup_cons] at hnd
    obtain ⟨g1, g2, g3, g4, g5⟩ := ih hnd.2 (fun q hq => by
      rcases List.mem_append.1 hq with g | g
      · exact ⟨(s2 q g).1, a i, n3 _ (held_head i _ a), (s2 q g).2⟩
      · exact n2 q (h1.mem_iff.2 (List.mem_cons_of_mem _ g))) n3
    have hn : Spec.nexts (.next :: ops) = Spec.nexts ops + 1 := by simp [Spec.nexts]
    have hf : (some (p.val, p.idx) :: outs).filterMap (Option.map Prod.snd) = p.idx :: outs.filterMap (Option.map Prod.snd) := rfl
    refine ⟨by rw [hn, List.length_cons, g1], ?_, ?_, ?_, fun k => ?_⟩
    · rw [hf, List.nodup_cons]
      exact ⟨fun hc => hnd.1 (g3 _ hc), g2⟩
    · intro x hx
      rw [hf] at hx
      rw [hperm.mem_iff]
      rcases List.mem_cons.1 hx with e | e
      · rw [e]; exact List.mem_cons_self ..
      · exact List.mem_cons_of_mem _ (g3 x e)
    · intro e he
      rcases List.mem_cons.1 he with g | g
      · rw [Option.some.inj g]; exact hp.2
      · exact g4 e g
    · rw [hn, hperm.length_eq, List.length_cons]
      cases k with
      | zero => simp
      | succ k =>
        rw [List.getElem?_cons_succ, g5 k]
        omega

theorem next_topkv (h : HeapOps (QElem α)) (e e' : TopKEnum α) (r : Bool) (hn : next h e = some (r, e')) : e'.topkv = e.topkv := by
  unfold next at hn
  split at hn
  · cases hn; rfl
  · simp only [Option.bind_eq_bind, Option.bind_eq_some_iff] at hn
    obtain ⟨_, _, _, _, _, _, _, _, hn⟩ := hn
    cases hn; rfl

theorem set_topkv (t : TopK α) (a b : Nat) (e0 e : TopKEnum α) (hs : t.getEnumerator a b e0 = some e) : e.topkv = some t := by
  unfold TopK.getEnumerator TopKEnum.set at hs
  simp only [Option.bind_eq_bind, Option.bind_eq_some_iff] at hs
  obtain ⟨_, _, _, _, hs⟩ := hs
  cases hs; rfl

theorem run_nexts (h : HeapOps (QElem α)) (i : Nat) (s : Objs (TopK α)) : ∀ (k : Nat) (e : TopKEnum α), e.topkv = some (s i) →
    run h i s e (List.replicate k .next) = TopKEnum.nexts h k e
  | 0, _, _ => rfl
  | k + 1, e, he => by
    have hsame : ({ e with topkv := e.topkv.map fun _ => s i } : TopKEnum α) = e := by
      cases e
      simp only [] at he
      rw [he]; rfl
    rw [List.replicate_succ]
    unfold run TopKEnum.nexts
    rw [hsame]
    cases hn : next h e with
    | none => rfl
    | some z =>
      obtain ⟨r, e'⟩ := z
      rw [bind_pure_some, bind_pure_some]
      simp only []
      rw [run_nexts h i s k e' ((next_topkv h e e' r hn).trans he)]

end TopKSwap
end Succinct
