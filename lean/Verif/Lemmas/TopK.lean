import Verif.Model.TopK
import Verif.Lemmas.CartesianRmq

/-! The top-k enumerator. -/
namespace Succinct
open Spec
open RSBitVector (bind_pure_some)

section order
variable {α : Type} {lt : α → α → Bool}

theorem Spec.StrictWeak.converse (h : StrictWeak lt) : StrictWeak (fun x y => lt y x) where
  irrefl := h.irrefl
  trans := fun a b c h1 h2 => h.trans c b a h2 h1
  incomp := fun a b c h1 h2 h3 h4 => (h.incomp a b c h2 h1 h4 h3).symm

theorem Spec.StrictWeak.asymm (h : StrictWeak lt) {a b : α} (hab : lt a b = true) : lt b a = false := by
  by_contra hc
  have := h.trans a b a hab (by simpa using hc); rw [h.irrefl] at this; simp at this

/-- negative transitivity -/
theorem Spec.StrictWeak.neg (h : StrictWeak lt) {a c : α} (b : α) (hac : lt a c = true) : lt a b = true ∨ lt b c = true := by
  by_contra hc
  have h1 : lt a b = false ∧ lt b c = false := by simpa using hc
  by_cases h2 : lt b a = true
  · have := h.trans b a c h2 hac; simp [h1.2] at this
  · by_cases h3 : lt c b = true
    · have := h.trans a c b hac h3; simp [h1.1] at this
    · have := (h.incomp a b c h1.1 (by simpa using h2) h1.2 (by simpa using h3)).1
      simp [hac] at this

theorem Spec.Before.neg (h : StrictWeak lt) {p r : α × Nat} (q : α × Nat) (hpr : Before lt p r) : Before lt p q ∨ Before lt q r := by
  unfold Before at *
  rcases hpr with h1 | ⟨h1, h2, h3⟩
  · rcases h.neg q.1 h1 with g | g
    · exact Or.inr (Or.inl g)
    · exact Or.inl (Or.inl g)
  · by_cases g1 : lt q.1 p.1 = true
    · exact Or.inl (Or.inl g1)
    by_cases g2 : lt r.1 q.1 = true
    · exact Or.inr (Or.inl g2)
    have g1 : lt q.1 p.1 = false := by simpa using g1
    have g2 : lt r.1 q.1 = false := by simpa using g2
    by_cases g3 : lt p.1 q.1 = true
    · rcases h.neg r.1 g3 with g | g
      · simp [h1] at g
      · simp [g2] at g
    by_cases g4 : lt q.1 r.1 = true
    · rcases h.neg p.1 g4 with g | g
      · simp [g1] at g
      · simp [h1] at g
    have g3 : lt p.1 q.1 = false := by simpa using g3
    have g4 : lt q.1 r.1 = false := by simpa using g4
    rcases Nat.lt_or_ge p.2 q.2 with g | g
    · exact Or.inl (Or.inr ⟨g3, g1, g⟩)
    · exact Or.inr (Or.inr ⟨g4, g2, by omega⟩)

theorem Spec.Before.asymm (h : StrictWeak lt) {p q : α × Nat} (h1 : Before lt p q) : ¬ Before lt q p := by
  intro h2
  unfold Before at *
  rcases h1 with h1 | ⟨h1, h3, h4⟩
  · rcases h2 with h2 | ⟨_, h2, _⟩
    · have := h.asymm h1; simp [h2] at this
    · have := h.asymm h1; simp_all
  · rcases h2 with h2 | ⟨_, _, h2⟩
    · simp [h1] at h2
    · omega

theorem Spec.Before.total {p q : α × Nat} (hne : p.2 ≠ q.2) : Before lt p q ∨ Before lt q p := by
  unfold Before
  by_cases h1 : lt q.1 p.1 = true
  · exact Or.inl (Or.inl h1)
  by_cases h2 : lt p.1 q.1 = true
  · exact Or.inr (Or.inl h2)
  have h1 : lt q.1 p.1 = false := by simpa using h1
  have h2 : lt p.1 q.1 = false := by simpa using h2
  rcases Nat.lt_or_ge p.2 q.2 with g | g
  · exact Or.inl (Or.inr ⟨h2, h1, g⟩)
  · exact Or.inr (Or.inr ⟨h1, h2, by omega⟩)

end order

section heap
variable {β : Type} {cmp : β → β → Bool}

/-- the first element of a heap is maximal -/
theorem IsHeap.root (hneg : ∀ a b c, cmp a b = false → cmp b c = false → cmp a c = false) (hirr : ∀ a, cmp a a = false)
    {x : β} {q : List β} (h : IsHeap cmp (x :: q)) : ∀ y ∈ x :: q, cmp x y = false := by
  have key : ∀ (i : Nat) (y : β), (x :: q)[i]? = some y → cmp x y = false := by
    intro i
    induction i using Nat.strongRecOn with
    | _ i ih =>
      intro y hy
      rcases Nat.eq_zero_or_pos i with h0 | h0
      · subst h0; simp at hy; subst hy; exact hirr _
      · have hi : i < (x :: q).length := by
          by_contra hc; rw [List.getElem?_eq_none (by omega)] at hy; simp at hy
        have hp : (i-1)/2 < (x :: q).length := by omega
        have e := List.getElem?_eq_getElem hp
        exact hneg _ _ _ (ih _ (by omega) _ e) (h i _ y h0 e hy)
  intro y hy
  obtain ⟨i, hi, e⟩ := List.getElem_of_mem hy
  exact key i y (by rw [List.getElem?_eq_getElem hi, e])

theorem IsHeap.nil : IsHeap cmp ([] : List β) := fun i x y _ _ h => by simp at h
theorem IsHeap.single (a : β) : IsHeap cmp [a] := fun i x y h0 _ h => by
  cases i with
  | zero => omega
  | succ i => simp at h

end heap

namespace TopKEnum
variable {α : Type} {o : Ops α}

theorem viComp_iff (ho : TotalOrder o.lt o.eq) (x y : QElem α) :
    viComp o x y = true ↔ Before o.lt (y.val, y.mid) (x.val, x.mid) := by
  unfold viComp Before
  simp only [Bool.or_eq_true, Bool.and_eq_true, decide_eq_true_eq, ho.eqv]
  constructor
  · rintro (h | ⟨⟨h1, h2⟩, h3⟩)
    · exact Or.inl h
    · exact Or.inr ⟨h2, h1, h3⟩
  · rintro (h | ⟨h1, h2, h3⟩)
    · exact Or.inl h
    · exact Or.inr ⟨⟨h2, h1⟩, h3⟩

theorem viComp_neg (ho : TotalOrder o.lt o.eq) (a b c : QElem α) (h1 : viComp o a b = false) (h2 : viComp o b c = false) : viComp o a c = false := by
  by_contra hc
  have hc := (viComp_iff ho a c).1 (by simpa using hc)
  rcases Before.neg ho.weak (b.val, b.mid) hc with h | h
  · rw [← viComp_iff ho, h2] at h; simp at h
  · rw [← viComp_iff ho, h1] at h; simp at h

theorem viComp_irrefl (ho : TotalOrder o.lt o.eq) (a : QElem α) : viComp o a a = false := by
  by_contra hc
  have hc := (viComp_iff ho a a).1 (by simpa using hc)
  exact Before.asymm ho.weak hc hc

/-- `t` is a correctly built top-k vector over `v` -/
structure Built (o : Ops α) (v : List α) (t : TopK α) : Prop where
  vec : t.v = v
  rmq : ∀ a b, a ≤ b → b < v.length → ∃ m, t.tree.rmq a b = some m ∧ IsLeftmostMin (fun x y => o.lt y x) v a b m

/-- a queue element holding the first entry of its interval -/
structure ElemOK (o : Ops α) (v : List α) (x : QElem α) : Prop where
  am : x.a ≤ x.mid
  mb : x.mid ≤ x.b
  bv : x.b < v.length
  val : v[x.mid]? = some x.val
  best : ∀ e ∈ entries v x.a x.b, e.2 ≠ x.mid → Before o.lt (x.val, x.mid) e

theorem mem_entries {v : List α} {a b : Nat} {e : α × Nat} : e ∈ entries v a b ↔ a ≤ e.2 ∧ e.2 ≤ b ∧ v[e.2]? = some e.1 := by
  unfold entries
  rw [List.mem_filterMap]
  constructor
  · rintro ⟨i, hi, h⟩
    rw [List.mem_range'_1] at hi
    rw [Option.map_eq_some_iff] at h
    obtain ⟨x, hx, rfl⟩ := h
    exact ⟨hi.1, by show i ≤ b; omega, hx⟩
  · rintro ⟨h1, h2, h3⟩
    exact ⟨e.2, by rw [List.mem_range'_1]; omega, by rw [h3]; rfl⟩

theorem elemFor_spec (ho : TotalOrder o.lt o.eq) {v : List α} {t : TopK α} (hb : Built o v t) (a b : Nat) (hab : a ≤ b) (hbv : b < v.length) :
    ∃ x, elemFor t a b = some x ∧ ElemOK o v x ∧ x.a = a ∧ x.b = b := by
  obtain ⟨m, e, hm⟩ := hb.rmq a b hab hbv
  obtain ⟨h1, h2, h3, h4⟩ := leftmost_strict ho.weak.converse hbv hm
  have hml : m < v.length := by omega
  unfold elemFor
  rw [e, bind_pure_some, hb.vec]
  unfold rd
  rw [List.getElem?_eq_getElem hml, bind_pure_some]
  refine ⟨_, rfl, ⟨h1, h2, hbv, List.getElem?_eq_getElem hml, fun e he hne => ?_⟩, rfl, rfl⟩
  obtain ⟨e1, e2, e3⟩ := mem_entries.1 he
  simp only [] at e1 e2 hne ⊢
  have hel : e.2 < v.length := by omega
  rw [List.getElem?_eq_getElem hel] at e3
  have e3 := Option.some.inj e3
  rcases Nat.lt_trichotomy e.2 m with g | g | g
  · exact Or.inl (by rw [← e3]; exact h3 e.2 hel hml e1 g)
  · exact absurd g hne
  · have := h4 e.2 hel hml e1 e2
    unfold Before
    simp only []
    rw [← e3, this]
    cases hq : o.lt v[e.2] v[m] <;> simp [g]

theorem entries_split (v : List α) (a m b : Nat) (h1 : a ≤ m) (h2 : m ≤ b) (x : α) (hx : v[m]? = some x) :
    (entries v a b).Perm ((x, m) :: ((if m ≠ a then entries v a (m-1) else []) ++ (if m ≠ b then entries v (m+1) b else []))) := by
  have e1 : (if m ≠ a then entries v a (m-1) else []) = (List.range' a (m-a)).filterMap fun i => v[i]?.map fun x => (x, i) := by
    split
    · unfold entries; rw [show m - 1 + 1 - a = m - a by omega]
    · rename_i h
      rw [show m - a = 0 by omega]; rfl
  have e2 : (if m ≠ b then entries v (m+1) b else []) = (List.range' (m+1) (b-m)).filterMap fun i => v[i]?.map fun x => (x, i) := by
    split
    · unfold entries; rw [show b + 1 - (m+1) = b - m by omega]
    · rename_i h
      rw [show b - m = 0 by omega]; rfl
  rw [e1, e2]
  have e3 : List.range' a (b+1-a) = List.range' a (m-a) ++ m :: List.range' (m+1) (b-m) := by
    have h3 := List.range'_append_1 (s := a) (m := m-a) (n := b-m+1)
    rw [show m - a + (b - m + 1) = b + 1 - a by omega, show a + (m-a) = m by omega] at h3
    rw [← h3, List.range'_succ]
  unfold entries
  rw [e3, List.filterMap_append, List.filterMap_cons, hx]
  exact List.perm_middle

/-- the enumerator still has to deliver exactly the entries `rem` -/
structure Inv (o : Ops α) (v : List α) (e : TopKEnum α) (rem : List (α × Nat)) : Prop where
  tv : e.q ≠ [] → ∃ t, e.topkv = some t ∧ Built o v t
  heap : IsHeap (viComp o) e.q
  ok : ∀ x ∈ e.q, ElemOK o v x
  perm : (e.q.flatMap fun x => entries v x.a x.b).Perm rem
  nodup : (rem.map (·.2)).Nodup

theorem ElemOK.mem {v : List α} {x : QElem α} (h : ElemOK o v x) : (x.val, x.mid) ∈ entries v x.a x.b :=
  mem_entries.2 ⟨h.am, h.mb, h.val⟩

theorem Inv.empty {v : List α} {e : TopKEnum α} (h : Inv o v e []) : e.q = [] := by
  cases hq : e.q with
  | nil => rfl
  | cons x q =>
    have h1 := (h.ok x (by rw [hq]; simp)).mem
    have h2 := h.perm.mem_iff (a := (x.val, x.mid))
    rw [hq, List.flatMap_cons, List.mem_append] at h2
    have := h2.1 (Or.inl h1)
    simp at this

theorem next_empty (h : HeapOps (QElem α)) {v : List α} {e : TopKEnum α} (hi : Inv o v e []) : next h e = some (false, e) := by
  unfold next; rw [if_pos hi.empty]

theorem next_some (ho : TotalOrder o.lt o.eq) {h : HeapOps (QElem α)} (hh : h.Valid (viComp o)) {v : List α} {e : TopKEnum α} {rem : List (α × Nat)} (hi : Inv o v e rem) (hne : rem ≠ []) :
    ∃ x rem' e', next h e = some (true, e') ∧ e'.cur = some x ∧ rem.Perm (x :: rem') ∧ (∀ y ∈ rem', Before o.lt x y) ∧ Inv o v e' rem' ∧
      e'.q.length ≤ e.q.length + 1 := by
  cases hq : e.q with
  | nil =>
    have := hi.perm; rw [hq] at this; simp at this; exact absurd this hne
  | cons x q =>
    unfold next
    rw [if_neg (by rw [hq]; simp), hq]
    obtain ⟨t, ht, hb⟩ := hi.tv (by rw [hq]; simp)
    have hheap := hi.heap
    rw [hq] at hheap
    obtain ⟨q1, p1, hh1, pp1⟩ := hh.pop x q hheap
    rw [p1, bind_pure_some, List.getLast?_concat, bind_pure_some, List.dropLast_concat]
    have hx := hi.ok x (by rw [hq]; simp)
    have hok1 : ∀ y ∈ q1, ElemOK o v y := fun y hy => hi.ok y (by rw [hq]; exact List.mem_cons_of_mem _ (pp1.mem_iff.1 hy))
    -- left part
    obtain ⟨q2, p2, hh2, hok2, len2, perm2⟩ : ∃ q2, pushLeft h e.topkv x q1 = some q2 ∧ IsHeap (viComp o) q2 ∧ (∀ y ∈ q2, ElemOK o v y) ∧
        q2.length ≤ q1.length + 1 ∧ (q2.flatMap fun x => entries v x.a x.b).Perm ((if x.mid ≠ x.a then entries v x.a (x.mid-1) else []) ++ q1.flatMap fun x => entries v x.a x.b) := by
      unfold pushLeft
      by_cases hc : x.mid ≠ x.a
      · rw [if_pos hc, if_pos hc, ht, bind_pure_some]
        have := hx.am; have := hx.mb; have := hx.bv
        rw [subU_eq _ _ (by omega), bind_pure_some]
        obtain ⟨y, ey, oky, ya, yb⟩ := elemFor_spec ho hb x.a (x.mid-1) (by omega) (by omega)
        rw [ey, bind_pure_some]
        obtain ⟨q2, e2, hh2, pp2⟩ := hh.push q1 y hh1
        refine ⟨q2, e2, hh2, fun w hw => ?_, by rw [pp2.length_eq]; simp, ?_⟩
        · rcases List.mem_append.1 (pp2.mem_iff.1 hw) with g | g
          · exact hok1 w g
          · rw [List.mem_singleton.1 g]; exact oky
        · refine (pp2.flatMap_right _).trans ?_
          rw [List.flatMap_append, List.flatMap_singleton, ya, yb]
          exact List.perm_append_comm
      · rw [if_neg hc, if_neg hc]
        exact ⟨q1, rfl, hh1, hok1, by omega, List.Perm.refl _⟩
    rw [p2, bind_pure_some]
    obtain ⟨q3, p3, hh3, hok3, len3, perm3⟩ : ∃ q3, pushRight h e.topkv x q2 = some q3 ∧ IsHeap (viComp o) q3 ∧ (∀ y ∈ q3, ElemOK o v y) ∧
        q3.length ≤ q2.length + 1 ∧ (q3.flatMap fun x => entries v x.a x.b).Perm ((if x.mid ≠ x.b then entries v (x.mid+1) x.b else []) ++ q2.flatMap fun x => entries v x.a x.b) := by
      unfold pushRight
      by_cases hc : x.mid ≠ x.b
      · rw [if_pos hc, if_pos hc, ht, bind_pure_some]
        have := hx.am; have := hx.mb; have := hx.bv
        obtain ⟨y, ey, oky, ya, yb⟩ := elemFor_spec ho hb (x.mid+1) x.b (by omega) (by omega)
        rw [ey, bind_pure_some]
        obtain ⟨q3, e3, hh3, pp3⟩ := hh.push q2 y hh2
        refine ⟨q3, e3, hh3, fun w hw => ?_, by rw [pp3.length_eq]; simp, ?_⟩
        · rcases List.mem_append.1 (pp3.mem_iff.1 hw) with g | g
          · exact hok2 w g
          · rw [List.mem_singleton.1 g]; exact oky
        · refine (pp3.flatMap_right _).trans ?_
          rw [List.flatMap_append, List.flatMap_singleton, ya, yb]
          exact List.perm_append_comm
      · rw [if_neg hc, if_neg hc]
        exact ⟨q2, rfl, hh2, hok2, by omega, List.Perm.refl _⟩
    rw [p3, bind_pure_some]
    have hsplit := entries_split v x.a x.mid x.b hx.am hx.mb x.val hx.val
    -- the rest
    have hperm : rem.Perm ((x.val, x.mid) :: q3.flatMap fun x => entries v x.a x.b) := by
      have h1 := hi.perm
      rw [hq, List.flatMap_cons] at h1
      refine h1.symm.trans ((hsplit.append_right _).trans ?_)
      rw [List.cons_append]
      refine List.Perm.cons _ ?_
      refine List.Perm.trans ?_ perm3.symm
      refine List.Perm.trans ?_ (List.Perm.append_left _ perm2.symm)
      refine List.Perm.trans (List.Perm.append_left _ (pp1.flatMap_right _).symm) ?_
      rw [← List.append_assoc]
      exact List.Perm.append_right _ List.perm_append_comm
    have hnd := (hperm.map (·.2)).nodup_iff.1 hi.nodup
    rw [List.map_cons, List.nodup_cons] at hnd
    refine ⟨(x.val, x.mid), _, _, rfl, rfl, hperm, fun y hy => ?_, ⟨fun _ => ⟨t, ht, hb⟩, hh3, hok3, List.Perm.refl _, hnd.2⟩, ?_⟩
    rotate_left
    · have := pp1.length_eq
      simp only [List.length_cons]; omega
    have hymid : y.2 ≠ x.mid := fun hc => hnd.1 (by rw [← hc]; exact List.mem_map.2 ⟨y, hy, rfl⟩)
    have hyrem : y ∈ e.q.flatMap fun x => entries v x.a x.b := hi.perm.mem_iff.2 (hperm.mem_iff.2 (List.mem_cons_of_mem _ hy))
    rw [List.mem_flatMap] at hyrem
    obtain ⟨f, hf, hyf⟩ := hyrem
    have hroot := hheap.root (viComp_neg ho) (viComp_irrefl ho) f (by rw [← hq]; exact hf)
    have hnb : ¬ Before o.lt (f.val, f.mid) (x.val, x.mid) := by rw [← viComp_iff ho, hroot]; simp
    have hfo := hi.ok f hf
    by_cases hym : y.2 = f.mid
    · have : y = (f.val, f.mid) := by
        have h1 := (mem_entries.1 hyf).2.2
        rw [hym, hfo.val] at h1
        exact Prod.ext (Option.some.inj h1).symm hym
      rcases Before.total (lt := o.lt) (p := (x.val, x.mid)) (q := y) (by simp only []; omega) with g | g
      · exact g
      · rw [this] at g; exact absurd g hnb
    · rcases Before.neg ho.weak (x.val, x.mid) (hfo.best y hyf hym) with g | g
      · exact absurd g hnb
      · exact g

/-- all that follows from a state of the enumerator -/
theorem deliver (ho : TotalOrder o.lt o.eq) {h : HeapOps (QElem α)} (hh : h.Valid (viComp o)) {v : List α} :
    ∀ (n : Nat) (e : TopKEnum α) (rem : List (α × Nat)), rem.length = n → Inv o v e rem →
      ∃ s : List (α × Nat), s.Perm rem ∧ s.Pairwise (Before o.lt) ∧ (∀ k, nexts h k e = some ((List.range k).map fun i => s[i]?)) ∧
        ∀ k acc, k ≤ n → ∃ e' rem', TopK.topkLoop h k e acc = some (acc ++ s.take k, e') ∧ Inv o v e' rem' ∧ rem'.length = n - k := by
  intro n
  induction n with
  | zero =>
    intro e rem hr hi
    have : rem = [] := List.length_eq_zero_iff.1 hr
    subst this
    refine ⟨[], List.Perm.refl _, List.Pairwise.nil, fun k => ?_, fun k acc hk => ?_⟩
    · induction k with
      | zero => rfl
      | succ k ih =>
        unfold nexts
        rw [next_empty h hi, bind_pure_some]
        simp only [Bool.false_eq_true, if_false]
        rw [ih, bind_pure_some, List.range_succ_eq_map]
        simp
    · have : k = 0 := by omega
      subst this
      exact ⟨e, [], by simp [TopK.topkLoop], hi, rfl⟩
  | succ n ih =>
    intro e rem hr hi
    obtain ⟨x, rem', e', h1, h2, h3, h4, h5, _⟩ := next_some ho hh hi (by intro hc; rw [hc] at hr; simp at hr)
    have hl := h3.length_eq
    rw [List.length_cons] at hl
    obtain ⟨s, s1, s2, s3, s4⟩ := ih e' rem' (by omega) h5
    refine ⟨x :: s, (List.Perm.cons x s1).trans h3.symm, List.Pairwise.cons (fun y hy => h4 y (s1.mem_iff.1 hy)) s2, fun k => ?_, fun k acc hk => ?_⟩
    · cases k with
      | zero => rfl
      | succ k =>
        unfold nexts
        rw [h1, bind_pure_some]
        simp only [if_true]
        rw [h2, bind_pure_some, s3, bind_pure_some, List.range_succ_eq_map]
        simp
    · cases k with
      | zero => exact ⟨e, rem, by simp [TopK.topkLoop], hi, by omega⟩
      | succ k =>
        obtain ⟨e2, rem2, g1, g2, g3⟩ := s4 k (acc ++ [x]) (by omega)
        refine ⟨e2, rem2, ?_, g2, by omega⟩
        unfold TopK.topkLoop
        rw [h1, bind_pure_some]
        simp only []
        rw [assertP_eq _ trivial, bind_pure_some, h2, bind_pure_some, g1]
        simp

theorem set_inv (ho : TotalOrder o.lt o.eq) {v : List α} {t : TopK α} (hb : Built o v t) (e : TopKEnum α) (a b : Nat) (hab : a ≤ b) (hbv : b < v.length) :
    ∃ e', set e t a b = some e' ∧ Inv o v e' (entries v a b) := by
  obtain ⟨x, ex, okx, xa, xb⟩ := elemFor_spec ho hb a b hab hbv
  unfold set
  rw [assertP_eq _ hab, bind_pure_some, ex, bind_pure_some]
  refine ⟨_, rfl, ⟨fun _ => ⟨t, rfl, hb⟩, IsHeap.single _, ?_, ?_, ?_⟩⟩
  · intro y hy
    simp [clear] at hy; rw [hy]; exact okx
  · simp [clear, xa, xb]
  · have : (entries v a b).map (·.2) = List.range' a (b+1-a) := by
      unfold entries
      rw [List.map_filterMap]
      have h1 : ∀ (k a : Nat), a + k ≤ v.length → (List.range' a k).filterMap (fun i => Option.map (·.2) (v[i]?.map fun x => (x, i))) = List.range' a k := by
        intro k
        induction k with
        | zero => intro a _; rfl
        | succ k ih =>
          intro a h
          rw [List.range'_succ, List.filterMap_cons, List.getElem?_eq_getElem (by omega)]
          simp only [Option.map_some]
          rw [ih (a+1) (by omega)]
      exact h1 _ _ (by omega)
    rw [this]
    exact List.nodup_range'

theorem entries_length (v : List α) (a b : Nat) (hab : a ≤ b) (hbv : b < v.length) : (entries v a b).length = b - a + 1 := by
  unfold entries
  have h1 : ∀ (k a : Nat), a + k ≤ v.length → ((List.range' a k).filterMap (fun i => v[i]?.map fun x => (x, i))).length = k := by
    intro k
    induction k with
    | zero => intro a _; rfl
    | succ k ih =>
      intro a h
      rw [List.range'_succ, List.filterMap_cons, List.getElem?_eq_getElem (by omega)]
      simp only [Option.map_some, List.length_cons]
      rw [ih (a+1) (by omega)]
  rw [h1 _ _ (by omega)]; omega

end TopKEnum
end Succinct
