import Verif.Model.MappableIter
import Verif.Spec.MappableIter
import Verif.Lemmas.Mappable

/-! # Iterators of `mappable_vector` kept by the caller -/
namespace Succinct.Mappable
open Spec
variable {α : Type}

/-- a vector that owns a buffer points to it -/
def Good (w : Vec α) : Prop := ∀ id, w.deleter = some id → w.data = .heap id

/-- what an operation does to the heap and the objects -/
inductive Shape (s : State α) (c : Cmd α) : State α → Prop
  | fresh (i : Nat) (w : Vec α) (ext : Heap α) : s.vecs i = none → Good w → (∀ h, holderStep h c = h) →
      Shape s c ⟨s.heap ++ ext, setAt s.vecs i (some w)⟩
  | renew (i : Nat) (v : Vec α) (w : Option (Vec α)) (h1 ext : Heap α) : s.vecs i = some v → dtor s.heap v = some h1 → (∀ u, w = some u → Good u) →
      (∀ h, holderStep h c = if h = some i then none else h) → Shape s c ⟨h1 ++ ext, setAt s.vecs i w⟩
  | swap (i j : Nat) (v w : Vec α) : s.vecs i = some v → s.vecs j = some w →
      (∀ h, holderStep h c = h.map fun k => if k = i then j else if k = j then i else k) →
      Shape s c ⟨s.heap, setAt (setAt s.vecs i (some w)) j (some v)⟩

theorem good_empty : Good (Vec.empty : Vec α) := fun id h => by cases h
theorem good_heap (id n : Nat) : Good (⟨.heap id, n, some id⟩ : Vec α) := fun k h => by cases h; rfl
theorem good_image (xs : List α) (n : Nat) : Good (⟨.image xs, n, none⟩ : Vec α) := fun id h => by cases h

theorem clear_some {h h' : Heap α} {v v' : Vec α} (e : clear h v = some (h', v')) : dtor h v = some h' ∧ v' = Vec.empty := by
  unfold clear at e
  simp only [Option.bind_eq_bind, Option.bind_eq_some_iff] at e
  obtain ⟨h1, e1, e2⟩ := e
  cases e2
  exact ⟨e1, rfl⟩

theorem step_shape {s s' : State α} {c : Cmd α} (e : step s c = some s') : Shape s c s' := by
  cases c with
  | new i =>
    rw [step] at e
    split at e
    · rename_i hv
      cases e
      have := Shape.fresh (s := s) (c := .new i) i Vec.empty [] hv good_empty (fun _ => rfl)
      rwa [List.append_nil] at this
    · cases e
  | newRange i xs =>
    rw [step] at e
    split at e
    · rename_i hv
      cases e
      exact .fresh i _ [some xs] hv (good_heap _ _) (fun _ => rfl)
    · cases e
  | newVec i j =>
    rw [step] at e
    split at e
    · rename_i hv
      simp only [Option.bind_eq_bind, Option.bind_eq_some_iff] at e
      obtain ⟨w, _, xs, _, e⟩ := e
      cases e
      exact .fresh i _ [some xs] hv (good_heap _ _) (fun _ => rfl)
    · cases e
  | steal i xs =>
    rw [step] at e
    simp only [Option.bind_eq_bind, Option.bind_eq_some_iff] at e
    obtain ⟨v, hv, ⟨h2, v2⟩, e1, e⟩ := e
    cases e
    unfold steal at e1
    simp only [Option.bind_eq_bind, Option.bind_eq_some_iff] at e1
    obtain ⟨⟨h1, v1⟩, e2, e1⟩ := e1
    obtain ⟨d, rfl⟩ := clear_some e2
    simp only [] at e1
    split at e1
    · cases e1
      exact .renew i v _ h1 [some xs] hv d (fun u hu => by cases hu; exact good_heap _ _) (fun _ => rfl)
    · cases e1
      have := Shape.renew (s := s) (c := .steal i xs) i v (some { (Vec.empty : Vec α) with size := xs.length }) h2 [] hv d
        (fun u hu => by cases hu; intro id h; cases h) (fun _ => rfl)
      rw [List.append_nil] at this
      exact this
  | swap i j =>
    rw [step] at e
    simp only [Option.bind_eq_bind, Option.bind_eq_some_iff] at e
    obtain ⟨v, hv, w, hw, e⟩ := e
    cases e
    exact .swap i j v w hv hw (fun _ => rfl)
  | clear i =>
    rw [step] at e
    simp only [Option.bind_eq_bind, Option.bind_eq_some_iff] at e
    obtain ⟨v, hv, ⟨h1, v1⟩, e1, e⟩ := e
    cases e
    obtain ⟨d, rfl⟩ := clear_some e1
    have := Shape.renew (s := s) (c := .clear i) i v (some Vec.empty) h1 [] hv d (fun u hu => by cases hu; exact good_empty) (fun _ => rfl)
    rwa [List.append_nil] at this
  | assign i xs =>
    rw [step] at e
    simp only [Option.bind_eq_bind, Option.bind_eq_some_iff] at e
    obtain ⟨v, hv, ⟨h2, v2⟩, e1, e⟩ := e
    cases e
    unfold assign at e1
    simp only [Option.bind_eq_bind, Option.bind_eq_some_iff] at e1
    obtain ⟨⟨h1, v1⟩, e2, h3, e3, e1⟩ := e1
    obtain ⟨d, rfl⟩ := clear_some e2
    cases e3
    cases e1
    exact .renew i v _ h1 [some xs] hv d (fun u hu => by cases hu; exact good_heap _ _) (fun _ => rfl)
  | assignVec i j =>
    rw [step] at e
    simp only [Option.bind_eq_bind, Option.bind_eq_some_iff] at e
    obtain ⟨w, _, v, hv, ⟨h1, v1⟩, e2, xs, _, h3, e3, e⟩ := e
    obtain ⟨d, rfl⟩ := clear_some e2
    cases e3
    cases e
    exact .renew i v _ h1 [some xs] hv d (fun u hu => by cases hu; exact good_heap _ _) (fun _ => rfl)
  | map i xs =>
    rw [step] at e
    simp only [Option.bind_eq_bind, Option.bind_eq_some_iff] at e
    obtain ⟨v, hv, ⟨h2, v2⟩, e1, e⟩ := e
    cases e
    unfold mapImage at e1
    simp only [Option.bind_eq_bind, Option.bind_eq_some_iff] at e1
    obtain ⟨⟨h1, v1⟩, e2, e1⟩ := e1
    obtain ⟨d, rfl⟩ := clear_some e2
    cases e1
    have := Shape.renew (s := s) (c := .map i xs) i v (some { (Vec.empty : Vec α) with size := xs.length, data := .image xs }) h1 [] hv d
      (fun u hu => by cases hu; intro id h; cases h) (fun _ => rfl)
    rwa [List.append_nil] at this
  | destroy i =>
    rw [step] at e
    simp only [Option.bind_eq_bind, Option.bind_eq_some_iff] at e
    obtain ⟨v, hv, h1, d, e⟩ := e
    cases e
    have := Shape.renew (s := s) (c := .destroy i) i v none h1 [] hv d (fun u hu => by cases hu) (fun _ => rfl)
    rwa [List.append_nil] at this

theorem dtor_cases {h h1 : Heap α} {v : Vec α} (e : dtor h v = some h1) :
    (v.deleter = none ∧ h1 = h) ∨ ∃ id xs, v.deleter = some id ∧ h[id]? = some (some xs) ∧ h1 = h.set id none := by
  unfold dtor at e
  split at e
  · rename_i id hd
    unfold free at e
    split at e
    · rename_i xs hx
      cases e
      exact Or.inr ⟨id, xs, hd, hx, rfl⟩
    · cases e
  · rename_i hd
    cases e
    exact Or.inl ⟨hd, rfl⟩

theorem getElem?_ext {β : Type} {l ext : List β} {k : Nat} {b : β} (h : l[k]? = some b) : (l ++ ext)[k]? = some b := by
  obtain ⟨hk, _⟩ := List.getElem?_eq_some_iff.1 h
  rw [List.getElem?_append_left hk, h]

/-- a buffer keeps its elements or is freed -/
theorem dtor_mono {h h1 : Heap α} {v : Vec α} (e : dtor h v = some h1) {id : Nat} {b : Option (List α)} (hb : h[id]? = some b) :
    h1[id]? = some b ∨ h1[id]? = some none := by
  rcases dtor_cases e with ⟨_, rfl⟩ | ⟨id', xs, _, hx, rfl⟩
  · exact Or.inl hb
  · by_cases hc : id' = id
    · subst hc
      obtain ⟨hk, _⟩ := List.getElem?_eq_some_iff.1 hb
      exact Or.inr (by rw [List.getElem?_set_self hk])
    · exact Or.inl (by rw [List.getElem?_set_ne hc, hb])

theorem shape_mono {s s' : State α} {c : Cmd α} (e : Shape s c s') {id : Nat} {b : Option (List α)} (hb : s.heap[id]? = some b) :
    s'.heap[id]? = some b ∨ s'.heap[id]? = some none := by
  cases e with
  | fresh i w ext => exact Or.inl (getElem?_ext hb)
  | renew i v w h1 ext hv d =>
    rcases dtor_mono d hb with g | g
    · exact Or.inl (getElem?_ext g)
    · exact Or.inr (getElem?_ext g)
  | swap => exact Or.inl hb

/-- the vector `v` is held by object `h`, or the buffer it owned has been freed -/
def Held (s : State α) (v : Vec α) : Option Nat → Prop
  | some j => s.vecs j = some v
  | none => ∀ id, v.deleter = some id → s.heap[id]? = some none

theorem shape_held {s s' : State α} {c : Cmd α} (e : Shape s c s') {v : Vec α} {h : Option Nat} (hh : Held s v h) : Held s' v (holderStep h c) := by
  cases h with
  | none =>
    have hn : holderStep none c = none := by
      cases c <;> simp [holderStep]
    rw [hn]
    intro id hid
    rcases shape_mono e (hh id hid) with g | g <;> exact g
  | some j =>
    cases e with
    | fresh i w ext hi _ hc =>
      rw [hc]
      have hne : j ≠ i := by
        intro hji
        rw [hji] at hh
        have : s.vecs i = some v := hh
        rw [hi] at this; cases this
      show setAt s.vecs i (some w) j = some v
      rw [setAt_ne _ _ hne]; exact hh
    | renew i v' w h1 ext hv d _ hc =>
      rw [hc]
      by_cases hji : j = i
      · subst hji
        rw [if_pos rfl]
        have : s.vecs j = some v := hh
        rw [hv] at this
        cases this
        intro id hid
        rcases dtor_cases d with ⟨hd, _⟩ | ⟨id', xs, hd, hx, rfl⟩
        · rw [hd] at hid; cases hid
        · rw [hd] at hid; cases hid
          obtain ⟨hk, _⟩ := List.getElem?_eq_some_iff.1 hx
          exact getElem?_ext (by rw [List.getElem?_set_self hk])
      · rw [if_neg (fun hc => hji (Option.some.inj hc))]
        show setAt s.vecs i w j = some v
        rw [setAt_ne _ _ hji]; exact hh
    | swap i k v' w hv hw hc =>
      rw [hc]
      have hjv : s.vecs j = some v := hh
      show setAt (setAt s.vecs i (some w)) k (some v') (if j = i then k else if j = k then i else j) = some v
      by_cases h1 : j = i
      · subst h1
        rw [if_pos rfl, setAt_same, ← hjv, hv]
      · rw [if_neg h1]
        by_cases h2 : j = k
        · subst h2
          rw [if_pos rfl, setAt_ne _ _ (fun hc => h1 hc.symm), setAt_same, ← hjv, hw]
        · rw [if_neg h2, setAt_ne _ _ h2, setAt_ne _ _ h1, hjv]

theorem shape_good {s s' : State α} {c : Cmd α} (e : Shape s c s') (hg : ∀ i v, s.vecs i = some v → Good v) : ∀ i v, s'.vecs i = some v → Good v := by
  intro j u hu
  cases e with
  | fresh i w ext _ hw =>
    by_cases h : j = i
    · subst h
      have hu : setAt s.vecs j (some w) j = some u := hu
      rw [setAt_same] at hu; cases hu; exact hw
    · have hu : setAt s.vecs i (some w) j = some u := hu
      rw [setAt_ne _ _ h] at hu; exact hg j u hu
  | renew i v w h1 ext _ _ hw =>
    by_cases h : j = i
    · subst h
      have hu : setAt s.vecs j w j = some u := hu
      rw [setAt_same] at hu; exact hw u hu
    · have hu : setAt s.vecs i w j = some u := hu
      rw [setAt_ne _ _ h] at hu; exact hg j u hu
  | swap i k v w hv hw =>
    have hu : setAt (setAt s.vecs i (some w)) k (some v) j = some u := hu
    by_cases h : j = k
    · subst h
      rw [setAt_same] at hu; cases hu; exact hg i _ hv
    · rw [setAt_ne _ _ h] at hu
      by_cases h' : j = i
      · subst h'
        rw [setAt_same] at hu; cases hu; exact hg k _ hw
      · rw [setAt_ne _ _ h'] at hu; exact hg j u hu

theorem run_facts : ∀ (cs : List (Cmd α)) (s s' : State α), run s cs = some s' →
    (∀ (id : Nat) (b : Option (List α)), s.heap[id]? = some b → s'.heap[id]? = some b ∨ s'.heap[id]? = some none) ∧
    (∀ v h, Held s v h → Held s' v (holder h cs)) ∧ ((∀ i v, s.vecs i = some v → Good v) → ∀ i v, s'.vecs i = some v → Good v)
  | [], s, s', e => by
    unfold run at e
    cases e
    exact ⟨fun _ _ h => Or.inl h, fun _ _ h => h, fun h => h⟩
  | c :: cs, s, s', e => by
    unfold run at e
    simp only [Option.bind_eq_bind, Option.bind_eq_some_iff] at e
    obtain ⟨s1, e1, e2⟩ := e
    have sh := step_shape e1
    obtain ⟨g1, g2, g3⟩ := run_facts cs s1 s' e2
    refine ⟨fun id b hb => ?_, fun v h hh => g2 v _ (shape_held sh hh), fun h => g3 (shape_good sh h)⟩
    rcases shape_mono sh hb with k | k
    · exact g1 id b k
    · rcases g1 id none k with k | k <;> exact Or.inr k

theorem readRange_eq (h : Heap α) (v : Vec α) : readRange h (range v) = contents h v := rfl

end Succinct.Mappable
