import Verif.Model.Mappable
import Verif.Spec.Mappable
import Verif.Lemmas.RSBitVector
import Mathlib.Tactic.ByContra

namespace Succinct.Mappable
open RSBitVector (bind_pure_some)
open Spec
variable {α : Type}

/-- the state of the program implements the contents `a` and owns every buffer once -/
structure Inv (s : State α) (a : Contents α) : Prop where
  dead : ∀ i, a i = none → s.vecs i = none
  live : ∀ i xs, a i = some xs → ∃ v, s.vecs i = some v ∧ contents s.heap v = some xs ∧ v.size = xs.length
  owned : ∀ i v id, s.vecs i = some v → v.deleter = some id → ∃ xs, s.heap[id]? = some (some xs)
  inj : ∀ i j v w id, s.vecs i = some v → s.vecs j = some w → v.deleter = some id → w.deleter = some id → i = j
  noLeak : ∀ id xs, s.heap[id]? = some (some xs) → ∃ i v, s.vecs i = some v ∧ v.deleter = some id
  own : ∀ i v id, s.vecs i = some v → v.data = .heap id → v.deleter = some id

/-- an object state that owns nothing -/
structure Unowned (w : Option (Vec α)) (x : Option (List α)) : Prop where
  dead : x = none → w = none
  live : ∀ xs, x = some xs → ∃ v, w = some v ∧ v.size = xs.length ∧ ∀ h, contents h v = some xs
  noDel : ∀ v, w = some v → v.deleter = none
  noHeap : ∀ v id, w = some v → v.data ≠ .heap id

theorem setAt_same {β : Type} (f : Nat → Option β) (i : Nat) (v : Option β) : setAt f i v i = v := by simp [setAt]
theorem setAt_ne {β : Type} (f : Nat → Option β) {i k : Nat} (v : Option β) (h : k ≠ i) : setAt f i v k = f k := by simp [setAt, h]
theorem setAt_setAt {β : Type} (f : Nat → Option β) (i : Nat) (v w : Option β) : setAt (setAt f i v) i w = setAt f i w := by
  funext k; simp only [setAt]; split <;> rfl
theorem set_same (a : Contents α) (i : Nat) (x : Option (List α)) : a.set i x i = x := by simp [Contents.set]
theorem set_ne (a : Contents α) {i k : Nat} (x : Option (List α)) (h : k ≠ i) : a.set i x k = a k := by simp [Contents.set, h]
theorem set_set (a : Contents α) (i : Nat) (x y : Option (List α)) : (a.set i x).set i y = a.set i y := by
  funext k; simp only [Contents.set]; split <;> rfl

theorem contents_set_none {h : Heap α} {v : Vec α} {id : Nat} (hne : v.data ≠ .heap id) : contents (h.set id none) v = contents h v := by
  unfold contents
  split
  · rfl
  · rename_i k hk
    have : id ≠ k := fun e => hne (e ▸ hk)
    rw [List.getElem?_set_ne this]
  · rfl

/-- the object at `i` is destroyed and replaced by one that owns nothing -/
theorem release {s : State α} {a : Contents α} (hi : Inv s a) {i : Nat} {v : Vec α} (hv : s.vecs i = some v)
    {w : Option (Vec α)} {x : Option (List α)} (hw : Unowned w x) :
    ∃ h, dtor s.heap v = some h ∧ Inv ⟨h, setAt s.vecs i w⟩ (a.set i x) := by
  have key : ∃ h, dtor s.heap v = some h ∧
      (∀ (k : Nat) (u : Vec α), k ≠ i → s.vecs k = some u → contents h u = contents s.heap u) ∧
      (∀ (k : Nat) (u : Vec α) (id : Nat), k ≠ i → s.vecs k = some u → u.deleter = some id → h[id]? = s.heap[id]?) ∧
      (∀ (id : Nat) (xs : List α), h[id]? = some (some xs) → s.heap[id]? = some (some xs) ∧ v.deleter ≠ some id) := by
    unfold dtor
    cases hd : v.deleter with
    | none => exact ⟨s.heap, rfl, fun _ _ _ _ => rfl, fun _ _ _ _ _ _ => rfl, fun id xs h => ⟨h, by simp⟩⟩
    | some d =>
      obtain ⟨ys, hys⟩ := hi.owned i v d hv hd
      refine ⟨s.heap.set d none, by simp [free, hys], ?_, ?_, ?_⟩
      · intro k u hk hu
        apply contents_set_none
        intro e
        exact hk (hi.inj k i u v d hu hv (hi.own k u d hu e) hd)
      · intro k u id hk hu hud
        have : d ≠ id := by rintro rfl; exact hk (hi.inj k i u v d hu hv hud hd)
        rw [List.getElem?_set_ne this]
      · intro id xs h
        have : d ≠ id := by
          rintro rfl
          rw [List.getElem?_set] at h
          simp at h
        rw [List.getElem?_set_ne this] at h
        exact ⟨h, by simpa using this⟩
  obtain ⟨h, e, h1, h2, h3⟩ := key
  refine ⟨h, e, ?_⟩
  constructor
  · intro k hk
    by_cases hki : k = i
    · subst hki; rw [set_same] at hk; simp only [setAt_same]; exact hw.dead hk
    · rw [set_ne _ _ hki] at hk; simp only [setAt_ne _ _ hki]; exact hi.dead k hk
  · intro k xs hk
    by_cases hki : k = i
    · subst hki; rw [set_same] at hk
      obtain ⟨u, hu, hs, hc⟩ := hw.live xs hk
      exact ⟨u, by simp only [setAt_same]; exact hu, hc _, hs⟩
    · rw [set_ne _ _ hki] at hk
      obtain ⟨u, hu, hc, hs⟩ := hi.live k xs hk
      exact ⟨u, by simp only [setAt_ne _ _ hki]; exact hu, by rw [h1 k u hki hu]; exact hc, hs⟩
  · intro k u id hu hd
    by_cases hki : k = i
    · subst hki; simp only [setAt_same] at hu; rw [hw.noDel u hu] at hd; simp at hd
    · simp only [setAt_ne _ _ hki] at hu
      obtain ⟨xs, hx⟩ := hi.owned k u id hu hd
      exact ⟨xs, by rw [h2 k u id hki hu hd]; exact hx⟩
  · intro k j u t id hu ht hud htd
    by_cases hki : k = i
    · subst hki; simp only [setAt_same] at hu; rw [hw.noDel u hu] at hud; simp at hud
    · by_cases hji : j = i
      · subst hji; simp only [setAt_same] at ht; rw [hw.noDel t ht] at htd; simp at htd
      · simp only [setAt_ne _ _ hki] at hu
        simp only [setAt_ne _ _ hji] at ht
        exact hi.inj k j u t id hu ht hud htd
  · intro id xs hx
    obtain ⟨hx1, hx2⟩ := h3 id xs hx
    obtain ⟨k, u, hu, hud⟩ := hi.noLeak id xs hx1
    have hki : k ≠ i := by
      rintro rfl
      rw [hv] at hu; cases hu
      exact hx2 hud
    exact ⟨k, u, by simp only [setAt_ne _ _ hki]; exact hu, hud⟩
  · intro k u id hu hd
    by_cases hki : k = i
    · subst hki; simp only [setAt_same] at hu; exact absurd hd (hw.noHeap u id hu)
    · simp only [setAt_ne _ _ hki] at hu; exact hi.own k u id hu hd

/-- an object that owns nothing is replaced by one that owns a new buffer -/
theorem acquire {s : State α} {a : Contents α} (hi : Inv s a) {i : Nat} (hu : ∀ v, s.vecs i = some v → v.deleter = none) (xs : List α) :
    Inv ⟨s.heap ++ [some xs], setAt s.vecs i (some ⟨.heap s.heap.length, xs.length, some s.heap.length⟩)⟩ (a.set i (some xs)) := by
  have hlt : ∀ (id : Nat) (ys : List α), s.heap[id]? = some (some ys) → id < s.heap.length := by
    intro id ys h
    obtain ⟨h', _⟩ := List.getElem?_eq_some_iff.1 h
    exact h'
  have hnew : (s.heap ++ [some xs])[s.heap.length]? = some (some xs) := by simp
  have hold : ∀ (id : Nat) (ys : List α), s.heap[id]? = some (some ys) → (s.heap ++ [some xs])[id]? = some (some ys) := by
    intro id ys h
    rw [List.getElem?_append_left (hlt id ys h)]; exact h
  constructor
  · intro k hk
    by_cases hki : k = i
    · subst hki; rw [set_same] at hk; simp at hk
    · rw [set_ne _ _ hki] at hk; simp only [setAt_ne _ _ hki]; exact hi.dead k hk
  · intro k ys hk
    by_cases hki : k = i
    · subst hki; rw [set_same] at hk; cases hk
      exact ⟨_, setAt_same _ _ _, by simp [contents], rfl⟩
    · rw [set_ne _ _ hki] at hk
      obtain ⟨u, hv, hc, hs⟩ := hi.live k ys hk
      refine ⟨u, by simp only [setAt_ne _ _ hki]; exact hv, ?_, hs⟩
      rw [← hc]
      unfold contents
      split
      · rfl
      · rename_i id hid
        obtain ⟨zs, hz⟩ := hi.owned k u id hv (hi.own k u id hv hid)
        simp only []
        rw [hold id zs hz, hz]
      · rfl
  · intro k u id hv hd
    by_cases hki : k = i
    · subst hki; simp only [setAt_same] at hv; cases hv; cases hd
      exact ⟨xs, hnew⟩
    · simp only [setAt_ne _ _ hki] at hv
      obtain ⟨zs, hz⟩ := hi.owned k u id hv hd
      exact ⟨zs, hold id zs hz⟩
  · intro k j u t id hv ht hvd htd
    have aux : ∀ (k : Nat) (u : Vec α), k ≠ i → setAt s.vecs i (some ⟨.heap s.heap.length, xs.length, some s.heap.length⟩) k = some u →
        u.deleter ≠ some s.heap.length := by
      intro k u hki hv hd
      rw [setAt_ne _ _ hki] at hv
      obtain ⟨zs, hz⟩ := hi.owned k u _ hv hd
      exact absurd (hlt _ _ hz) (by omega)
    by_cases hki : k = i
    · by_cases hji : j = i
      · rw [hki, hji]
      · subst hki; simp only [setAt_same] at hv; cases hv; cases hvd
        exact absurd htd (aux j t hji ht)
    · by_cases hji : j = i
      · subst hji; simp only [setAt_same] at ht; cases ht; cases htd
        exact absurd hvd (aux k u hki hv)
      · simp only [setAt_ne _ _ hki] at hv
        simp only [setAt_ne _ _ hji] at ht
        exact hi.inj k j u t id hv ht hvd htd
  · intro id ys hy
    simp only [] at hy
    by_cases hid : id < s.heap.length
    · rw [List.getElem?_append_left hid] at hy
      obtain ⟨k, u, hv, hd⟩ := hi.noLeak id ys hy
      have hki : k ≠ i := by rintro rfl; rw [hu u hv] at hd; simp at hd
      exact ⟨k, u, by simp only [setAt_ne _ _ hki]; exact hv, hd⟩
    · have : id = s.heap.length := by
        obtain ⟨h', _⟩ := List.getElem?_eq_some_iff.1 hy
        simp at h'; omega
      subst this
      exact ⟨i, _, setAt_same _ _ _, rfl⟩
  · intro k u id hv hd
    by_cases hki : k = i
    · subst hki; simp only [setAt_same] at hv; cases hv; cases hd; rfl
    · simp only [setAt_ne _ _ hki] at hv; exact hi.own k u id hv hd

theorem unowned_none : Unowned (none : Option (Vec α)) none :=
  ⟨fun _ => rfl, by simp, by simp, by simp⟩
theorem unowned_empty : Unowned (some (Vec.empty : Vec α)) (some []) :=
  ⟨by simp, by intro xs h; cases h; exact ⟨_, rfl, rfl, fun _ => rfl⟩, by intro v h; cases h; rfl, by intro v id h; cases h; simp [Vec.empty]⟩
theorem unowned_image (xs : List α) : Unowned (some (⟨.image xs, xs.length, none⟩ : Vec α)) (some xs) :=
  ⟨by simp, by intro ys h; cases h; exact ⟨_, rfl, rfl, fun _ => by simp [contents]⟩, by intro v h; cases h; rfl, by intro v id h; cases h; simp⟩

theorem clear_eq {s : State α} {a : Contents α} (hi : Inv s a) {i : Nat} {v : Vec α} (hv : s.vecs i = some v) :
    ∃ h, clear s.heap v = some (h, Vec.empty) ∧ dtor s.heap v = some h ∧ Inv ⟨h, setAt s.vecs i (some Vec.empty)⟩ (a.set i (some [])) := by
  obtain ⟨h, e, hinv⟩ := release hi hv unowned_empty
  refine ⟨h, ?_, e, hinv⟩
  have : swap Vec.empty v = (v, Vec.empty) := rfl
  unfold clear
  rw [this]
  simp only []
  rw [e, bind_pure_some]; rfl

theorem setAt_self (s : State α) (i : Nat) (h : s.vecs i = none) : setAt s.vecs i none = s.vecs := by
  funext k; simp only [setAt]; split
  · rename_i e; rw [e, h]
  · rfl

/-- the new object owns nothing -/
theorem construct {s : State α} {a : Contents α} (hi : Inv s a) {i : Nat} (hd : a i = none) :
    Inv ⟨s.heap, setAt s.vecs i (some Vec.empty)⟩ (a.set i (some [])) := by
  have hv := hi.dead i hd
  constructor
  · intro k hk
    by_cases hki : k = i
    · subst hki; rw [set_same] at hk; simp at hk
    · rw [set_ne _ _ hki] at hk; simp only [setAt_ne _ _ hki]; exact hi.dead k hk
  · intro k xs hk
    by_cases hki : k = i
    · subst hki; rw [set_same] at hk; cases hk
      exact ⟨_, setAt_same _ _ _, rfl, rfl⟩
    · rw [set_ne _ _ hki] at hk; simp only [setAt_ne _ _ hki]; exact hi.live k xs hk
  · intro k u id hu hd
    by_cases hki : k = i
    · subst hki; simp only [setAt_same] at hu; cases hu; simp [Vec.empty] at hd
    · simp only [setAt_ne _ _ hki] at hu; exact hi.owned k u id hu hd
  · intro k j u t id hu ht hud htd
    by_cases hki : k = i
    · subst hki; simp only [setAt_same] at hu; cases hu; simp [Vec.empty] at hud
    · by_cases hji : j = i
      · subst hji; simp only [setAt_same] at ht; cases ht; simp [Vec.empty] at htd
      · simp only [setAt_ne _ _ hki] at hu
        simp only [setAt_ne _ _ hji] at ht
        exact hi.inj k j u t id hu ht hud htd
  · intro id xs hx
    obtain ⟨k, u, hu, hd⟩ := hi.noLeak id xs hx
    have hki : k ≠ i := by rintro rfl; rw [hv] at hu; simp at hu
    exact ⟨k, u, by simp only [setAt_ne _ _ hki]; exact hu, hd⟩
  · intro k u id hu hd
    by_cases hki : k = i
    · subst hki; simp only [setAt_same] at hu; cases hu; simp [Vec.empty] at hd
    · simp only [setAt_ne _ _ hki] at hu; exact hi.own k u id hu hd

theorem swap_inv {s : State α} {a : Contents α} (hi : Inv s a) {i j : Nat} {v w : Vec α} {xs ys : List α} (hv : s.vecs i = some v)
    (hw : s.vecs j = some w) (hx : a i = some xs) (hy : a j = some ys) :
    Inv ⟨s.heap, setAt (setAt s.vecs i (some w)) j (some v)⟩ ((a.set i (some ys)).set j (some xs)) := by
  -- the swapped state is the old one with `i` and `j` exchanged
  let σ : Nat → Nat := fun k => if k = j then i else if k = i then j else k
  have hσσ : ∀ k l, σ k = σ l → k = l := by
    intro k l h
    simp only [σ] at h
    split at h <;> split at h <;> (try split at h) <;> (try split at h) <;> omega
  have hsurj : ∀ k, ∃ l, σ l = k := by
    intro k
    by_cases h1 : k = i
    · exact ⟨j, by simp [σ, h1]⟩
    · by_cases h2 : k = j
      · refine ⟨i, ?_⟩
        simp only [σ]
        split
        · omega
        · simp [h2]
      · exact ⟨k, by simp [σ, h1, h2]⟩
  have e1 : ∀ k, setAt (setAt s.vecs i (some w)) j (some v) k = s.vecs (σ k) := by
    intro k
    simp only [setAt, σ]
    split
    · exact hv.symm
    · split
      · exact hw.symm
      · rfl
  have e2 : ∀ k, ((a.set i (some ys)).set j (some xs)) k = a (σ k) := by
    intro k
    simp only [Contents.set, σ]
    split
    · exact hx.symm
    · split
      · exact hy.symm
      · rfl
  constructor
  · intro k hk; rw [e2] at hk; simp only [e1]; exact hi.dead _ hk
  · intro k zs hk; rw [e2] at hk; simp only [e1]; exact hi.live _ zs hk
  · intro k u id hu; simp only [e1] at hu; exact hi.owned _ u id hu
  · intro k l u t id hu ht h1 h2
    simp only [e1] at hu ht
    exact hσσ _ _ (hi.inj _ _ u t id hu ht h1 h2)
  · intro id zs hz
    obtain ⟨k, u, hu, hd⟩ := hi.noLeak id zs hz
    obtain ⟨l, hl⟩ := hsurj k
    exact ⟨l, u, by simp only [e1, hl]; exact hu, hd⟩
  · intro k u id hu; simp only [e1] at hu; exact hi.own _ u id hu

theorem step_inv {s : State α} {a b : Contents α} {c : Cmd α} (hi : Inv s a) (hs : Step a c b) : ∃ s', step s c = some s' ∧ Inv s' b := by
  cases hs with
  | new i h =>
    rw [step, hi.dead i h]
    exact ⟨_, rfl, construct hi h⟩
  | newRange i xs h =>
    have hd := hi.dead i h
    rw [step, hd]
    exact ⟨_, rfl, acquire hi (by rw [hd]; simp) xs⟩
  | newVec i j xs h hj =>
    have hd := hi.dead i h
    obtain ⟨w, hw, hc, _⟩ := hi.live j xs hj
    rw [step, hd]
    simp only []
    rw [hw, bind_pure_some, hc, bind_pure_some]
    exact ⟨_, rfl, acquire hi (by rw [hd]; simp) xs⟩
  | steal i xs ys h =>
    obtain ⟨v, hv, _, _⟩ := hi.live i ys h
    obtain ⟨h', e, _, hinv⟩ := clear_eq hi hv
    rw [step, hv, bind_pure_some]
    simp only [steal]
    rw [e, bind_pure_some]
    by_cases hx : xs.length = 0
    · have : xs = [] := List.length_eq_zero_iff.1 hx
      subst this
      exact ⟨_, rfl, hinv⟩
    · have := acquire hinv (i := i) (by intro v hv; simp only [setAt_same] at hv; cases hv; rfl) xs
      rw [set_set] at this
      simp only [setAt_setAt] at this
      refine ⟨_, ?_, this⟩
      simp [alloc, hx, Vec.empty]
  | swap i j xs ys h1 h2 =>
    obtain ⟨v, hv, _, _⟩ := hi.live i xs h1
    obtain ⟨w, hw, _, _⟩ := hi.live j ys h2
    rw [step, hv, bind_pure_some, hw, bind_pure_some]
    exact ⟨_, rfl, swap_inv hi hv hw h1 h2⟩
  | clear i ys h =>
    obtain ⟨v, hv, _, _⟩ := hi.live i ys h
    obtain ⟨h', e, _, hinv⟩ := clear_eq hi hv
    rw [step, hv, bind_pure_some, e, bind_pure_some]
    exact ⟨_, rfl, hinv⟩
  | assign i xs ys h =>
    obtain ⟨v, hv, _, _⟩ := hi.live i ys h
    obtain ⟨h', e, _, hinv⟩ := clear_eq hi hv
    rw [step, hv, bind_pure_some]
    simp only [assign]
    rw [e, bind_pure_some]
    have := acquire hinv (i := i) (by intro v hv; simp only [setAt_same] at hv; cases hv; rfl) xs
    rw [set_set] at this
    simp only [setAt_setAt] at this
    exact ⟨_, rfl, this⟩
  | assignVec i j xs ys hij h1 h2 =>
    obtain ⟨v, hv, _, _⟩ := hi.live i ys h1
    obtain ⟨h', e, _, hinv⟩ := clear_eq hi hv
    obtain ⟨w, hw, hc, _⟩ := hinv.live j xs (by rw [set_ne _ _ (Ne.symm hij)]; exact h2)
    have hw' : s.vecs j = some w := by
      simp only [setAt, if_neg (Ne.symm hij)] at hw; exact hw
    rw [step, hw', bind_pure_some, hv, bind_pure_some, e, bind_pure_some]
    simp only [] at hc ⊢
    rw [hc, bind_pure_some]
    have := acquire hinv (i := i) (by intro v hv; simp only [setAt_same] at hv; cases hv; rfl) xs
    rw [set_set] at this
    rw [setAt_setAt] at this
    exact ⟨_, rfl, this⟩
  | map i xs ys h =>
    obtain ⟨v, hv, _, _⟩ := hi.live i ys h
    obtain ⟨h', e, ed, _⟩ := clear_eq hi hv
    obtain ⟨h'', ed', hinv⟩ := release hi hv (unowned_image xs)
    rw [ed] at ed'; cases ed'
    rw [step, hv, bind_pure_some]
    simp only [mapImage]
    rw [e, bind_pure_some]
    exact ⟨_, rfl, hinv⟩
  | destroy i ys h =>
    obtain ⟨v, hv, _, _⟩ := hi.live i ys h
    obtain ⟨h', e, hinv⟩ := release hi hv unowned_none
    rw [step, hv, bind_pure_some, e, bind_pure_some]
    exact ⟨_, rfl, hinv⟩

theorem run_inv {s : State α} {a b : Contents α} {cs : List (Cmd α)} (hi : Inv s a) (hr : Run a cs b) : ∃ s', run s cs = some s' ∧ Inv s' b := by
  induction hr generalizing s with
  | nil a => exact ⟨s, rfl, hi⟩
  | cons hs _ ih =>
    obtain ⟨s1, e1, h1⟩ := step_inv hi hs
    obtain ⟨s2, e2, h2⟩ := ih h1
    exact ⟨s2, by rw [run, e1, bind_pure_some, e2], h2⟩

theorem init_inv : Inv (init : State α) (fun _ => none) :=
  ⟨fun _ _ => rfl, by simp, by simp [init], by simp [init], by simp [init], by simp [init]⟩

theorem get_of_contents {h : Heap α} {v : Vec α} {xs : List α} (hc : contents h v = some xs) (hs : v.size = xs.length) (k : Nat) : get h v k = xs[k]? := by
  unfold get
  by_cases hk : k < v.size
  · rw [if_pos hk]
    unfold contents at hc
    split
    · rename_i hd
      rw [hd] at hc
      simp only [] at hc
      rw [if_neg (by omega)] at hc; simp at hc
    · rename_i id hd
      rw [hd] at hc
      simp only [] at hc
      split at hc
      · rename_i ys hy
        split at hc
        · cases hc; rw [List.getElem?_take_of_lt hk]
        · simp at hc
      · simp at hc
    · rename_i ys hd
      rw [hd] at hc
      simp only [] at hc
      split at hc
      · cases hc; rw [List.getElem?_take_of_lt hk]
      · simp at hc
  · rw [if_neg hk, List.getElem?_eq_none (by omega)]

end Succinct.Mappable
