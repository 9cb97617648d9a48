import Verif.Lemmas.Mappable
import Verif.Spec.MappableAlloc

namespace Succinct.Mappable
open RSBitVector (bind_pure_some)
open Spec
variable {α : Type}

/-- the object `v` is in the state `x` -/
def Is (h : Heap α) (v : Vec α) : Val α → Prop
  | .ok xs => contents h v = some xs ∧ v.size = xs.length
  | .broken n => v = ⟨.null, n, none⟩ ∧ 0 < n

/-- the state of the program implements the vectors `a`; every buffer is owned once or is one of the lost ones `L` -/
structure InvA (s : State α) (a : Vals α) (L : List Nat) : Prop where
  dead : ∀ i, a i = none → s.vecs i = none
  live : ∀ i x, a i = some x → ∃ v, s.vecs i = some v ∧ Is s.heap v x
  owned : ∀ i v id, s.vecs i = some v → v.deleter = some id → (∃ xs, s.heap[id]? = some (some xs)) ∧ id ∉ L
  inj : ∀ i j v w id, s.vecs i = some v → s.vecs j = some w → v.deleter = some id → w.deleter = some id → i = j
  noLeak : ∀ id xs, s.heap[id]? = some (some xs) → id ∉ L → ∃ i v, s.vecs i = some v ∧ v.deleter = some id
  own : ∀ i v id, s.vecs i = some v → v.data = .heap id → v.deleter = some id
  lost : ∀ id ∈ L, ∃ xs, s.heap[id]? = some (some xs)
  nodup : L.Nodup

/-- an object state that owns nothing -/
structure UnownedA (w : Option (Vec α)) (x : Option (Val α)) : Prop where
  dead : x = none → w = none
  live : ∀ y, x = some y → ∃ v, w = some v ∧ ∀ h, Is h v y
  noDel : ∀ v, w = some v → v.deleter = none
  noHeap : ∀ v id, w = some v → v.data ≠ .heap id

theorem vset_same (a : Vals α) (i : Nat) (x : Option (Val α)) : a.set i x i = x := by simp [Vals.set]
theorem vset_ne (a : Vals α) {i k : Nat} (x : Option (Val α)) (h : k ≠ i) : a.set i x k = a k := by simp [Vals.set, h]
theorem vset_vset (a : Vals α) (i : Nat) (x y : Option (Val α)) : (a.set i x).set i y = a.set i y := by
  funext k; simp only [Vals.set]; split <;> rfl

theorem is_congr {h h' : Heap α} {v : Vec α} {x : Val α} (e : contents h' v = contents h v) (hx : Is h v x) : Is h' v x := by
  cases x with
  | ok xs => exact ⟨by rw [e]; exact hx.1, hx.2⟩
  | broken n => exact hx

/-- the object at `i` is destroyed and replaced by one that owns nothing -/
theorem releaseA {s : State α} {a : Vals α} {L : List Nat} (hi : InvA s a L) {i : Nat} {v : Vec α} (hv : s.vecs i = some v)
    {w : Option (Vec α)} {x : Option (Val α)} (hw : UnownedA w x) :
    ∃ h, dtor s.heap v = some h ∧ InvA ⟨h, setAt s.vecs i w⟩ (a.set i x) L := by
  have key : ∃ h, dtor s.heap v = some h ∧
      (∀ (k : Nat) (u : Vec α), k ≠ i → s.vecs k = some u → contents h u = contents s.heap u) ∧
      (∀ (id : Nat), v.deleter ≠ some id → h[id]? = s.heap[id]?) ∧
      (∀ (id : Nat) (xs : List α), h[id]? = some (some xs) → s.heap[id]? = some (some xs) ∧ v.deleter ≠ some id) := by
    unfold dtor
    cases hd : v.deleter with
    | none => exact ⟨s.heap, rfl, fun _ _ _ _ => rfl, fun _ _ => rfl, fun id xs h => ⟨h, by simp⟩⟩
    | some d =>
      obtain ⟨⟨ys, hys⟩, _⟩ := hi.owned i v d hv hd
      refine ⟨s.heap.set d none, by simp [free, hys], ?_, ?_, ?_⟩
      · intro k u hk hu
        apply contents_set_none
        intro e
        exact hk (hi.inj k i u v d hu hv (hi.own k u d hu e) hd)
      · intro id hne
        have : d ≠ id := by rintro rfl; exact hne rfl
        rw [List.getElem?_set_ne this]
      · intro id xs h
        have : d ≠ id := by
          rintro rfl
          rw [List.getElem?_set] at h
          simp at h
        rw [List.getElem?_set_ne this] at h
        exact ⟨h, by simpa using this⟩
  obtain ⟨h, e, h1, h2, h3⟩ := key
  refine ⟨h, e, ?_⟩
  constructor
  · intro k hk
    by_cases hki : k = i
    · subst hki; rw [vset_same] at hk; simp only [setAt_same]; exact hw.dead hk
    · rw [vset_ne _ _ hki] at hk; simp only [setAt_ne _ _ hki]; exact hi.dead k hk
  · intro k y hk
    by_cases hki : k = i
    · subst hki; rw [vset_same] at hk
      obtain ⟨u, hu, hc⟩ := hw.live y hk
      exact ⟨u, by simp only [setAt_same]; exact hu, hc _⟩
    · rw [vset_ne _ _ hki] at hk
      obtain ⟨u, hu, hc⟩ := hi.live k y hk
      exact ⟨u, by simp only [setAt_ne _ _ hki]; exact hu, is_congr (h1 k u hki hu) hc⟩
  · intro k u id hu hd
    by_cases hki : k = i
    · subst hki; simp only [setAt_same] at hu; rw [hw.noDel u hu] at hd; simp at hd
    · simp only [setAt_ne _ _ hki] at hu
      obtain ⟨⟨xs, hx⟩, hL⟩ := hi.owned k u id hu hd
      exact ⟨⟨xs, by rw [h2 id (fun hc => hki (hi.inj k i u v id hu hv hd hc))]; exact hx⟩, hL⟩
  · intro k j u t id hu ht hud htd
    by_cases hki : k = i
    · subst hki; simp only [setAt_same] at hu; rw [hw.noDel u hu] at hud; simp at hud
    · by_cases hji : j = i
      · subst hji; simp only [setAt_same] at ht; rw [hw.noDel t ht] at htd; simp at htd
      · simp only [setAt_ne _ _ hki] at hu
        simp only [setAt_ne _ _ hji] at ht
        exact hi.inj k j u t id hu ht hud htd
  · intro id xs hx hL
    obtain ⟨hx1, hx2⟩ := h3 id xs hx
    obtain ⟨k, u, hu, hud⟩ := hi.noLeak id xs hx1 hL
    have hki : k ≠ i := by
      rintro rfl
      rw [hv] at hu; cases hu
      exact hx2 hud
    exact ⟨k, u, by simp only [setAt_ne _ _ hki]; exact hu, hud⟩
  · intro k u id hu hd
    by_cases hki : k = i
    · subst hki; simp only [setAt_same] at hu; exact absurd hd (hw.noHeap u id hu)
    · simp only [setAt_ne _ _ hki] at hu; exact hi.own k u id hu hd
  · intro id hL
    obtain ⟨xs, hx⟩ := hi.lost id hL
    exact ⟨xs, by rw [h2 id (fun hc => (hi.owned i v id hv hc).2 hL)]; exact hx⟩
  · exact hi.nodup

theorem heap_lt {h : Heap α} {id : Nat} {ys : List α} (e : h[id]? = some (some ys)) : id < h.length := by
  obtain ⟨h', _⟩ := List.getElem?_eq_some_iff.1 e
  exact h'
theorem heap_old {h : Heap α} {id : Nat} {xs ys : List α} (e : h[id]? = some (some ys)) : (h ++ [some xs])[id]? = some (some ys) := by
  rw [List.getElem?_append_left (heap_lt e)]; exact e
theorem contents_old {h : Heap α} {v : Vec α} {xs : List α} (ho : ∀ id, v.data = .heap id → ∃ ys, h[id]? = some (some ys)) :
    contents (h ++ [some xs]) v = contents h v := by
  unfold contents
  split
  · rfl
  · rename_i id hid
    obtain ⟨zs, hz⟩ := ho id hid
    rw [heap_old hz, hz]
  · rfl

/-- a buffer is lost -/
theorem loseA {s : State α} {a : Vals α} {L : List Nat} (hi : InvA s a L) (xs : List α) :
    InvA ⟨s.heap ++ [some xs], s.vecs⟩ a (s.heap.length :: L) := by
  constructor
  · exact hi.dead
  · intro k y hk
    obtain ⟨u, hu, hc⟩ := hi.live k y hk
    exact ⟨u, hu, is_congr (contents_old fun id h => (hi.owned k u id hu (hi.own k u id hu h)).1) hc⟩
  · intro k u id hu hd
    obtain ⟨⟨ys, hy⟩, hL⟩ := hi.owned k u id hu hd
    refine ⟨⟨ys, heap_old hy⟩, ?_⟩
    have := heap_lt hy
    simp only [List.mem_cons, not_or]
    exact ⟨by omega, hL⟩
  · exact hi.inj
  · intro id ys hy hL
    simp only [List.mem_cons, not_or] at hL
    simp only [] at hy
    have : id < s.heap.length := by have := heap_lt hy; simp at this; omega
    rw [List.getElem?_append_left this] at hy
    exact hi.noLeak id ys hy hL.2
  · exact hi.own
  · intro id hL
    rcases List.mem_cons.1 hL with rfl | hL
    · exact ⟨xs, by simp⟩
    · obtain ⟨ys, hy⟩ := hi.lost id hL; exact ⟨ys, heap_old hy⟩
  · refine List.nodup_cons.2 ⟨fun h => ?_, hi.nodup⟩
    obtain ⟨ys, hy⟩ := hi.lost _ h
    exact absurd (heap_lt hy) (by omega)

/-- an object that owns nothing is replaced by one that owns a new buffer -/
theorem acquireA {s : State α} {a : Vals α} {L : List Nat} (hi : InvA s a L) {i : Nat} (hu : ∀ v, s.vecs i = some v → v.deleter = none) (xs : List α) :
    InvA ⟨s.heap ++ [some xs], setAt s.vecs i (some ⟨.heap s.heap.length, xs.length, some s.heap.length⟩)⟩ (a.set i (some (.ok xs))) L := by
  have hnew : (s.heap ++ [some xs])[s.heap.length]? = some (some xs) := by simp
  constructor
  · intro k hk
    by_cases hki : k = i
    · subst hki; rw [vset_same] at hk; simp at hk
    · rw [vset_ne _ _ hki] at hk; simp only [setAt_ne _ _ hki]; exact hi.dead k hk
  · intro k y hk
    by_cases hki : k = i
    · subst hki; rw [vset_same] at hk; cases hk
      exact ⟨_, setAt_same _ _ _, by simp [contents], rfl⟩
    · rw [vset_ne _ _ hki] at hk
      obtain ⟨u, hv, hc⟩ := hi.live k y hk
      exact ⟨u, by simp only [setAt_ne _ _ hki]; exact hv, is_congr (contents_old fun id h => (hi.owned k u id hv (hi.own k u id hv h)).1) hc⟩
  · intro k u id hv hd
    by_cases hki : k = i
    · subst hki; simp only [setAt_same] at hv; cases hv; cases hd
      refine ⟨⟨xs, hnew⟩, fun h => ?_⟩
      obtain ⟨ys, hy⟩ := hi.lost _ h
      exact absurd (heap_lt hy) (by omega)
    · simp only [setAt_ne _ _ hki] at hv
      obtain ⟨⟨zs, hz⟩, hL⟩ := hi.owned k u id hv hd
      exact ⟨⟨zs, heap_old hz⟩, hL⟩
  · intro k j u t id hv ht hvd htd
    have aux : ∀ (k : Nat) (u : Vec α), k ≠ i → setAt s.vecs i (some ⟨.heap s.heap.length, xs.length, some s.heap.length⟩) k = some u →
        u.deleter ≠ some s.heap.length := by
      intro k u hki hv hd
      rw [setAt_ne _ _ hki] at hv
      obtain ⟨⟨zs, hz⟩, _⟩ := hi.owned k u _ hv hd
      exact absurd (heap_lt hz) (by omega)
    by_cases hki : k = i
    · by_cases hji : j = i
      · rw [hki, hji]
      · subst hki; simp only [setAt_same] at hv; cases hv; cases hvd
        exact absurd htd (aux j t hji ht)
    · by_cases hji : j = i
      · subst hji; simp only [setAt_same] at ht; cases ht; cases htd
        exact absurd hvd (aux k u hki hv)
      · simp only [setAt_ne _ _ hki] at hv
        simp only [setAt_ne _ _ hji] at ht
        exact hi.inj k j u t id hv ht hvd htd
  · intro id ys hy hL
    simp only [] at hy
    by_cases hid : id < s.heap.length
    · rw [List.getElem?_append_left hid] at hy
      obtain ⟨k, u, hv, hd⟩ := hi.noLeak id ys hy hL
      have hki : k ≠ i := by rintro rfl; rw [hu u hv] at hd; simp at hd
      exact ⟨k, u, by simp only [setAt_ne _ _ hki]; exact hv, hd⟩
    · have : id = s.heap.length := by
        have h' := heap_lt hy
        simp at h'; omega
      subst this
      exact ⟨i, _, setAt_same _ _ _, rfl⟩
  · intro k u id hv hd
    by_cases hki : k = i
    · subst hki; simp only [setAt_same] at hv; cases hv; cases hd; rfl
    · simp only [setAt_ne _ _ hki] at hv; exact hi.own k u id hv hd
  · intro id hL
    obtain ⟨ys, hy⟩ := hi.lost id hL
    exact ⟨ys, heap_old hy⟩
  · exact hi.nodup

theorem unownedA_none : UnownedA (none : Option (Vec α)) none :=
  ⟨fun _ => rfl, by simp, by simp, by simp⟩
theorem unownedA_empty : UnownedA (some (Vec.empty : Vec α)) (some (.ok [])) :=
  ⟨by simp, by intro xs h; cases h; exact ⟨_, rfl, fun _ => ⟨rfl, rfl⟩⟩, by intro v h; cases h; rfl, by intro v id h; cases h; simp [Vec.empty]⟩
theorem unownedA_broken (n : Nat) (hn : 0 < n) : UnownedA (some (⟨.null, n, none⟩ : Vec α)) (some (.broken n)) :=
  ⟨by simp, by intro xs h; cases h; exact ⟨_, rfl, fun _ => ⟨rfl, hn⟩⟩, by intro v h; cases h; rfl, by intro v id h; cases h; simp⟩
theorem unownedA_image (xs : List α) : UnownedA (some (⟨.image xs, xs.length, none⟩ : Vec α)) (some (.ok xs)) :=
  ⟨by simp, by intro ys h; cases h; exact ⟨_, rfl, fun _ => ⟨by simp [contents], rfl⟩⟩, by intro v h; cases h; rfl, by intro v id h; cases h; simp⟩

theorem clear_of_dtor {h h' : Heap α} {v : Vec α} (e : dtor h v = some h') : clear h v = some (h', Vec.empty) := by
  have : swap Vec.empty v = (v, Vec.empty) := rfl
  unfold clear
  rw [this]
  simp only []
  rw [e, bind_pure_some]; rfl

theorem clearA {s : State α} {a : Vals α} {L : List Nat} (hi : InvA s a L) {i : Nat} {v : Vec α} (hv : s.vecs i = some v) :
    ∃ h, clear s.heap v = some (h, Vec.empty) ∧ dtor s.heap v = some h ∧ InvA ⟨h, setAt s.vecs i (some Vec.empty)⟩ (a.set i (some (.ok []))) L := by
  obtain ⟨h, e, hinv⟩ := releaseA hi hv unownedA_empty
  exact ⟨h, clear_of_dtor e, e, hinv⟩

/-- the new object owns nothing -/
theorem constructA {s : State α} {a : Vals α} {L : List Nat} (hi : InvA s a L) {i : Nat} (hd : a i = none) :
    InvA ⟨s.heap, setAt s.vecs i (some Vec.empty)⟩ (a.set i (some (.ok []))) L := by
  have hv := hi.dead i hd
  constructor
  · intro k hk
    by_cases hki : k = i
    · subst hki; rw [vset_same] at hk; simp at hk
    · rw [vset_ne _ _ hki] at hk; simp only [setAt_ne _ _ hki]; exact hi.dead k hk
  · intro k xs hk
    by_cases hki : k = i
    · subst hki; rw [vset_same] at hk; cases hk
      exact ⟨_, setAt_same _ _ _, rfl, rfl⟩
    · rw [vset_ne _ _ hki] at hk; simp only [setAt_ne _ _ hki]; exact hi.live k xs hk
  · intro k u id hu hd
    by_cases hki : k = i
    · subst hki; simp only [setAt_same] at hu; cases hu; simp [Vec.empty] at hd
    · simp only [setAt_ne _ _ hki] at hu; exact hi.owned k u id hu hd
  · intro k j u t id hu ht hud htd
    by_cases hki : k = i
    · subst hki; simp only [setAt_same] at hu; cases hu; simp [Vec.empty] at hud
    · by_cases hji : j = i
      · subst hji; simp only [setAt_same] at ht; cases ht; simp [Vec.empty] at htd
      · simp only [setAt_ne _ _ hki] at hu
        simp only [setAt_ne _ _ hji] at ht
        exact hi.inj k j u t id hu ht hud htd
  · intro id xs hx hL
    obtain ⟨k, u, hu, hd⟩ := hi.noLeak id xs hx hL
    have hki : k ≠ i := by rintro rfl; rw [hv] at hu; simp at hu
    exact ⟨k, u, by simp only [setAt_ne _ _ hki]; exact hu, hd⟩
  · intro k u id hu hd
    by_cases hki : k = i
    · subst hki; simp only [setAt_same] at hu; cases hu; simp [Vec.empty] at hd
    · simp only [setAt_ne _ _ hki] at hu; exact hi.own k u id hu hd
  · exact hi.lost
  · exact hi.nodup

theorem swapA {s : State α} {a : Vals α} {L : List Nat} (hi : InvA s a L) {i j : Nat} {v w : Vec α} {x y : Val α} (hv : s.vecs i = some v)
    (hw : s.vecs j = some w) (hx : a i = some x) (hy : a j = some y) :
    InvA ⟨s.heap, setAt (setAt s.vecs i (some w)) j (some v)⟩ ((a.set i (some y)).set j (some x)) L := by
  -- the swapped state is the old one with `i` and `j` exchanged
  let σ : Nat → Nat := fun k => if k = j then i else if k = i then j else k
  have hσσ : ∀ k l, σ k = σ l → k = l := by
    intro k l h
    simp only [σ] at h
    split at h <;> split at h <;> (try split at h) <;> (try split at h) <;> omega
  have hsurj : ∀ k, ∃ l, σ l = k := by
    intro k
    by_cases h1 : k = i
    · exact ⟨j, by simp [σ, h1]⟩
    · by_cases h2 : k = j
      · refine ⟨i, ?_⟩
        simp only [σ]
        split
        · omega
        · simp [h2]
      · exact ⟨k, by simp [σ, h1, h2]⟩
  have e1 : ∀ k, setAt (setAt s.vecs i (some w)) j (some v) k = s.vecs (σ k) := by
    intro k
    simp only [setAt, σ]
    split
    · exact hv.symm
    · split
      · exact hw.symm
      · rfl
  have e2 : ∀ k, ((a.set i (some y)).set j (some x)) k = a (σ k) := by
    intro k
    simp only [Vals.set, σ]
    split
    · exact hx.symm
    · split
      · exact hy.symm
      · rfl
  constructor
  · intro k hk; rw [e2] at hk; simp only [e1]; exact hi.dead _ hk
  · intro k zs hk; rw [e2] at hk; simp only [e1]; exact hi.live _ zs hk
  · intro k u id hu; simp only [e1] at hu; exact hi.owned _ u id hu
  · intro k l u t id hu ht h1 h2
    simp only [e1] at hu ht
    exact hσσ _ _ (hi.inj _ _ u t id hu ht h1 h2)
  · intro id zs hz hL
    obtain ⟨k, u, hu, hd⟩ := hi.noLeak id zs hz hL
    obtain ⟨l, hl⟩ := hsurj k
    exact ⟨l, u, by simp only [e1, hl]; exact hu, hd⟩
  · intro k u id hu; simp only [e1] at hu; exact hi.own _ u id hu
  · exact hi.lost
  · exact hi.nodup

/-- an operation that does not throw -/
theorem step_invA {s : State α} {a b : Vals α} {L : List Nat} {c : Cmd α} (hi : InvA s a L) (he : effect a c .none = some (b, false, 0)) :
    ∃ s', step s c = some s' ∧ InvA s' b L := by
  cases c with
  | new i =>
    cases h : a i with
    | some _ => simp [effect, h] at he
    | none =>
      simp [effect, h] at he; subst he
      rw [step, hi.dead i h]
      exact ⟨_, rfl, constructA hi h⟩
  | newRange i xs =>
    cases h : a i with
    | some _ => simp [effect, h] at he
    | none =>
      simp [effect, h] at he; subst he
      have hd := hi.dead i h
      rw [step, hd]
      exact ⟨_, rfl, acquireA hi (by rw [hd]; simp) xs⟩
  | newVec i j =>
    cases h : a i with
    | some _ => simp [effect, h] at he
    | none =>
      cases hj : a j with
      | none => simp [effect, h, hj] at he
      | some y =>
        cases y with
        | broken n => simp [effect, h, hj] at he
        | ok xs =>
          simp [effect, h, hj] at he; subst he
          have hd := hi.dead i h
          obtain ⟨w, hw, hc, _⟩ := hi.live j _ hj
          rw [step, hd]
          simp only []
          rw [hw, bind_pure_some, hc, bind_pure_some]
          exact ⟨_, rfl, acquireA hi (by rw [hd]; simp) xs⟩
  | steal i xs =>
    cases h : a i with
    | none => simp [effect, h] at he
    | some y =>
      simp [effect, h] at he; subst he
      obtain ⟨v, hv, _⟩ := hi.live i y h
      obtain ⟨h', e, _, hinv⟩ := clearA hi hv
      rw [step, hv, bind_pure_some]
      simp only [steal]
      rw [e, bind_pure_some]
      by_cases hx : xs.length = 0
      · have : xs = [] := List.length_eq_zero_iff.1 hx
        subst this
        exact ⟨_, rfl, hinv⟩
      · have := acquireA hinv (i := i) (by intro v hv; simp only [setAt_same] at hv; cases hv; rfl) xs
        rw [vset_vset] at this
        simp only [setAt_setAt] at this
        refine ⟨_, ?_, this⟩
        simp [alloc, hx, Vec.empty]
  | swap i j =>
    cases h : a i with
    | none => simp [effect, h] at he
    | some x =>
      cases hj : a j with
      | none => simp [effect, h, hj] at he
      | some y =>
        simp [effect, h, hj] at he; subst he
        obtain ⟨v, hv, _⟩ := hi.live i _ h
        obtain ⟨w, hw, _⟩ := hi.live j _ hj
        rw [step, hv, bind_pure_some, hw, bind_pure_some]
        exact ⟨_, rfl, swapA hi hv hw h hj⟩
  | clear i =>
    cases h : a i with
    | none => simp [effect, h] at he
    | some y =>
      simp [effect, h] at he; subst he
      obtain ⟨v, hv, _⟩ := hi.live i y h
      obtain ⟨h', e, _, hinv⟩ := clearA hi hv
      rw [step, hv, bind_pure_some, e, bind_pure_some]
      exact ⟨_, rfl, hinv⟩
  | assign i xs =>
    cases h : a i with
    | none => simp [effect, h] at he
    | some y =>
      simp [effect, h] at he; subst he
      obtain ⟨v, hv, _⟩ := hi.live i y h
      obtain ⟨h', e, _, hinv⟩ := clearA hi hv
      rw [step, hv, bind_pure_some]
      simp only [assign]
      rw [e, bind_pure_some]
      have := acquireA hinv (i := i) (by intro v hv; simp only [setAt_same] at hv; cases hv; rfl) xs
      rw [vset_vset] at this
      simp only [setAt_setAt] at this
      exact ⟨_, rfl, this⟩
  | assignVec i j =>
    cases h : a i with
    | none => simp [effect, h] at he
    | some y =>
      cases hj : a j with
      | none => simp [effect, h, hj] at he
      | some z =>
        cases z with
        | broken n => simp [effect, h, hj] at he
        | ok xs =>
          by_cases hij : i = j
          · simp [effect, h, hj, hij] at he
          · simp [effect, h, hj, hij] at he; subst he
            obtain ⟨v, hv, _⟩ := hi.live i y h
            obtain ⟨h', e, _, hinv⟩ := clearA hi hv
            obtain ⟨w, hw, hc, _⟩ := hinv.live j (.ok xs) (by rw [vset_ne _ _ (Ne.symm hij)]; exact hj)
            have hw' : s.vecs j = some w := by
              simp only [setAt, if_neg (Ne.symm hij)] at hw; exact hw
            rw [step, hw', bind_pure_some, hv, bind_pure_some, e, bind_pure_some]
            simp only [] at hc ⊢
            rw [hc, bind_pure_some]
            have := acquireA hinv (i := i) (by intro v hv; simp only [setAt_same] at hv; cases hv; rfl) xs
            rw [vset_vset] at this
            rw [setAt_setAt] at this
            exact ⟨_, rfl, this⟩
  | map i xs =>
    cases h : a i with
    | none => simp [effect, h] at he
    | some y =>
      simp [effect, h] at he; subst he
      obtain ⟨v, hv, _⟩ := hi.live i y h
      obtain ⟨h', e, hinv⟩ := releaseA hi hv (unownedA_image xs)
      rw [step, hv, bind_pure_some]
      simp only [mapImage]
      rw [clear_of_dtor e, bind_pure_some]
      exact ⟨_, rfl, hinv⟩
  | destroy i =>
    cases h : a i with
    | none => simp [effect, h] at he
    | some y =>
      simp [effect, h] at he; subst he
      obtain ⟨v, hv, _⟩ := hi.live i y h
      obtain ⟨h', e, hinv⟩ := releaseA hi hv unownedA_none
      rw [step, hv, bind_pure_some, e, bind_pure_some]
      exact ⟨_, rfl, hinv⟩

theorem stepA_inv {s : State α} {a b : Vals α} {L : List Nat} {c : Cmd α} {f : Fault} {t : Bool} {n : Nat} (hi : InvA s a L)
    (he : effect a c f = some (b, t, n)) : ∃ s' L', stepA s c f = some (s', t) ∧ InvA s' b L' ∧ L'.length = L.length + n := by
  have normal : effect a c .none = some (b, t, n) → t = false → n = 0 → ∃ s', (step s c).map (fun s => (s, false)) = some (s', t) ∧ InvA s' b L := by
    intro h ht hn
    subst ht; subst hn
    obtain ⟨s', e, h⟩ := step_invA hi h
    exact ⟨s', by rw [e]; rfl, h⟩
  have plain : ∀ x, effect a c .none = some (b, t, n) → t = false → n = 0 → x = (step s c).map (fun s => (s, false)) →
      ∃ s' L', x = some (s', t) ∧ InvA s' b L' ∧ L'.length = L.length + n := by
    intro x h ht hn hx
    obtain ⟨s', e, h'⟩ := normal h ht hn
    exact ⟨s', L, by rw [hx, e], h', by rw [hn]; rfl⟩
  cases c with
  | newRange i xs =>
    cases h : a i with
    | some _ => simp [effect, h] at he
    | none =>
      have hd := hi.dead i h
      cases f with
      | none =>
        have he' := he
        simp [effect, h] at he
        exact plain _ he' he.2.1 he.2.2.symm rfl
      | alloc =>
        simp [effect, h] at he
        obtain ⟨rfl, rfl, rfl⟩ := he
        exact ⟨s, L, by simp [stepA, ctorThrows, hd], hi, rfl⟩
      | copy =>
        by_cases hx : xs = []
        · have he' : effect a (.newRange i xs) .none = some (b, t, n) := by simpa [effect, h, hx] using he
          simp [effect, h, hx] at he
          exact plain _ he' he.2.1 he.2.2.symm (by simp [stepA, ctorThrows, hx])
        · simp [effect, h, hx] at he
          obtain ⟨rfl, rfl, rfl⟩ := he
          exact ⟨⟨s.heap ++ [some xs], s.vecs⟩, _, by simp [stepA, ctorThrows, hd, hx, alloc], loseA hi xs, rfl⟩
  | newVec i j =>
    cases h : a i with
    | some _ => simp [effect, h] at he
    | none =>
      cases hj : a j with
      | none => simp [effect, h, hj] at he
      | some y =>
        cases y with
        | broken n => simp [effect, h, hj] at he
        | ok xs =>
          have hd := hi.dead i h
          obtain ⟨w, hw, _⟩ := hi.live j _ hj
          cases f with
          | alloc =>
            simp [effect, h, hj] at he
            obtain ⟨rfl, rfl, rfl⟩ := he
            exact ⟨s, L, by simp [stepA, hd, hw], hi, rfl⟩
          | none =>
            have he' := he
            simp [effect, h, hj] at he
            exact plain _ he' he.2.1 he.2.2.symm rfl
          | copy =>
            have he' : effect a (.newVec i j) .none = some (b, t, n) := by simpa [effect, h, hj] using he
            simp [effect, h, hj] at he
            exact plain _ he' he.2.1 he.2.2.symm rfl
  | steal i xs =>
    cases h : a i with
    | none => simp [effect, h] at he
    | some y =>
      by_cases hf : f = .alloc ∧ xs ≠ []
      · obtain ⟨rfl, hx⟩ := hf
        simp [effect, h, hx] at he
        obtain ⟨rfl, rfl, rfl⟩ := he
        obtain ⟨v, hv, _⟩ := hi.live i y h
        obtain ⟨h', e, hinv⟩ := releaseA hi hv (unownedA_broken xs.length (by cases xs with | nil => exact absurd rfl hx | cons => simp))
        exact ⟨_, L, by simp [stepA, hv, stealThrows, clear_of_dtor e, hx]; rfl, hinv, rfl⟩
      · have he' : effect a (.steal i xs) .none = some (b, t, n) := by simpa [effect, h, hf] using he
        simp [effect, h, hf] at he
        refine plain _ he' he.2.1 he.2.2.symm ?_
        by_cases hfa : f = .alloc
        · have hx : xs = [] := by
            by_contra hc; exact hf ⟨hfa, hc⟩
          obtain ⟨v, hv, _⟩ := hi.live i y h
          obtain ⟨h', e, _, hinv⟩ := clearA hi hv
          simp [stepA, hv, stealThrows, e, hx, hfa, Vec.empty]
        · simp [stepA, hfa]
  | assign i xs =>
    cases h : a i with
    | none => simp [effect, h] at he
    | some y =>
      obtain ⟨v, hv, _⟩ := hi.live i y h
      obtain ⟨h', e, _, hinv⟩ := clearA hi hv
      cases f with
      | none =>
        have he' := he
        simp [effect, h] at he
        exact plain _ he' he.2.1 he.2.2.symm (by simp [stepA, ctorThrows, hv, e])
      | alloc =>
        simp [effect, h] at he
        obtain ⟨rfl, rfl, rfl⟩ := he
        exact ⟨_, L, by simp [stepA, ctorThrows, hv, e], hinv, rfl⟩
      | copy =>
        by_cases hx : xs = []
        · have he' : effect a (.assign i xs) .none = some (b, t, n) := by simpa [effect, h, hx] using he
          simp [effect, h, hx] at he
          exact plain _ he' he.2.1 he.2.2.symm (by simp [stepA, ctorThrows, hv, e, hx])
        · simp [effect, h, hx] at he
          obtain ⟨rfl, rfl, rfl⟩ := he
          exact ⟨_, _, by simp [stepA, ctorThrows, hv, e, hx, alloc], loseA hinv xs, rfl⟩
  | assignVec i j =>
    cases h : a i with
    | none => simp [effect, h] at he
    | some y =>
      cases hj : a j with
      | none => simp [effect, h, hj] at he
      | some z =>
        cases z with
        | broken n => simp [effect, h, hj] at he
        | ok xs =>
          by_cases hij : i = j
          · simp [effect, h, hj, hij] at he
          · obtain ⟨v, hv, _⟩ := hi.live i y h
            obtain ⟨w, hw, _⟩ := hi.live j _ hj
            obtain ⟨h', e, _, hinv⟩ := clearA hi hv
            cases f with
            | alloc =>
              simp [effect, h, hj, hij] at he
              obtain ⟨rfl, rfl, rfl⟩ := he
              exact ⟨_, L, by simp [stepA, hv, hw, e], hinv, rfl⟩
            | none =>
              have he' := he
              simp [effect, h, hj, hij] at he
              exact plain _ he' he.2.1 he.2.2.symm rfl
            | copy =>
              have he' : effect a (.assignVec i j) .none = some (b, t, n) := by simpa [effect, h, hj, hij] using he
              simp [effect, h, hj, hij] at he
              exact plain _ he' he.2.1 he.2.2.symm rfl
  | new i =>
    have he' : effect a (.new i) .none = some (b, t, n) := by simpa [effect] using he
    cases h : a i with
    | none => simp [effect, h] at he; exact plain _ he' he.2.1 he.2.2.symm rfl
    | some _ => simp [effect, h] at he
  | swap i j =>
    have he' : effect a (.swap i j) .none = some (b, t, n) := by simpa [effect] using he
    cases h : a i with
    | none => simp [effect, h] at he
    | some _ =>
      cases hj : a j with
      | none => simp [effect, h, hj] at he
      | some _ => simp [effect, h, hj] at he; exact plain _ he' he.2.1 he.2.2.symm rfl
  | clear i =>
    have he' : effect a (.clear i) .none = some (b, t, n) := by simpa [effect] using he
    cases h : a i with
    | none => simp [effect, h] at he
    | some _ => simp [effect, h] at he; exact plain _ he' he.2.1 he.2.2.symm rfl
  | map i xs =>
    have he' : effect a (.map i xs) .none = some (b, t, n) := by simpa [effect] using he
    cases h : a i with
    | none => simp [effect, h] at he
    | some _ => simp [effect, h] at he; exact plain _ he' he.2.1 he.2.2.symm rfl
  | destroy i =>
    have he' : effect a (.destroy i) .none = some (b, t, n) := by simpa [effect] using he
    cases h : a i with
    | none => simp [effect, h] at he
    | some _ => simp [effect, h] at he; exact plain _ he' he.2.1 he.2.2.symm rfl

theorem runA_inv {cs : List (Cmd α × Fault)} : ∀ {s : State α} {a b : Vals α} {L : List Nat} {ts : List Bool} {n : Nat} (_ : InvA s a L)
    (_ : effects a cs = some (b, ts, n)), ∃ s' L', runA s cs = some (s', ts) ∧ InvA s' b L' ∧ L'.length = L.length + n := by
  induction cs with
  | nil => intro s a b L ts n hi he; cases he; exact ⟨s, L, rfl, hi, rfl⟩
  | cons c cs ih =>
    intro s a b L ts n hi he
    obtain ⟨c, f⟩ := c
    unfold effects at he
    simp only [Option.bind_eq_bind, Option.bind_eq_some_iff] at he
    obtain ⟨⟨a1, t1, n1⟩, e1, ⟨a2, t2, n2⟩, e2, he⟩ := he
    cases he
    obtain ⟨s1, L1, e3, h3, l3⟩ := stepA_inv hi e1
    obtain ⟨s2, L2, e4, h4, l4⟩ := ih h3 e2
    exact ⟨s2, L2, by rw [runA, e3, bind_pure_some]; simp only []; rw [e4, bind_pure_some]; rfl, h4, by simp only [] at *; omega⟩

theorem initA_inv : InvA (init : State α) (fun _ => none) [] :=
  ⟨fun _ _ => rfl, by simp, by simp [init], by simp [init], by simp [init], by simp [init], by simp, by simp⟩

end Succinct.Mappable
