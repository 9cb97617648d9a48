import Verif.Model.TopKOver
import Verif.Lemmas.Mapper
import Verif.Lemmas.RSBitVector

/-! A `topk_vector` over a container that returns its values behaves as the one over the list of values. -/
namespace Succinct
open RSBitVector (bind_pure_some)

namespace CartesianBuilder

/-- the builder on the values of a function -/
def mapS {ρ α : Type} (f : ρ → α) (s : CartesianBuilder ρ) : CartesianBuilder α := ⟨s.stack.map f, s.bp⟩

variable {ρ α : Type} {lr : ρ → ρ → Bool} {la : α → α → Bool} {f : ρ → α} (hf : ∀ x y, la (f x) (f y) = lr x y)
include hf

theorem popLoop_map (x : ρ) (st : List ρ) (b : Builder) :
    popLoop la (f x) (st.map f) b = (popLoop lr x st b).map fun r => (r.1.map f, r.2) := by
  induction st generalizing b with
  | nil => rfl
  | cons y st ih =>
    rw [List.map_cons]
    unfold popLoop
    rw [hf]
    split
    · cases hb : b.pushBack true with
      | none => rfl
      | some b' => rw [bind_pure_some, bind_pure_some, ih]
    · rfl

theorem pushBack_map (s : CartesianBuilder ρ) (x : ρ) : pushBack la (mapS f s) (f x) = (pushBack lr s x).map (mapS f) := by
  unfold pushBack
  show (s.bp.pushBack false >>= _) = _
  cases s.bp.pushBack false with
  | none => rfl
  | some b =>
    rw [bind_pure_some, bind_pure_some]
    show (popLoop la (f x) (s.stack.map f) b >>= _) = _
    rw [popLoop_map hf]
    cases popLoop lr x s.stack b <;> rfl

theorem pushAll_map (v : List ρ) (s : CartesianBuilder ρ) : pushAll la (v.map f) (mapS f s) = (pushAll lr v s).map (mapS f) := by
  induction v generalizing s with
  | nil => rfl
  | cons x v ih =>
    rw [List.map_cons]
    unfold pushAll
    rw [pushBack_map hf]
    cases pushBack lr s x with
    | none => rfl
    | some s' => exact ih s'

omit hf in
theorem drainLoop_map (st : List ρ) (b : Builder) : drainLoop (st.map f) b = drainLoop st b := by
  induction st generalizing b with
  | nil => rfl
  | cons x st ih =>
    rw [List.map_cons]
    unfold drainLoop
    cases b.pushBack true with
    | none => rfl
    | some b' => exact ih b'

omit hf in
theorem finalize_map (s : CartesianBuilder ρ) : finalize (mapS f s) = finalize s := by
  unfold finalize
  show (s.bp.pushBack false >>= fun b => drainLoop (s.stack.map f) b >>= _) = _
  simp only [drainLoop_map]

end CartesianBuilder

/-- the tree depends only on the comparisons -/
theorem CartesianTree.build_map {ρ α : Type} {lr : ρ → ρ → Bool} {la : α → α → Bool} {f : ρ → α} (hf : ∀ x y, la (f x) (f y) = lr x y) (v : List ρ) :
    CartesianTree.build la (v.map f) = CartesianTree.build lr v := by
  have e : CartesianTree.build la (v.map f) = (CartesianBuilder.new 0 false >>= fun s => CartesianBuilder.pushAll la (v.map f) s >>= ofBuilder) := rfl
  have e' : CartesianTree.build lr v = (CartesianBuilder.new 0 false >>= fun s => CartesianBuilder.pushAll lr v s >>= ofBuilder) := rfl
  have hn : (CartesianBuilder.new 0 false : Option (CartesianBuilder α)) = (CartesianBuilder.new 0 false).map (CartesianBuilder.mapS f) := by
    unfold CartesianBuilder.new
    cases Builder.new 0 false <;> rfl
  rw [e, e', hn]
  cases (CartesianBuilder.new 0 false : Option (CartesianBuilder ρ)) with
  | none => rfl
  | some s =>
    show (CartesianBuilder.pushAll la (v.map f) (CartesianBuilder.mapS f s) >>= ofBuilder) = _
    rw [CartesianBuilder.pushAll_map hf, bind_pure_some]
    cases CartesianBuilder.pushAll lr v s with
    | none => rfl
    | some s' =>
      show ofBuilder (CartesianBuilder.mapS f s') = ofBuilder s'
      unfold ofBuilder
      rw [CartesianBuilder.finalize_map]

namespace TopKOverEnum
variable {V α : Type} {c : Container V α} {w : List α}

/-- the same with the list of values -/
def erase (w : List α) (e : TopKOverEnum V α) : TopKEnum α := ⟨e.topkv.map fun t => ⟨w, t.tree⟩, e.q, e.cur⟩

/-- the vector it points to, if any, holds `w` -/
def Holds (c : Container V α) (w : List α) (e : TopKOverEnum V α) : Prop := ∀ t, e.topkv = some t → ∀ i, c.get t.v i = w[i]?

theorem elemFor_erase {t : TopKOver V} (h : ∀ i, c.get t.v i = w[i]?) (a b : Nat) : elemFor c t a b = TopKEnum.elemFor ⟨w, t.tree⟩ a b := by
  unfold elemFor TopKEnum.elemFor rd
  simp only [h]

theorem set_erase {t : TopKOver V} (h : ∀ i, c.get t.v i = w[i]?) (e : TopKOverEnum V α) (e0 : TopKEnum α) (he : e.cur = e0.cur) (a b : Nat) :
    TopKEnum.set e0 ⟨w, t.tree⟩ a b = (set c e t a b).map (erase w) ∧ ∀ e', set c e t a b = some e' → Holds c w e' := by
  unfold TopKEnum.set set
  simp only [elemFor_erase h]
  cases assertP (a ≤ b) with
  | none => exact ⟨rfl, fun _ h => (nomatch h)⟩
  | some _ =>
    simp only [bind_pure_some]
    cases TopKEnum.elemFor ⟨w, t.tree⟩ a b with
    | none => exact ⟨rfl, fun _ h => (nomatch h)⟩
    | some x =>
      refine ⟨?_, ?_⟩
      · show some (TopKEnum.mk _ _ e0.cur) = some (TopKEnum.mk _ _ e.cur)
        rw [he]; rfl
      · intro e' h'
        cases h'
        intro t' ht'
        cases ht'
        exact h

theorem pushLeft_erase {e : TopKOverEnum V α} (h : Holds c w e) (hp : HeapOps (QElem α)) (x : QElem α) (q : List (QElem α)) :
    pushLeft c hp e.topkv x q = TopKEnum.pushLeft hp (erase w e).topkv x q := by
  unfold pushLeft TopKEnum.pushLeft erase
  cases ht : e.topkv with
  | none => rfl
  | some t => simp only [Option.map_some, bind_pure_some, elemFor_erase (h t ht)]

theorem pushRight_erase {e : TopKOverEnum V α} (h : Holds c w e) (hp : HeapOps (QElem α)) (x : QElem α) (q : List (QElem α)) :
    pushRight c hp e.topkv x q = TopKEnum.pushRight hp (erase w e).topkv x q := by
  unfold pushRight TopKEnum.pushRight erase
  cases ht : e.topkv with
  | none => rfl
  | some t => simp only [Option.map_some, bind_pure_some, elemFor_erase (h t ht)]

theorem next_erase {e : TopKOverEnum V α} (h : Holds c w e) (hp : HeapOps (QElem α)) :
    TopKEnum.next hp (erase w e) = (next c hp e).map (fun r => (r.1, erase w r.2)) ∧ ∀ r, next c hp e = some r → Holds c w r.2 := by
  unfold next TopKEnum.next
  show (if e.q = [] then _ else (hp.popHeap e.q >>= _)) = _ ∧ _
  by_cases hq : e.q = []
  · rw [if_pos hq, if_pos hq]
    exact ⟨rfl, fun r hr => by cases hr; exact h⟩
  · rw [if_neg hq, if_neg hq]
    simp only [pushLeft_erase h, pushRight_erase h]
    cases hp.popHeap e.q with
    | none => exact ⟨rfl, fun _ h => (nomatch h)⟩
    | some q =>
      simp only [bind_pure_some]
      cases q.getLast? with
      | none => exact ⟨rfl, fun _ h => (nomatch h)⟩
      | some x =>
        simp only [bind_pure_some]
        cases TopKEnum.pushLeft hp (erase w e).topkv x q.dropLast with
        | none => exact ⟨rfl, fun _ h => (nomatch h)⟩
        | some q1 =>
          simp only [bind_pure_some]
          cases TopKEnum.pushRight hp (erase w e).topkv x q1 with
          | none => exact ⟨rfl, fun _ h => (nomatch h)⟩
          | some q2 => exact ⟨rfl, fun r hr => by cases hr; exact h⟩

theorem nexts_erase (hp : HeapOps (QElem α)) (k : Nat) : ∀ {e : TopKOverEnum V α}, Holds c w e → nexts c hp k e = TopKEnum.nexts hp k (erase w e) := by
  induction k with
  | zero => intro e _; rfl
  | succ k ih =>
    intro e h
    obtain ⟨h1, h2⟩ := next_erase h hp
    unfold nexts TopKEnum.nexts
    rw [h1]
    cases hn : next c hp e with
    | none => rfl
    | some r =>
      rw [Option.map_some, bind_pure_some, bind_pure_some]
      show (if r.1 = true then _ else _) = (if r.1 = true then (r.2.cur >>= _) else _)
      simp only [ih (h2 r hn)]

theorem topkLoop_erase (hp : HeapOps (QElem α)) (n : Nat) : ∀ {e : TopKOverEnum V α} (acc : List (α × Nat)), Holds c w e →
    TopK.topkLoop hp n (erase w e) acc = (TopKOver.topkLoop c hp n e acc).map (fun r => (r.1, erase w r.2)) ∧
      ∀ r, TopKOver.topkLoop c hp n e acc = some r → Holds c w r.2 := by
  induction n with
  | zero => intro e acc h; exact ⟨rfl, fun r hr => by cases hr; exact h⟩
  | succ n ih =>
    intro e acc h
    obtain ⟨h1, h2⟩ := next_erase h hp
    unfold TopKOver.topkLoop TopK.topkLoop
    rw [h1]
    cases hn : next c hp e with
    | none => exact ⟨rfl, fun _ h => (nomatch h)⟩
    | some r =>
      obtain ⟨r1, r2⟩ := r
      rw [Option.map_some, bind_pure_some, bind_pure_some]
      simp only []
      show (assertP (r1 = true) >>= fun _ => (r2.cur >>= _)) = _ ∧ _
      cases assertP (r1 = true) with
      | none => exact ⟨rfl, fun _ h => (nomatch h)⟩
      | some _ =>
        simp only [bind_pure_some]
        cases r2.cur with
        | none => exact ⟨rfl, fun _ h => (nomatch h)⟩
        | some x => exact ih _ (h2 _ hn)

theorem topk_erase (hp : HeapOps (QElem α)) {t : TopKOver V} (h : ∀ i, c.get t.v i = w[i]?) (a b k : Nat) :
    TopKOver.topk c hp t a b k = TopK.topk hp ⟨w, t.tree⟩ a b k := by
  unfold TopKOver.topk TopK.topk TopKOver.getEnumerator TopK.getEnumerator
  cases subU b a with
  | none => rfl
  | some d =>
    simp only [bind_pure_some]
    obtain ⟨h1, h2⟩ := set_erase h new TopKEnum.new rfl a b
    rw [h1]
    cases hs : set c new t a b with
    | none => rfl
    | some e =>
      rw [Option.map_some, bind_pure_some, bind_pure_some]
      obtain ⟨h3, h4⟩ := topkLoop_erase hp (min (d + 1) k) [] (h2 e hs)
      rw [h3]
      cases hl : TopKOver.topkLoop c hp (min (d + 1) k) e [] with
      | none => rfl
      | some r =>
        rw [Option.map_some, bind_pure_some, bind_pure_some]
        have hc : TopKOver.topkCheck c hp (min (d + 1) k) k r.2 = TopK.topkCheck hp (min (d + 1) k) k (erase w r.2) := by
          unfold TopKOver.topkCheck TopK.topkCheck
          rw [(next_erase (h4 r hl) hp).1]
          cases next c hp r.2 <;> rfl
        show (TopKOver.topkCheck c hp _ k r.2 >>= _) = (TopK.topkCheck hp _ k (erase w r.2) >>= _)
        rw [hc]

end TopKOverEnum

theorem Mapper.Codec.topKOver_lawful {V : Type} {c : Codec V} (hc : c.Lawful) : (topKOver c).Lawful :=
  iso_lawful (seq_lawful hc (obj_lawful _ cartesianTree_lawful)) (fun _ => rfl)

end Succinct
