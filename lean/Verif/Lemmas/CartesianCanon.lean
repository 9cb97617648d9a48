import Verif.Model.CartesianTree
import Verif.Spec.Order

/-! The Cartesian tree depends only on comparisons of a new value with values on the stack. -/
namespace Succinct
open Spec

section
variable {α β : Type} (comp : α → α → Bool) (comp' : β → β → Bool) (f : Nat → α) (f' : Nat → β)

/-- both runs fail, or both succeed with corresponding stacks and the same bits -/
def SameRun (idx : List Nat) (o : Option (CartesianBuilder α)) (o' : Option (CartesianBuilder β)) : Prop :=
  (o = none ∧ o' = none) ∨ ∃ b, o = some ⟨idx.map f, b⟩ ∧ o' = some ⟨idx.map f', b⟩

theorem popLoop_same (i : Nat) : ∀ (idx : List Nat) (b : Builder), (∀ j ∈ idx, comp (f i) (f j) = comp' (f' i) (f' j)) →
    (CartesianBuilder.popLoop comp (f i) (idx.map f) b = none ∧ CartesianBuilder.popLoop comp' (f' i) (idx.map f') b = none) ∨
    ∃ b', CartesianBuilder.popLoop comp (f i) (idx.map f) b = some ((idx.dropWhile fun j => comp (f i) (f j)).map f, b') ∧
      CartesianBuilder.popLoop comp' (f' i) (idx.map f') b = some ((idx.dropWhile fun j => comp (f i) (f j)).map f', b')
  | [], b, _ => .inr ⟨b, rfl, rfl⟩
  | j :: idx, b, h => by
    have h1 := h j (by simp)
    simp only [List.map_cons, CartesianBuilder.popLoop, ← h1]
    cases hc : comp (f i) (f j) with
    | false => right; exact ⟨b, by simp [hc], by simp [hc]⟩
    | true =>
      simp only [if_true]
      cases hb : b.pushBack true with
      | none => left; exact ⟨rfl, rfl⟩
      | some b1 =>
        have := popLoop_same i idx b1 fun k hk => h k (by simp [hk])
        rw [List.dropWhile_cons, if_pos (by exact hc)]
        exact this

theorem pushAll_same (n : Nat) (P : Nat → List Nat → Prop)
    (hagree : ∀ i idx, i < n → P i idx → ∀ j ∈ idx, comp (f i) (f j) = comp' (f' i) (f' j))
    (hstep : ∀ i idx, i < n → P i idx → P (i+1) (i :: idx.dropWhile fun j => comp (f i) (f j))) :
    ∀ (k i : Nat) (idx : List Nat) (b : Builder), i + k = n → P i idx →
      ∃ idx', SameRun f f' idx' (CartesianBuilder.pushAll comp ((List.range' i k).map f) ⟨idx.map f, b⟩)
        (CartesianBuilder.pushAll comp' ((List.range' i k).map f') ⟨idx.map f', b⟩)
  | 0, i, idx, b, _, _ => ⟨idx, .inr ⟨b, rfl, rfl⟩⟩
  | k+1, i, idx, b, hk, hp => by
    simp only [List.range'_succ, List.map_cons, CartesianBuilder.pushAll, CartesianBuilder.pushBack]
    cases hb : b.pushBack false with
    | none => exact ⟨idx, .inl ⟨rfl, rfl⟩⟩
    | some b1 =>
      rcases popLoop_same comp comp' f f' i idx b1 (hagree i idx (by omega) hp) with ⟨e1, e2⟩ | ⟨b2, e1, e2⟩
      · refine ⟨idx, .inl ⟨?_, ?_⟩⟩
        · simp [e1]
        · simp [e2]
      · have := pushAll_same n P hagree hstep k (i+1) _ b2 (by omega) (hstep i idx (by omega) hp)
        simp only [Option.bind_eq_bind, Option.bind_some, e1, e2, Option.pure_def, List.map_cons] at this ⊢
        exact this

theorem drainLoop_same : ∀ (idx : List Nat) (b : Builder), CartesianBuilder.drainLoop (idx.map f) b = CartesianBuilder.drainLoop (idx.map f') b
  | [], _ => rfl
  | _ :: idx, b => by
    simp only [List.map_cons, CartesianBuilder.drainLoop]
    cases b.pushBack true with
    | none => rfl
    | some b1 => exact drainLoop_same idx b1

theorem ofBuilder_same (idx : List Nat) (b : Builder) :
    CartesianTree.ofBuilder (⟨idx.map f, b⟩ : CartesianBuilder α) = CartesianTree.ofBuilder (⟨idx.map f', b⟩ : CartesianBuilder β) := by
  unfold CartesianTree.ofBuilder CartesianBuilder.finalize
  simp only [drainLoop_same f f' idx]

theorem build_same (n : Nat) (P : Nat → List Nat → Prop) (h0 : P 0 [])
    (hagree : ∀ i idx, i < n → P i idx → ∀ j ∈ idx, comp (f i) (f j) = comp' (f' i) (f' j))
    (hstep : ∀ i idx, i < n → P i idx → P (i+1) (i :: idx.dropWhile fun j => comp (f i) (f j))) :
    CartesianTree.build comp ((List.range' 0 n).map f) = CartesianTree.build comp' ((List.range' 0 n).map f') := by
  unfold CartesianTree.build
  have hn : (CartesianBuilder.new 0 false : Option (CartesianBuilder α)) = (Builder.new 0 false).map fun b => ⟨[], b⟩ := by
    unfold CartesianBuilder.new; cases Builder.new 0 false <;> rfl
  have hn' : (CartesianBuilder.new 0 false : Option (CartesianBuilder β)) = (Builder.new 0 false).map fun b => ⟨[], b⟩ := by
    unfold CartesianBuilder.new; cases Builder.new 0 false <;> rfl
  rw [hn, hn']
  cases Builder.new 0 false with
  | none => rfl
  | some b =>
    obtain ⟨idx, h⟩ := pushAll_same comp comp' f f' n P hagree hstep n 0 [] b (by omega) h0
    simp only [Option.map_some, Option.bind_eq_bind, Option.bind_some]
    simp only [List.map_nil] at h
    rcases h with ⟨e1, e2⟩ | ⟨b', e1, e2⟩
    · rw [e1, e2]; rfl
    · rw [e1, e2, Option.bind_some, Option.bind_some]; exact ofBuilder_same f f' idx b'
end

/-- a function listing `v` -/
theorem exists_fn {α : Type} (v : List α) (h : v ≠ []) : ∃ f : Nat → α, (List.range' 0 v.length).map f = v ∧ ∀ i, i < v.length → v[i]? = some (f i) := by
  cases v with
  | nil => exact absurd rfl h
  | cons x l =>
    refine ⟨fun i => (x :: l).getD i x, ?_, ?_⟩
    · apply List.ext_getElem?
      intro i
      by_cases hi : i < (x :: l).length
      · rw [List.getElem?_map, List.getElem?_range' hi]
        simp only [Option.map_some, Nat.zero_add, Nat.one_mul, List.getD_eq_getElem?_getD]
        rw [List.getElem?_eq_getElem hi]; rfl
      · rw [List.getElem?_eq_none (by simp only [List.length_map, List.length_range']; omega), List.getElem?_eq_none (by omega)]
    · intro i hi
      simp only [List.getD_eq_getElem?_getD]
      rw [List.getElem?_eq_getElem hi]; rfl

theorem StrictWeak.neg_trans {α : Type} {lt : α → α → Bool} (h : StrictWeak lt) {a b c : α} (h1 : lt a b = false) (h2 : lt b c = false) : lt a c = false := by
  cases h3 : lt a c with
  | false => rfl
  | true =>
    exfalso
    cases h4 : lt b a with
    | true => rw [h.trans b a c h4 h3] at h2; cases h2
    | false =>
      cases h5 : lt c b with
      | true => rw [h.trans a c b h3 h5] at h1; cases h1
      | false => rw [(h.incomp a b c h1 h4 h2 h5).1] at h3; cases h3

section
variable {α : Type} {comp : α → α → Bool} {v : List α} {f : Nat → α}

/-- `j` is the leftmost minimum of the range that starts with it -/
theorem leftmost_first (hf : ∀ i, i < v.length → v[i]? = some (f i)) {j b : Nat} (hjb : j ≤ b) (hb : b < v.length) :
    IsLeftmostMin comp v j b j ↔ ∀ k, j ≤ k → k ≤ b → comp (f k) (f j) = false := by
  constructor
  · rintro ⟨⟨_, _, x, hx, h⟩, _⟩ k h1 h2
    rw [hf j (by omega)] at hx
    cases hx
    exact h k _ h1 h2 (hf k (by omega))
  · intro h
    refine ⟨⟨Nat.le_refl _, hjb, f j, hf j (by omega), fun k y h1 h2 hy => ?_⟩, fun k hk hm => by have := hm.1; omega⟩
    rw [hf k (by omega)] at hy
    cases hy
    exact h k h1 h2

/-- if `j` is the leftmost minimum of `[j, i-1]`, a new value replaces it exactly if it is smaller -/
theorem leftmost_last (ho : StrictWeak comp) (hf : ∀ i, i < v.length → v[i]? = some (f i)) {j i : Nat} (hji : j < i) (hi : i < v.length)
    (hj : ∀ k, j ≤ k → k < i → comp (f k) (f j) = false) : IsLeftmostMin comp v j i i ↔ comp (f i) (f j) = true := by
  constructor
  · rintro ⟨_, h⟩
    have h1 := h j hji
    cases hc : comp (f i) (f j) with
    | true => rfl
    | false =>
      exfalso; apply h1
      refine ((leftmost_first hf (by omega) hi).2 fun k h2 h3 => ?_).1
      rcases Nat.eq_or_lt_of_le h3 with e | e
      · subst e; exact hc
      · exact hj k h2 e
  · intro hc
    refine ⟨⟨by omega, Nat.le_refl _, f i, hf i hi, fun k y h1 h2 hy => ?_⟩, ?_⟩
    · rw [hf k (by omega)] at hy
      cases hy
      rcases Nat.eq_or_lt_of_le h2 with e | e
      · subst e; exact ho.irrefl _
      · cases hk : comp (f k) (f i) with
        | false => rfl
        | true =>
          have := ho.trans _ _ _ hk hc
          rw [hj k h1 e] at this; cases this
    · rintro k hk ⟨h1, _, x, hx, hm⟩
      rw [hf k (by omega)] at hx
      cases hx
      have h2 := hm i _ (by omega) (Nat.le_refl _) (hf i hi)
      have := StrictWeak.neg_trans ho h2 (hj k h1 hk)
      rw [this] at hc; cases hc

/-- stack invariant: indices decrease, and each is the leftmost minimum from itself on -/
def Visible (comp : α → α → Bool) (f : Nat → α) (i : Nat) (idx : List Nat) : Prop :=
  idx.Pairwise (· > ·) ∧ ∀ j ∈ idx, j < i ∧ ∀ k, j ≤ k → k < i → comp (f k) (f j) = false

theorem visible_drop (ho : StrictWeak comp) {i : Nat} : ∀ (idx : List Nat), Visible comp f i idx →
    ∀ j ∈ idx.dropWhile (fun j => comp (f i) (f j)), comp (f i) (f j) = false
  | [], _ => nofun
  | t :: idx, h => by
    obtain ⟨h1, h2⟩ := h
    rw [List.pairwise_cons] at h1
    rw [List.dropWhile_cons]
    split
    · exact visible_drop ho idx ⟨h1.2, fun j hj => h2 j (by simp [hj])⟩
    · rename_i hc
      have hc : comp (f i) (f t) = false := by simpa using hc
      intro j hj
      rcases List.mem_cons.1 hj with e | e
      · subst e; exact hc
      · have := h1.1 j e
        exact StrictWeak.neg_trans ho hc ((h2 j (by simp [e])).2 t (by omega) (h2 t (by simp)).1)

theorem visible_step (ho : StrictWeak comp) {i : Nat} {idx : List Nat} (h : Visible comp f i idx) :
    Visible comp f (i+1) (i :: idx.dropWhile fun j => comp (f i) (f j)) := by
  have hs := List.dropWhile_sublist (fun j => comp (f i) (f j)) (l := idx)
  refine ⟨List.pairwise_cons.2 ⟨fun j hj => (h.2 j (hs.mem hj)).1, h.1.sublist hs⟩, fun j hj => ?_⟩
  rcases List.mem_cons.1 hj with e | e
  · subst e
    refine ⟨by omega, fun k h1 h2 => ?_⟩
    obtain rfl : k = j := by omega
    exact ho.irrefl _
  · have hj' := h.2 j (hs.mem e)
    refine ⟨by omega, fun k h1 h2 => ?_⟩
    rcases Nat.lt_or_ge k i with e2 | e2
    · exact hj'.2 k h1 e2
    · obtain rfl : k = i := by omega
      exact visible_drop ho idx h j e
end

theorem build_canonical {α β : Type} {comp : α → α → Bool} {comp' : β → β → Bool} (ho : StrictWeak comp) (ho' : StrictWeak comp')
    (v : List α) (w : List β) (hl : v.length = w.length)
    (h : ∀ a b m, a ≤ b → b < v.length → (IsLeftmostMin comp v a b m ↔ IsLeftmostMin comp' w a b m)) :
    CartesianTree.build comp v = CartesianTree.build comp' w := by
  by_cases hv : v = []
  · subst hv
    obtain rfl := List.eq_nil_of_length_eq_zero hl.symm
    rfl
  · have hw : w ≠ [] := by rintro rfl; exact hv (List.eq_nil_of_length_eq_zero hl)
    obtain ⟨f, hf1, hf⟩ := exists_fn v hv
    obtain ⟨f', hf1', hf'⟩ := exists_fn w hw
    rw [← hf1, ← hf1', ← hl]
    refine build_same comp comp' f f' v.length (Visible comp f) ⟨List.Pairwise.nil, nofun⟩ ?_ (fun i idx _ hp => visible_step ho hp)
    intro i idx hi hp j hj
    obtain ⟨h1, h2⟩ := hp.2 j hj
    have e1 := leftmost_last ho hf h1 hi h2
    have h2' : ∀ k, j ≤ k → k < i → comp' (f' k) (f' j) = false := by
      intro k k1 k2
      refine (leftmost_first hf' (b := i - 1) (by omega) (by omega)).1 ?_ k k1 (by omega)
      rw [← h j (i-1) j (by omega) (by omega)]
      exact (leftmost_first hf (by omega) (by omega)).2 fun k a b => h2 k a (by omega)
    have e2 := leftmost_last ho' hf' h1 (by omega) h2'
    rw [Bool.eq_iff_iff, ← e1, ← e2]
    exact h j i i (by omega) hi

end Succinct
