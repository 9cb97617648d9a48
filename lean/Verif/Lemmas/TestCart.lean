import Verif.Lemmas.TestRmq

/-! # The drivers of `cartesian_tree` and of `topk_vector` -/
namespace Succinct
namespace Test
open Spec
open RSBitVector (bind_pure_some)

theorem leftmost_unique {α : Type} {comp : α → α → Bool} {v : List α} {a b m m' : Nat}
    (h : IsLeftmostMin comp v a b m) (h' : IsLeftmostMin comp v a b m') : m = m' := by
  rcases Nat.lt_trichotomy m m' with g | g | g
  · exact absurd h.1 (h'.2 m g)
  · exact g
  · exact absurd h'.1 (h.2 m' g)

theorem idx_iff {β : Type} (o : Option Nat) (a : Nat) (k : Option β) :
    (o >>= fun x => assertP (a = x) >>= fun _ => k) = if o = some a then k else none := by
  cases o with
  | none => rfl
  | some x =>
    rw [bind_pure_some]
    by_cases h : a = x
    · rw [assertP_eq _ h, bind_pure_some, if_pos (by simp [h])]
    · rw [assertP_none h, if_neg (by simpa using Ne.symm h)]; rfl

theorem leftmost_self {α : Type} {comp : α → α → Bool} (ho : StrictWeak comp) {v : List α} {a : Nat} {x : α} (hx : v[a]? = some x) :
    IsLeftmostMin comp v a a a := by
  refine ⟨⟨Nat.le_refl _, Nat.le_refl _, x, hx, fun k y h1 h2 h3 => ?_⟩, fun k hk h => ?_⟩
  · have : k = a := by omega
    subst this
    rw [hx] at h3
    cases h3
    exact ho.irrefl _
  · have := h.1; omega

theorem leftmost_new {α : Type} {comp : α → α → Bool} (ho : StrictWeak comp) {v : List α} {a b m : Nat} {x y : α} (hab : a ≤ b)
    (h : IsLeftmostMin comp v a b m) (hx : v[m]? = some x) (hy : v[b+1]? = some y) (hc : comp y x = true) : IsLeftmostMin comp v a (b+1) (b+1) := by
  obtain ⟨⟨h1, h2, x', hx', h3⟩, h4⟩ := h
  rw [hx] at hx'; cases hx'
  have hz : ∀ k z, a ≤ k → k ≤ b → v[k]? = some z → comp z y = false ∧ comp y z = true := by
    intro k z k1 k2 k3
    have e1 := h3 k z k1 k2 k3
    have e2 : comp z y = false := by
      cases e : comp z y with
      | false => rfl
      | true => rw [ho.trans _ _ _ e hc] at e1; exact e1
    refine ⟨e2, ?_⟩
    cases e : comp y z with
    | true => rfl
    | false =>
      have e3 : comp x z = false := by
        cases e' : comp x z with
        | false => rfl
        | true => rw [ho.trans _ _ _ hc e'] at e; exact e
      have := (ho.incomp _ _ _ e e2 e1 e3).1
      rw [this] at hc
      exact hc
  refine ⟨⟨by omega, Nat.le_refl _, y, hy, fun k z k1 k2 k3 => ?_⟩, fun k hk hm => ?_⟩
  · rcases Nat.eq_or_lt_of_le k2 with rfl | k2
    · rw [hy] at k3; cases k3; exact ho.irrefl _
    · exact (hz k z k1 (by omega) k3).1
  · obtain ⟨m1, m2, z, m3, m4⟩ := hm
    have := m4 (b+1) y (by omega) (Nat.le_refl _) hy
    rw [(hz k z m1 (by omega) m3).2] at this
    simp at this

theorem leftmost_keep {α : Type} {comp : α → α → Bool} {v : List α} {a b m : Nat} {x y : α}
    (h : IsLeftmostMin comp v a b m) (hx : v[m]? = some x) (hy : v[b+1]? = some y) (hc : comp y x = false) : IsLeftmostMin comp v a (b+1) m := by
  obtain ⟨⟨h1, h2, x', hx', h3⟩, h4⟩ := h
  rw [hx] at hx'; cases hx'
  refine ⟨⟨h1, by omega, x, hx, fun k z k1 k2 k3 => ?_⟩, fun k hk hm => ?_⟩
  · rcases Nat.eq_or_lt_of_le k2 with rfl | k2
    · rw [hy] at k3; cases k3; exact hc
    · exact h3 k z k1 (by omega) k3
  · obtain ⟨m1, m2, z, m3, m4⟩ := hm
    exact h4 k hk ⟨m1, by omega, z, m3, fun j w j1 j2 j3 => m4 j w j1 (by omega) j3⟩

theorem cartFrom_iff {α : Type} (comp : α → α → Bool) (ho : StrictWeak comp) (v : List α) (rmq : Nat → Nat → Option Nat) (a : Nat) (ha : a < v.length) :
    cartFrom comp v rmq a = some () ↔ ∀ b, a ≤ b → b < v.length → ∃ m, rmq a b = some m ∧ IsLeftmostMin comp v a b m := by
  have hx : v[a]? = some v[a] := List.getElem?_eq_getElem ha
  unfold cartFrom
  rw [if_neg (by omega), rd_getElem v a ha, bind_pure_some, idx_iff]
  have hself := leftmost_self ho hx
  by_cases hg : rmq a a = some a
  · rw [if_pos hg]
    have key := forUp_iff (f := cartStep comp v rmq a) (fun b s => v[s.2]? = some s.1 ∧ IsLeftmostMin comp v a (b-1) s.2)
      (fun b => ∃ m, rmq a b = some m ∧ IsLeftmostMin comp v a b m) (v.length - (a+1)) (a+1) (v[a], a) ⟨hx, hself⟩ (fun b s hb1 hb2 hI => by
        obtain ⟨x, m⟩ := s
        obtain ⟨i1, i2⟩ := hI
        dsimp only at i1 i2
        have hb : b < v.length := by omega
        have hy : v[b-1+1]? = some v[b] := by rw [Nat.sub_add_cancel (by omega)]; exact List.getElem?_eq_getElem hb
        have hI' : v[(if comp v[b] x then (v[b], b) else (x, m)).2]? = some (if comp v[b] x then (v[b], b) else (x, m)).1 ∧
            IsLeftmostMin comp v a b (if comp v[b] x then (v[b], b) else (x, m)).2 := by
          cases hc : comp v[b] x with
          | true =>
            have := leftmost_new ho (by omega) i2 i1 hy hc
            rw [Nat.sub_add_cancel (by omega)] at this
            exact ⟨List.getElem?_eq_getElem hb, this⟩
          | false =>
            have := leftmost_keep i2 i1 hy hc
            rw [Nat.sub_add_cancel (by omega)] at this
            exact ⟨i1, this⟩
        unfold cartStep
        rw [rd_getElem v b hb, bind_pure_some]
        dsimp only
        revert hI'
        generalize (if comp v[b] x then (v[b], b) else (x, m)) = s'
        intro hI'
        rw [idx_iff]
        by_cases k : rmq a b = some s'.2
        · rw [if_pos k]
          exact .inl ⟨⟨_, k, hI'.2⟩, s', rfl, hI'.1, hI'.2⟩
        · rw [if_neg k]
          refine .inr ⟨?_, rfl⟩
          rintro ⟨m', k1, k2⟩
          exact k (by rw [k1, leftmost_unique k2 hI'.2]))
    rcases key with ⟨k1, s', k2, _⟩ | ⟨⟨j, k1, k2, k3⟩, k4⟩
    · rw [k2]
      refine ⟨fun _ b h1 h2 => ?_, fun _ => rfl⟩
      rcases Nat.eq_or_lt_of_le h1 with rfl | h1
      · exact ⟨_, hg, hself⟩
      · exact k1 b h1 (by omega)
    · rw [k4]
      exact ⟨fun g => by simp at g, fun g => absurd (g j (by omega) (by omega)) k3⟩
  · rw [if_neg hg]
    refine ⟨fun g => by simp at g, fun g => absurd ?_ hg⟩
    obtain ⟨m, k1, k2⟩ := g a (Nat.le_refl _) ha
    rw [k1, leftmost_unique k2 hself]

theorem minElement_lt {α : Type} (comp : α → α → Bool) (v : List α) (hv : v ≠ []) : minElement comp v < v.length := by
  cases v with
  | nil => exact absurd rfl hv
  | cons x l =>
    unfold minElement
    have : ∀ (ys : List (α × Nat)) (s : α × Nat), s.2 < (x :: l).length → (∀ y ∈ ys, y.2 < (x :: l).length) →
        (ys.foldl (fun s y => if comp y.1 s.1 then y else s) s).2 < (x :: l).length := by
      intro ys
      induction ys with
      | nil => intro s hs _; exact hs
      | cons y ys ih =>
        intro s hs hy
        refine ih _ ?_ (fun z hz => hy z (List.mem_cons_of_mem _ hz))
        dsimp only; split
        · exact hy y (List.mem_cons_self ..)
        · exact hs
    refine this _ _ (by simp) (fun y hy => ?_)
    have := List.snd_lt_add_of_mem_zipIdx hy
    simp; omega

theorem cartesian_iff {α : Type} (comp : α → α → Bool) (ho : StrictWeak comp) (v : List α) (size : Nat) (rmq : Nat → Nat → Option Nat) :
    (∀ rand, cartesian comp rand v size rmq = some ()) ↔ size = v.length ∧ (v = [] ∨ 2 ≤ v.length ∧
      ∀ a b, a ≤ b → b < v.length → ∃ m, rmq a b = some m ∧ IsLeftmostMin comp v a b m) := by
  unfold cartesian
  by_cases hsz : v.length = size
  · simp only [assertP_eq _ hsz, bind_pure_some]
    by_cases hv : v = []
    · subst hv
      simp [pure, ← hsz]
    · have hpos : 0 < v.length := List.length_pos_iff.2 hv
      simp only [if_neg hv, forM_iff]
      constructor
      · intro h
        refine ⟨hsz.symm, .inr ⟨?_, fun a b h1 h2 => ?_⟩⟩
        · rcases Nat.lt_or_ge v.length 2 with k | k
          · have := h (fun _ => 0) 1 (by simp)
            unfold cartFrom at this
            rw [if_neg (by omega), show rd v 1 = none from List.getElem?_eq_none (by omega)] at this
            simp at this
          · exact k
        · exact (cartFrom_iff comp ho v rmq a (by omega)).1 (h (fun _ => a) a (by
            rw [List.mem_append]; right
            exact List.mem_map.2 ⟨0, by simp, Nat.mod_eq_of_lt (by omega)⟩)) b h1 h2
      · rintro ⟨_, h | ⟨h1, h2⟩⟩ rand x hx
        · exact absurd h hv
        · have hxl : x < v.length := by
            rw [List.mem_append] at hx
            rcases hx with hx | hx
            · simp only [List.mem_cons, List.not_mem_nil, or_false] at hx
              rcases hx with rfl | rfl | rfl
              · omega
              · omega
              · exact minElement_lt comp v hv
            · obtain ⟨k, _, rfl⟩ := List.mem_map.1 hx
              exact Nat.mod_lt _ hpos
          exact (cartFrom_iff comp ho v rmq x hxl).2 (fun b g1 g2 => h2 x b g1 g2)
  · simp only [assertP_none hsz]
    exact ⟨fun g => by have := g (fun _ => 0); simp at this, fun g => absurd g.1.symm hsz⟩

/-! ## `test_topk` -/

theorem entries_step {α : Type} (v : List α) (a n : Nat) (x : α) (h : v[a+n]? = some x) :
    (List.range' a (n+1)).filterMap (fun i => v[i]?.map fun x => (x, i)) =
      (List.range' a n).filterMap (fun i => v[i]?.map fun x => (x, i)) ++ [(x, a+n)] := by
  rw [List.range'_concat, List.filterMap_append]
  simp [h]

theorem collect_eq (v : List Word) (a : Nat) : ∀ (n : Nat), a + n ≤ v.length →
    forUp (fun i (acc : List (Word × Nat)) => do
      let x ← rd v i
      pure (acc ++ [(x, i)])) n a [] = some ((List.range' a n).filterMap fun i => v[i]?.map fun x => (x, i)) := by
  intro n hn
  rcases forUp_iff (f := fun i (acc : List (Word × Nat)) => do
      let x ← rd v i
      pure (acc ++ [(x, i)])) (fun j acc => acc = (List.range' a (j - a)).filterMap fun i => v[i]?.map fun x => (x, i)) (fun _ => True) n a [] (by simp)
      (fun j s h1 h2 hI => by
        left
        refine ⟨trivial, _, by rw [rd_getElem v j (by omega), bind_pure_some]; rfl, ?_⟩
        have h := entries_step v a (j-a) v[j] (by rw [show a + (j - a) = j by omega]; exact List.getElem?_eq_getElem (by omega))
        rw [show j + 1 - a = j - a + 1 by omega, h, ← hI, show a + (j - a) = j by omega]) with ⟨_, s', k2, k3⟩ | ⟨⟨j, _, _, k3⟩, _⟩
  · rw [k2, k3, Nat.add_sub_cancel_left]
  · exact absurd trivial k3

/-- the order of words -/
abbrev wlt (x y : Word) : Bool := decide (x < y)

theorem before_iff (x y : Word × Nat) : Before wlt x y ↔ viLess x y = true := by
  obtain ⟨x, i⟩ := x
  obtain ⟨y, j⟩ := y
  unfold Before viLess wlt
  simp only [decide_eq_true_eq, decide_eq_false_iff_not, Bool.or_eq_true, Bool.and_eq_true, beq_iff_eq, gt_iff_lt]
  constructor
  · rintro (h | ⟨h1, h2, h3⟩)
    · exact .inl h
    · exact .inr ⟨by rw [BitVec.lt_def] at h1 h2; apply BitVec.eq_of_toNat_eq; omega, h3⟩
  · rintro (h | ⟨h1, h2⟩)
    · exact .inl h
    · subst h1; exact .inr ⟨by simp, by simp, h2⟩

theorem entries_idx {α : Type} (v : List α) (a b : Nat) : (entries v a b).Pairwise fun x y => x.2 ≠ y.2 := by
  unfold entries
  rw [List.pairwise_filterMap]
  refine List.Pairwise.imp (R := fun x y => x < y) ?_ (by exact List.pairwise_lt_range' ..)
  intro i j hij x hx y hy e
  have hi : x.2 = i := by
    cases h : v[i]? with
    | none => rw [h] at hx; simp at hx
    | some z => rw [h] at hx; simp at hx; rw [← hx]
  have hj : y.2 = j := by
    cases h : v[j]? with
    | none => rw [h] at hy; simp at hy
    | some z => rw [h] at hy; simp at hy; rw [← hy]
  omega

theorem sort_ranking {sort : List (Word × Nat) → List (Word × Nat)} (hs : SortOk viLess sort) (v : List Word) (a b : Nat) :
    IsRanking wlt v a b (sort (entries v a b)) := by
  refine ⟨hs.perm _, ?_⟩
  have h1 : (sort (entries v a b)).Pairwise fun x y => x.2 ≠ y.2 :=
    ((hs.perm _).pairwise_iff (fun h => Ne.symm h)).2 (entries_idx v a b)
  refine ((hs.sorted (entries v a b)).and h1).imp ?_
  rintro ⟨x, i⟩ ⟨y, j⟩ ⟨h2, h3⟩
  rw [before_iff]
  unfold viLess at *
  simp only [Bool.or_eq_false_iff, Bool.and_eq_false_iff, Bool.or_eq_true, Bool.and_eq_true, beq_iff_eq, gt_iff_lt, decide_eq_true_eq,
    decide_eq_false_iff_not, BitVec.lt_def] at *
  rcases Nat.lt_trichotomy y.toNat x.toNat with k | k | k
  · exact .inl k
  · have e : x = y := BitVec.eq_of_toNat_eq k.symm
    subst e
    simp at h2
    exact .inr ⟨rfl, by omega⟩
  · exact absurd k h2.1

theorem topkPair_iff {sort : List (Word × Nat) → List (Word × Nat)} (hs : SortOk viLess sort) (v : List Word)
    (topk : Nat → Nat → Nat → Option (List (Word × Nat))) (a b : Nat) (hab : a ≤ b) (hb : b < v.length) :
    topkPair sort v topk (a, b) = some () ↔ topk a b 10 = some ((sort (entries v a b)).take 10) := by
  unfold topkPair
  dsimp only
  rw [collect_eq v a (b + 1 - a) (by omega), bind_pure_some]
  exact check_iff (topk a b 10) _

theorem topk_iff {sort : List (Word × Nat) → List (Word × Nat)} (hs : SortOk viLess sort) (v : List Word) (size : Nat)
    (tk : Nat → Nat → Nat → Option (List (Word × Nat))) :
    (∀ rand, topk sort rand v size tk = some ()) ↔ size = v.length ∧
      ∀ a b, a ≤ b → b < v.length → tk a b 10 = some ((sort (entries v a b)).take 10) := by
  unfold topk
  by_cases hsz : v.length = size
  · simp only [assertP_eq _ hsz, bind_pure_some]
    by_cases hv : v = []
    · subst hv
      simp [pure, ← hsz]
    · have hpos : 0 < v.length := List.length_pos_iff.2 hv
      simp only [if_neg hv, forM_iff]
      constructor
      · intro h
        refine ⟨hsz.symm, fun a b h1 h2 => (topkPair_iff hs v tk a b h1 h2).1 ?_⟩
        refine h (fun k => if k = 0 then a else b - a) (a, b) (List.mem_map.2 ⟨0, by simp, ?_⟩)
        simp only [Nat.mul_zero, if_pos, Nat.zero_add]
        rw [if_neg (by omega), Nat.mod_eq_of_lt (by omega : a < v.length), Nat.mod_eq_of_lt (by omega), show a + (b - a) = b by omega]
      · rintro ⟨_, h2⟩ rand x hx
        obtain ⟨i, _, rfl⟩ := List.mem_map.1 hx
        have k1 : rand (2*i) % v.length < v.length := Nat.mod_lt _ hpos
        have k2 := Nat.mod_lt (rand (2*i+1)) (show v.length - rand (2*i) % v.length > 0 by omega)
        exact (topkPair_iff hs v tk _ _ (by omega) (by omega)).2 (h2 _ _ (by omega) (by omega))
  · simp only [assertP_none hsz]
    exact ⟨fun g => by have := g (fun _ => 0); simp at this, fun g => absurd g.1.symm hsz⟩

end Test
end Succinct
