import Verif.Model.Tests
import Verif.Spec.Bits
import Verif.Lemmas.Contract
import Mathlib.Tactic.ByContra

/-! # The loops of the test drivers, and the drivers of rank and select -/
namespace Succinct
namespace Test
open Spec

theorem forUp_iff {σ : Type} {f : Nat → σ → Option σ} (I : Nat → σ → Prop) (C : Nat → Prop) : ∀ (n i : Nat) (s : σ), I i s →
    (∀ j s, i ≤ j → j < i + n → I j s → (C j ∧ ∃ s', f j s = some s' ∧ I (j+1) s') ∨ (¬ C j ∧ f j s = none)) →
    ((∀ j, i ≤ j → j < i + n → C j) ∧ ∃ s', forUp f n i s = some s' ∧ I (i+n) s') ∨
    ((∃ j, i ≤ j ∧ j < i + n ∧ ¬ C j) ∧ forUp f n i s = none)
  | 0, i, s, hI, _ => .inl ⟨fun j h1 h2 => by omega, s, rfl, hI⟩
  | n+1, i, s, hI, h => by
    rcases h i s (Nat.le_refl _) (by omega) hI with ⟨hc, s', he, hI'⟩ | ⟨hc, he⟩
    · rcases forUp_iff I C n (i+1) s' hI' (fun j t h1 h2 => h j t (by omega) (by omega)) with ⟨h1, t, h2, h3⟩ | ⟨⟨j, h1, h2, h3⟩, h4⟩
      · refine .inl ⟨fun j g1 g2 => ?_, t, ?_, ?_⟩
        · rcases Nat.eq_or_lt_of_le g1 with rfl | g
          · exact hc
          · exact h1 j g (by omega)
        · simp only [forUp, he]; exact h2
        · have : i + (n + 1) = i + 1 + n := by omega
          rw [this]; exact h3
      · refine .inr ⟨⟨j, by omega, by omega, h3⟩, ?_⟩
        simp only [forUp, he]; exact h4
    · exact .inr ⟨⟨i, Nat.le_refl _, by omega, hc⟩, by simp only [forUp, he]; rfl⟩

theorem forDown_iff {σ : Type} {f : Nat → σ → Option σ} (I : Nat → σ → Prop) (C : Nat → Prop) : ∀ (n : Nat) (s : σ), I n s →
    (∀ j s, j < n → I (j+1) s → (C j ∧ ∃ s', f j s = some s' ∧ I j s') ∨ (¬ C j ∧ f j s = none)) →
    ((∀ j, j < n → C j) ∧ ∃ s', forDown f n s = some s' ∧ I 0 s') ∨ ((∃ j, j < n ∧ ¬ C j) ∧ forDown f n s = none)
  | 0, s, hI, _ => .inl ⟨fun j h => by omega, s, rfl, hI⟩
  | n+1, s, hI, h => by
    rcases h n s (by omega) hI with ⟨hc, s', he, hI'⟩ | ⟨hc, he⟩
    · rcases forDown_iff I C n s' hI' (fun j t h1 => h j t (by omega)) with ⟨h1, t, h2, h3⟩ | ⟨⟨j, h2, h3⟩, h4⟩
      · refine .inl ⟨fun j g2 => ?_, t, ?_, h3⟩
        · rcases Nat.eq_or_lt_of_le (Nat.le_of_lt_succ g2) with rfl | g
          · exact hc
          · exact h1 j g
        · simp only [forDown, he]; exact h2
      · refine .inr ⟨⟨j, by omega, h3⟩, ?_⟩
        simp only [forDown, he]; exact h4
    · exact .inr ⟨⟨n, by omega, hc⟩, by simp only [forDown, he]; rfl⟩

/-- a loop without state -/
theorem forUp_unit {f : Nat → Unit → Option Unit} (C : Nat → Prop) (n i : Nat) (h : ∀ j, i ≤ j → j < i + n → (f j () = some () ↔ C j)) :
    forUp f n i () = some () ↔ ∀ j, i ≤ j → j < i + n → C j := by
  rcases forUp_iff (f := f) (fun _ _ => True) C n i () trivial (fun j s h1 h2 _ => by
    by_cases hc : C j
    · exact .inl ⟨hc, (), (h j h1 h2).2 hc, trivial⟩
    · refine .inr ⟨hc, ?_⟩
      cases e : f j () with
      | none => rfl
      | some u => exact absurd ((h j h1 h2).1 e) hc) with ⟨h1, s', h2, _⟩ | ⟨⟨j, h1, h2, h3⟩, h4⟩
  · exact ⟨fun _ => h1, fun _ => h2⟩
  · constructor
    · intro g; rw [h4] at g; exact absurd g (by simp)
    · intro g; exact absurd (g j h1 h2) h3

theorem assertP_some (p : Prop) [Decidable p] : assertP p = some () ↔ p := by
  unfold assertP; split <;> simp_all

theorem rd_getElem {α : Type} (v : List α) (i : Nat) (h : i < v.length) : rd v i = some v[i] := by
  show v[i]? = _
  exact List.getElem?_eq_getElem h

theorem check_iff {β : Type} [DecidableEq β] (o : Option β) (x : β) : (o >>= fun y => assertP (x = y)) = some () ↔ o = some x := by
  cases o with
  | none => simp
  | some y => simp [assertP_some]; exact ⟨fun h => h.symm, fun h => h.symm⟩

theorem equalBits_iff (v : List Bool) (size : Nat) (access : Nat → Option Bool) :
    equalBits v size access = some () ↔ size = v.length ∧ ∀ i, i < v.length → access i = v[i]? := by
  unfold equalBits
  by_cases h : v.length = size
  · rw [assertP_eq _ h]
    show forUp _ _ _ _ = _ ↔ _
    rw [forUp_unit (fun i => access i = v[i]?)]
    · exact ⟨fun g => ⟨h.symm, fun i hi => g i (Nat.zero_le _) (by omega)⟩, fun g j _ hj => g.2 j (by omega)⟩
    · intro j _ hj
      have hj : j < v.length := by omega
      rw [rd_getElem v j hj, List.getElem?_eq_getElem hj]
      cases access j with
      | none => simp
      | some b => simp [assertP_some]; exact ⟨fun h => h.symm, fun h => h.symm⟩
  · rw [assertP_none h]
    constructor
    · intro g; exact absurd g (by simp)
    · intro g; exact absurd g.1.symm h

/-- what `rankUp` checks at `i` -/
def UpOk (b : Bool) (v : List Bool) (t : RankSelect) (i : Nat) : Prop :=
  t.rank i = some ((v.take i).count b) ∧ (v[i]? = some b → t.select ((v.take i).count b) = some i) ∧
  ∀ q, IsPred b v i q → t.predecessor i = some q

/-- the last position below `i` of a bit `b` -/
def LastB (b : Bool) (v : List Bool) (i : Nat) : Option Nat → Prop
  | none => ∀ r, r < i → v[r]? ≠ some b
  | some q => q < i ∧ v[q]? = some b ∧ ∀ r, q < r → r < i → v[r]? ≠ some b

theorem count_take_succ (b : Bool) (v : List Bool) (i : Nat) (h : i < v.length) :
    (v.take (i+1)).count b = (v.take i).count b + if v[i] = b then 1 else 0 := by
  rw [List.take_add_one, List.getElem?_eq_getElem h, List.count_append]
  simp [List.count_cons]

theorem isPred_unique {b : Bool} {v : List Bool} {i p q : Nat} (h1 : IsPred b v i p) (h2 : IsPred b v i q) : p = q := by
  rcases Nat.lt_trichotomy p q with h | h | h
  · exact absurd h2.2.1 (h1.2.2 q h h2.1)
  · exact h
  · exact absurd h1.2.1 (h2.2.2 p h h1.1)

theorem isSucc_unique {b : Bool} {v : List Bool} {i p q : Nat} (h1 : IsSucc b v i p) (h2 : IsSucc b v i q) : p = q := by
  rcases Nat.lt_trichotomy p q with h | h | h
  · exact absurd h1.2.1 (h2.2.2 p h1.1 h)
  · exact h
  · exact absurd h2.2.1 (h1.2.2 q h2.1 h)

theorem LastB.pred {b : Bool} {v : List Bool} {i : Nat} {o : Option Nat} (h : LastB b v (i+1) o) (q : Nat) : IsPred b v i q ↔ o = some q := by
  have key : ∀ p, o = some p → IsPred b v i p := by
    rintro p rfl
    exact ⟨Nat.le_of_lt_succ h.1, h.2.1, fun r h1 h2 => h.2.2 r h1 (by omega)⟩
  constructor
  · intro g
    cases o with
    | none => exact absurd g.2.1 (h q (Nat.lt_succ_of_le g.1))
    | some p => rw [isPred_unique (key p rfl) g]
  · exact key q

theorem LastB.step {b : Bool} {v : List Bool} {i : Nat} {o : Option Nat} (h : LastB b v i o) (hi : i < v.length) :
    LastB b v (i+1) (if v[i] = b then some i else o) := by
  split
  · rename_i e
    exact ⟨by omega, by rw [List.getElem?_eq_getElem hi, e], fun r h1 h2 => by omega⟩
  · rename_i e
    have e' : v[i]? ≠ some b := by rw [List.getElem?_eq_getElem hi]; simpa using e
    cases o with
    | none =>
      intro r hr
      rcases Nat.eq_or_lt_of_le (Nat.le_of_lt_succ hr) with rfl | g
      · exact e'
      · exact h r g
    | some q =>
      refine ⟨Nat.lt_succ_of_lt h.1, h.2.1, fun r h1 h2 => ?_⟩
      rcases Nat.eq_or_lt_of_le (Nat.le_of_lt_succ h2) with rfl | g
      · exact e'
      · exact h.2.2 r h1 g

theorem rankUp_eq (b : Bool) (v : List Bool) (t : RankSelect) (i : Nat) (hi : i < v.length) (s : Nat × Option Nat) (h1 : s.1 = (v.take i).count b)
    (h2 : LastB b v i s.2) :
    (UpOk b v t i ∧ ∃ s', rankUp b v t i s = some s' ∧ s'.1 = (v.take (i+1)).count b ∧ LastB b v (i+1) s'.2) ∨
    (¬ UpOk b v t i ∧ rankUp b v t i s = none) := by
  obtain ⟨c, o⟩ := s
  dsimp only at h1 h2
  subst h1
  have hst := h2.step hi
  have hct := count_take_succ b v i hi
  have hp := fun q => (hst.pred q)
  unfold rankUp
  cases hr : t.rank i with
  | none => exact .inr ⟨fun g => by rw [g.1] at hr; simp at hr, rfl⟩
  | some r =>
    by_cases e : (v.take i).count b = r
    · subst e
      dsimp only [bind, Option.bind]
      rw [assertP_eq _ rfl, rd_getElem v i hi]
      dsimp only
      by_cases hx : v[i] = b
      · rw [if_pos hx] at hst hct hp
        rw [if_pos hx]
        have hx' : v[i]? = some b := by rw [List.getElem?_eq_getElem hi, hx]
        cases hs : t.select ((v.take i).count b) with
        | none => exact .inr ⟨fun g => by rw [g.2.1 hx'] at hs; simp at hs, rfl⟩
        | some q =>
          by_cases e : i = q
          · subst e
            dsimp only [pure]
            rw [assertP_eq _ rfl]
            dsimp only
            cases hq : t.predecessor i with
            | none => exact .inr ⟨fun g => by rw [g.2.2 i ((hp i).2 rfl)] at hq; simp at hq, rfl⟩
            | some q =>
              by_cases e : i = q
              · subst e
                dsimp only
                rw [assertP_eq _ rfl]
                refine .inl ⟨⟨hr, fun _ => hs, fun q hq' => ?_⟩, _, rfl, hct.symm, hst⟩
                rw [hq, (hp q).1 hq']
              · dsimp only
                rw [assertP_none e]
                exact .inr ⟨fun g => by rw [g.2.2 i ((hp i).2 rfl)] at hq; exact e (by simpa using hq), rfl⟩
          · dsimp only
            rw [assertP_none e]
            exact .inr ⟨fun g => by rw [g.2.1 hx'] at hs; exact e (by simpa using hs), rfl⟩
      · rw [if_neg hx] at hst hct hp
        rw [if_neg hx]
        have hx' : v[i]? ≠ some b := by rw [List.getElem?_eq_getElem hi]; simpa using hx
        cases o with
        | none => exact .inl ⟨⟨hr, fun g => absurd g hx', fun q hq => by simpa using (hp q).1 hq⟩, _, rfl, hct.symm, hst⟩
        | some p =>
          dsimp only
          cases hq : t.predecessor i with
          | none => exact .inr ⟨fun g => by rw [g.2.2 p ((hp p).2 rfl)] at hq; simp at hq, rfl⟩
          | some q =>
            by_cases e : p = q
            · subst e
              dsimp only
              rw [assertP_eq _ rfl]
              refine .inl ⟨⟨hr, fun g => absurd g hx', fun q hq' => ?_⟩, _, rfl, hct.symm, hst⟩
              rw [hq, (hp q).1 hq']
            · dsimp only
              rw [assertP_none e]
              exact .inr ⟨fun g => by rw [g.2.2 p ((hp p).2 rfl)] at hq; exact e (by simpa using hq), rfl⟩
    · refine .inr ⟨fun g => by rw [g.1] at hr; exact e (by simpa using hr), ?_⟩
      dsimp only [bind, Option.bind]
      rw [assertP_none e]

/-- the first position from `i` on of a bit `b` -/
def FirstB (b : Bool) (v : List Bool) (i : Nat) : Option Nat → Prop
  | none => ∀ r, i ≤ r → v[r]? ≠ some b
  | some q => IsSucc b v i q

theorem FirstB.succ {b : Bool} {v : List Bool} {i : Nat} {o : Option Nat} (h : FirstB b v i o) (q : Nat) : IsSucc b v i q ↔ o = some q := by
  cases o with
  | none => exact ⟨fun g => absurd g.2.1 (h q g.1), fun g => by simp at g⟩
  | some p => exact ⟨fun g => by rw [isSucc_unique h g], fun g => by cases g; exact h⟩

theorem FirstB.step {b : Bool} {v : List Bool} {i : Nat} {o : Option Nat} (h : FirstB b v (i+1) o) (hi : i < v.length) :
    FirstB b v i (if v[i] = b then some i else o) := by
  split
  · rename_i e
    exact ⟨Nat.le_refl _, by rw [List.getElem?_eq_getElem hi, e], fun r h1 h2 => by omega⟩
  · rename_i e
    have e' : v[i]? ≠ some b := by rw [List.getElem?_eq_getElem hi]; simpa using e
    cases o with
    | none =>
      intro r hr
      rcases Nat.eq_or_lt_of_le hr with rfl | g
      · exact e'
      · exact h r g
    | some q =>
      refine ⟨Nat.le_of_succ_le h.1, h.2.1, fun r h1 h2 => ?_⟩
      rcases Nat.eq_or_lt_of_le h1 with rfl | g
      · exact e'
      · exact h.2.2 r g h2

theorem rankDown_eq (b : Bool) (v : List Bool) (t : RankSelect) (i : Nat) (hi : i < v.length) (o : Option Nat) (h2 : FirstB b v (i+1) o) :
    ((∀ q, IsSucc b v i q → t.successor i = some q) ∧ ∃ s', rankDown b v t i o = some s' ∧ FirstB b v i s') ∨
    (¬ (∀ q, IsSucc b v i q → t.successor i = some q) ∧ rankDown b v t i o = none) := by
  have hst := h2.step hi
  unfold rankDown
  rw [rd_getElem v i hi]
  dsimp only [bind, Option.bind]
  revert hst
  generalize (if v[i] = b then some i else o) = o'
  intro hst
  have hp := fun q => (hst.succ q)
  cases o' with
  | none => exact .inl ⟨fun q hq => by simpa using (hp q).1 hq, _, rfl, hst⟩
  | some p =>
    dsimp only
    cases hq : t.successor i with
    | none => exact .inr ⟨fun g => by have := g p ((hp p).2 rfl); simp at this, rfl⟩
    | some q =>
      by_cases e : p = q
      · subst e
        dsimp only
        rw [assertP_eq _ rfl]
        exact .inl ⟨fun q hq' => (hp q).1 hq', _, rfl, hst⟩
      · dsimp only
        rw [assertP_none e]
        exact .inr ⟨fun g => e (by simpa using (g p ((hp p).2 rfl)).symm), rfl⟩

theorem rankSelect_iff (b : Bool) (v : List Bool) (t : RankSelect) :
    rankSelect b v t = some () ↔
      (∀ i, i < v.length → t.rank i = some ((v.take i).count b)) ∧
      (∀ i, v[i]? = some b → t.select ((v.take i).count b) = some i) ∧
      (∀ i q, i < v.length → IsPred b v i q → t.predecessor i = some q) ∧
      (∀ i q, i < v.length → IsSucc b v i q → t.successor i = some q) := by
  unfold rankSelect
  have hlt : ∀ i, v[i]? = some b → i < v.length := fun i h => by
    by_contra hc
    rw [List.getElem?_eq_none (by omega)] at h
    simp at h
  have hup := forUp_iff (f := rankUp b v t) (fun i s => s.1 = (v.take i).count b ∧ LastB b v i s.2) (UpOk b v t) v.length 0 (0, none)
    ⟨by simp, fun r hr => by omega⟩ (fun j s _ hj hI => by
      rcases rankUp_eq b v t j (by omega) s hI.1 hI.2 with ⟨g1, s', g2, g3, g4⟩ | g
      · exact .inl ⟨g1, s', g2, g3, g4⟩
      · exact .inr g)
  have hdn := forDown_iff (f := rankDown b v t) (FirstB b v) (fun i => ∀ q, IsSucc b v i q → t.successor i = some q) v.length none
    (fun r hr => by rw [List.getElem?_eq_none hr]; simp) (fun j s hj hI => rankDown_eq b v t j hj s hI)
  rcases hup with ⟨h1, s', h2, _⟩ | ⟨⟨j, _, h1, h3⟩, h4⟩
  · rw [h2]
    rcases hdn with ⟨g1, s'', g2, _⟩ | ⟨⟨j, g1, g3⟩, g4⟩
    · dsimp only [bind, Option.bind]
      rw [g2]
      refine ⟨fun _ => ⟨fun i hi => (h1 i (by omega) (by omega)).1, fun i hi => ?_, fun i q hi => (h1 i (by omega) (by omega)).2.2 q,
        fun i q hi => g1 i hi q⟩, fun _ => rfl⟩
      exact (h1 i (by omega) (by have := hlt i hi; omega)).2.1 hi
    · dsimp only [bind, Option.bind]
      rw [g4]
      exact ⟨fun g => by simp at g, fun g => absurd (fun q hq => g.2.2.2 j q g1 hq) g3⟩
  · dsimp only [bind, Option.bind]
    rw [h4]
    exact ⟨fun g => by simp at g, fun g => absurd ⟨g.1 j (by omega), fun e => g.2.1 j e, fun q hq => g.2.2.1 j q (by omega) hq⟩ h3⟩

end Test
end Succinct
