import Verif.Lemmas.TestRank
import Verif.Lemmas.Parens

/-! # The driver `test_parentheses` -/
namespace Succinct
namespace Test
open Spec
open BpVector (exc)
open RSBitVector (bind_pure_some)

theorem exc_zero (v : List Bool) : exc v 0 = 0 := excF_zero _

theorem exc_true {v : List Bool} {i : Nat} (h : bitFn v i = true) : exc v (i+1) = exc v i + 1 := by
  have := excF_succ (bitFn v) i; rw [h] at this; simpa [exc] using this

theorem exc_false {v : List Bool} {i : Nat} (h : bitFn v i = false) : exc v (i+1) = exc v i - 1 := by
  have := excF_succ (bitFn v) i; rw [h] at this; simp at this; simp only [exc]; omega

/-- the stack after the first `p` parentheses -/
inductive Stk (v : List Bool) : Nat → List Nat → Prop
  | nil {p : Nat} : exc v p = 0 → Stk v p []
  | cons {p t : Nat} {s : List Nat} : t < p → bitFn v t = true → exc v p = exc v t + 1 → (∀ q, t < q → q ≤ p → exc v t < exc v q) →
      Stk v t s → Stk v p (t :: s)

theorem Stk.exc_eq {v : List Bool} {p : Nat} {s : List Nat} (h : Stk v p s) : exc v p = s.length := by
  induction h with
  | nil h => simpa using h
  | cons _ _ h _ _ ih => rw [h, ih]; simp

theorem Stk.push {v : List Bool} {p : Nat} {s : List Nat} (h : Stk v p s) (hb : bitFn v p = true) : Stk v (p+1) (p :: s) :=
  .cons (by omega) hb (exc_true hb) (fun q h1 h2 => by
    have : q = p + 1 := by omega
    subst this
    rw [exc_true hb]; omega) h

theorem Stk.pop {v : List Bool} {p t : Nat} {s : List Nat} (h : Stk v p (t :: s)) (hp : p < v.length) (hb : bitFn v p = false) :
    Stk v (p+1) s ∧ Matching v t p := by
  cases h with
  | cons h1 h2 h3 h4 h5 =>
    have he : exc v (p+1) = exc v t := by rw [exc_false hb]; omega
    refine ⟨?_, (matching_iff v t p).2 ⟨h1, hp, h2, he, h4⟩⟩
    cases h5 with
    | nil g => exact .nil (by omega)
    | cons g1 g2 g3 g4 g5 =>
      refine .cons (by omega) g2 (by omega) (fun q k1 k2 => ?_) g5
      have gt := g4 _ g1 (Nat.le_refl _)
      rcases Nat.lt_or_ge t q with k | k
      · rcases Nat.eq_or_lt_of_le k2 with rfl | k2
        · omega
        · have := h4 q k (by omega); omega
      · exact g4 q k1 k

/-- the local variables after the first `p` parentheses -/
structure Inv (v : List Bool) (p : Nat) (s : ParenState) : Prop where
  stk : Stk v p s.stack
  lenO : s.open_.length = v.length
  lenC : s.close.length = v.length
  lenE : s.enclose.length = v.length
  close : ∀ i j, Matching v i j → j < p → s.close[i]? = some j
  open_ : ∀ i j, Matching v i j → j < p → s.open_[j]? = some i
  encl : ∀ i, i < p → bitFn v i = true → ∃ st, Stk v i st ∧ s.enclose[i]? = some st.head?
  rest : ∀ i, p ≤ i → i < v.length → s.enclose[i]? = some none

theorem Inv.init (v : List Bool) : Inv v 0 ⟨[], List.replicate v.length 0, List.replicate v.length 0, List.replicate v.length none⟩ := by
  refine ⟨.nil (exc_zero v), by simp, by simp, by simp, fun i j _ h => by omega, fun i j _ h => by omega, fun i h => by omega, fun i _ h => ?_⟩
  simp [List.getElem?_replicate, h]

theorem parenStep_eq (v : List Bool) (p : Nat) (hp : p < v.length) (s : ParenState) (h : Inv v p s) :
    (0 ≤ exc v (p+1) ∧ ∃ s', parenStep v p s = some s' ∧ Inv v (p+1) s') ∨ (¬ 0 ≤ exc v (p+1) ∧ parenStep v p s = none) := by
  have hr : rd v p = some (bitFn v p) := by
    show v[p]? = _
    exact bitFn_getElem? v p hp
  have hexc := h.stk.exc_eq
  unfold parenStep
  rw [hr]
  dsimp only [bind, Option.bind]
  cases hb : bitFn v p with
  | true =>
    have hpush := h.stk.push hb
    have hnm : ∀ i, ¬ Matching v i p := fun i hm => by
      have := hm.2.2.1
      rw [bitFn_getElem? v p hp, hb] at this
      simp at this
    have hlt : ∀ {i j}, Matching v i j → j < p + 1 → j < p := fun {i j} hm hj => by
      rcases Nat.lt_or_ge j p with g | g
      · exact g
      · have : j = p := by omega
        subst this
        exact absurd hm (hnm i)
    rw [if_pos rfl]
    refine .inl ⟨by rw [exc_true hb]; omega, ?_⟩
    cases hs : s.stack with
    | nil =>
      refine ⟨_, rfl, by rw [← hs]; exact hpush, h.lenO, h.lenC, h.lenE, fun i j hm hj => h.close i j hm (hlt hm hj),
        fun i j hm hj => h.open_ i j hm (hlt hm hj), fun i hi hbi => ?_, fun i h1 h2 => h.rest i (by omega) h2⟩
      rcases Nat.lt_or_ge i p with g | g
      · exact h.encl i g hbi
      · have : i = p := by omega
        subst this
        exact ⟨[], hs ▸ h.stk, h.rest i (Nat.le_refl _) hp⟩
    | cons t st =>
      have hw : wr s.enclose p (some t) = some (s.enclose.set p (some t)) := wr_eq _ _ _ (by rw [h.lenE]; exact hp)
      dsimp only
      rw [hw]
      refine ⟨_, rfl, by rw [← hs]; exact hpush, h.lenO, h.lenC, by simp [h.lenE], fun i j hm hj => h.close i j hm (hlt hm hj),
        fun i j hm hj => h.open_ i j hm (hlt hm hj), fun i hi hbi => ?_, fun i h1 h2 => ?_⟩
      · rcases Nat.lt_or_ge i p with g | g
        · obtain ⟨st', g1, g2⟩ := h.encl i g hbi
          exact ⟨st', g1, by rw [List.getElem?_set_ne (by omega)]; exact g2⟩
        · have : i = p := by omega
          subst this
          exact ⟨_, h.stk, by rw [hs, List.getElem?_set_self (by rw [h.lenE]; exact hp)]; rfl⟩
      · show (s.enclose.set p (some t))[i]? = _
        rw [List.getElem?_set_ne (by omega)]
        exact h.rest i (by omega) h2
  | false =>
    rw [if_neg (by simp)]
    cases hs : s.stack with
    | nil =>
      refine .inr ⟨?_, rfl⟩
      rw [exc_false hb, hexc, hs]; simp
    | cons o st =>
      have hstk := h.stk
      rw [hs] at hstk
      obtain ⟨h1, h2⟩ := hstk.pop hp hb
      have ho : o < p := h2.1
      have hw : wr s.close o p = some (s.close.set o p) := wr_eq _ _ _ (by rw [h.lenC]; omega)
      have hw' : wr s.open_ p o = some (s.open_.set p o) := wr_eq _ _ _ (by rw [h.lenO]; exact hp)
      dsimp only
      rw [hw]
      dsimp only
      rw [hw']
      refine .inl ⟨by rw [h1.exc_eq]; omega, _, rfl, h1, by simp [h.lenO], by simp [h.lenC], h.lenE, fun i j hm hj => ?_, fun i j hm hj => ?_, fun i hi hbi => ?_,
        fun i h1 h2 => h.rest i (by omega) h2⟩
      · show (s.close.set o p)[i]? = _
        by_cases e : i = o
        · subst e
          rw [matching_unique_close hm h2, List.getElem?_set_self (by rw [h.lenC]; omega)]
        · rw [List.getElem?_set_ne (by omega)]
          refine h.close i j hm ?_
          rcases Nat.lt_or_ge j p with g | g
          · exact g
          · have : j = p := by omega
            subst this
            exact absurd (matching_unique_open hm h2) e
      · show (s.open_.set p o)[j]? = _
        by_cases e : j = p
        · subst e
          rw [matching_unique_open hm h2, List.getElem?_set_self (by rw [h.lenO]; omega)]
        · rw [List.getElem?_set_ne (by omega)]
          exact h.open_ i j hm (by omega)
      · rcases Nat.lt_or_ge i p with g | g
        · exact h.encl i g hbi
        · have : i = p := by omega
          subst this
          rw [hb] at hbi; simp at hbi

theorem isEnclose_unique {v : List Bool} {i j p q : Nat} (h : IsEnclose v i j p) (h' : IsEnclose v i j q) : p = q := by
  obtain ⟨a, a1, a2, a3, a4⟩ := h
  obtain ⟨b, b1, b2, b3, b4⟩ := h'
  have := (a4 q b b1 b2 b3).1
  have := (b4 p a a1 a2 a3).1
  omega

theorem Stk.enclose {v : List Bool} (hd : Dyck v) {i j : Nat} (hm : Matching v i j) {st : List Nat} (h : Stk v i st) (p : Nat) :
    IsEnclose v i j p ↔ st.head? = some p := by
  have hm' := (matching_iff v i j).1 hm
  cases h with
  | nil h =>
    refine ⟨?_, fun g => by simp at g⟩
    rintro ⟨q, h1, h2, h3, _⟩
    have g := (matching_iff v p q).1 h1
    have := g.2.2.2.2 i h2 (by omega)
    have := hd.nonneg p (by omega)
    omega
  | cons h1 h2 h3 h4 h5 =>
    rename_i t s
    obtain ⟨q0, hq0⟩ := exists_close hd t ((bitFn_eq_true v t).1 h2)
    have g := (matching_iff v t q0).1 hq0
    have hi : i < q0 := by
      rcases Nat.lt_trichotomy i q0 with k | k | k
      · exact k
      · subst k
        have := hq0.2.2.1
        rw [hm.2.1] at this
        simp at this
      · have := h4 (q0+1) (by omega) (by omega)
        omega
    obtain ⟨p', k1, k2, k3, k4⟩ := exists_enclose hd hm hq0 h1 hi
    have : p' = t := by
      rcases Nat.lt_trichotomy p' t with k | k | k
      · have := k4 t k (by omega); omega
      · exact k
      · have := h4 p' k (by omega); omega
    subst this
    constructor
    · intro g; rw [isEnclose_unique k1 g]; rfl
    · intro g
      simp at g
      subst g
      exact k1

theorem parenCheck_iff (v : List Bool) (hd : Dyck v) (t : Parens) (s : ParenState) (h : Inv v v.length s) (i : Nat) :
    parenCheck v t s i = some () ↔ i < v.length ∧ (∀ j, Matching v i j → t.findClose i = some j) ∧ (∀ j, Matching v j i → t.findOpen i = some j) ∧
      (∀ j p, Matching v i j → IsEnclose v i j p → t.enclose i = some p) := by
  by_cases hi : i < v.length
  · have hr : rd v i = some (bitFn v i) := by
      show v[i]? = _
      exact bitFn_getElem? v i hi
    unfold parenCheck
    rw [hr]
    dsimp only [bind, Option.bind]
    cases hb : bitFn v i with
    | true =>
      have hnm : ∀ j, ¬ Matching v j i := fun j hm => by
        have := hm.2.2.1
        rw [bitFn_getElem? v i hi, hb] at this
        simp at this
      obtain ⟨j, hj⟩ := exists_close hd i (by rw [bitFn_getElem? v i hi, hb])
      have hjl : j < v.length := ((matching_iff v i j).1 hj).2.1
      obtain ⟨st, hst, he⟩ := h.encl i hi hb
      have henc := fun p => hst.enclose hd hj p
      have he' : rd s.enclose i = some st.head? := he
      have hc' : rd s.close i = some j := h.close i j hj hjl
      rw [if_pos rfl, he']
      dsimp only
      cases hst : st.head? with
      | none =>
        dsimp only [pure]
        rw [hc']
        dsimp only
        constructor
        · intro g
          have g : t.findClose i = some j := (check_iff (t.findClose i) j).1 g
          refine ⟨hi, fun j' hj' => by rw [matching_unique_close hj' hj]; exact g, fun j' hj' => absurd hj' (hnm _), fun j' p hj' hp => ?_⟩
          rw [matching_unique_close hj' hj, henc, hst] at hp
          simp at hp
        · intro g
          exact (check_iff (t.findClose i) j).2 (g.2.1 j hj)
      | some p =>
        dsimp only
        have hp := (henc p).2 hst
        cases hq : t.enclose i with
        | none => exact ⟨fun g => by simp at g, fun g => by have := g.2.2.2 j p hj hp; simp at this⟩
        | some q =>
          by_cases e : p = q
          · subst e
            dsimp only
            rw [assertP_eq _ rfl, hc']
            dsimp only
            constructor
            · intro g
              have g : t.findClose i = some j := (check_iff (t.findClose i) j).1 g
              refine ⟨hi, fun j' hj' => by rw [matching_unique_close hj' hj]; exact g, fun j' hj' => absurd hj' (hnm _), fun j' p' hj' hp' => ?_⟩
              rw [matching_unique_close hj' hj] at hp'
              rw [isEnclose_unique hp' hp]
            · intro g
              exact (check_iff (t.findClose i) j).2 (g.2.1 j hj)
          · dsimp only
            rw [assertP_none e]
            exact ⟨fun g => by simp at g, fun g => absurd (by simpa using (g.2.2.2 j p hj hp).symm) e⟩
    | false =>
      have hnm : ∀ j, ¬ Matching v i j := fun j hm => by
        have := hm.2.1
        rw [bitFn_getElem? v i hi, hb] at this
        simp at this
      obtain ⟨j, hj⟩ := exists_open hd i (by rw [bitFn_getElem? v i hi, hb])
      have ho' : rd s.open_ i = some j := h.open_ j i hj hi
      rw [if_neg (by simp), ho']
      dsimp only
      constructor
      · intro g
        have g : t.findOpen i = some j := (check_iff (t.findOpen i) j).1 g
        exact ⟨hi, fun j' hj' => absurd hj' (hnm _), fun j' hj' => by rw [matching_unique_open hj' hj]; exact g, fun j' p hj' => absurd hj' (hnm _)⟩
      · intro g
        exact (check_iff (t.findOpen i) j).2 (g.2.2.1 j hj)
  · have hr : rd v i = none := by
      show v[i]? = none
      exact List.getElem?_eq_none (by omega)
    unfold parenCheck
    rw [hr]
    exact ⟨fun g => by simp at g, fun g => absurd g.1 hi⟩

theorem parentheses_iff (v : List Bool) (t : Parens) :
    parentheses v t = some () ↔ Bal v ∧ t.size ≤ v.length ∧
      (∀ i j, Matching v i j → i < t.size → t.findClose i = some j) ∧
      (∀ i j, Matching v i j → j < t.size → t.findOpen j = some i) ∧
      (∀ i j p, Matching v i j → IsEnclose v i j p → i < t.size → t.enclose i = some p) := by
  unfold parentheses
  dsimp only
  rcases forUp_iff (f := parenStep v) (Inv v) (fun p => 0 ≤ exc v (p+1)) v.length 0 _ (Inv.init v)
    (fun j s _ hj hI => parenStep_eq v j (by omega) s hI) with ⟨h1, s', h2, h3⟩ | ⟨⟨j, h1, h2, h3⟩, h4⟩
  · rw [h2, bind_pure_some]
    rw [Nat.zero_add] at h3
    have hexc := h3.stk.exc_eq
    by_cases hs : s'.stack = []
    · rw [hs] at hexc
      have hd : Dyck v := by
        refine ⟨fun p hp => ?_, by simpa using hexc⟩
        rcases Nat.eq_zero_or_pos p with rfl | k
        · rw [exc_zero]
        · have := h1 (p-1) (by omega) (by omega)
          rwa [Nat.sub_add_cancel k] at this
      rw [assertP_eq _ hs]
      show forUp _ _ _ _ = _ ↔ _
      rw [forUp_unit _ _ _ (fun j _ _ => parenCheck_iff v hd t s' h3 j)]
      constructor
      · intro g
        refine ⟨(bal_iff v).2 hd, ?_, fun i j hm hi => (g i (by omega) (by omega)).2.1 j hm, fun i j hm hi => (g j (by omega) (by omega)).2.2.1 i hm,
          fun i j p hm he hi => (g i (by omega) (by omega)).2.2.2 j p hm he⟩
        rcases Nat.eq_zero_or_pos t.size with k | k
        · omega
        · have := (g (t.size - 1) (by omega) (by omega)).1
          omega
      · rintro ⟨_, g1, g2, g3, g4⟩ j _ hj
        exact ⟨by omega, fun k hm => g2 j k hm (by omega), fun k hm => g3 k j hm (by omega), fun k p hm he => g4 j k p hm he (by omega)⟩
    · rw [assertP_none hs]
      refine ⟨fun g => by simp at g, fun g => absurd ?_ hs⟩
      have := ((bal_iff v).1 g.1).zero
      rw [hexc] at this
      exact List.length_eq_zero_iff.1 (by omega)
  · rw [h4]
    refine ⟨fun g => by simp at g, fun g => absurd ?_ h3⟩
    exact ((bal_iff v).1 g.1).nonneg _ (by omega)

end Test
end Succinct
