import Verif.Lemmas.TestParens
import Verif.Lemmas.TopK
import Verif.Spec.Order

/-! # The drivers of the range minimum queries and of `topk` -/
namespace Succinct
namespace Test
open Spec
open RSBitVector (bind_pure_some)

theorem forM_iff {β : Type} (f : β → Option Unit) : ∀ l : List β, l.forM f = some () ↔ ∀ x ∈ l, f x = some ()
  | [] => by simp [List.forM_nil, pure]
  | x :: l => by
    show (f x >>= fun _ => l.forM f) = _ ↔ _
    cases e : f x with
    | none => simp [e]
    | some u => 
      rw [bind_pure_some, forM_iff f l]
      simp [e]

theorem isExcessRmq_unique {v : List Bool} {a b p q : Nat} (h : IsExcessRmq v a b p) (h' : IsExcessRmq v a b q) : p = q := by
  obtain ⟨h1, h2, h3, h4⟩ := h
  obtain ⟨g1, g2, g3, g4⟩ := h'
  rcases Nat.lt_trichotomy p q with k | k | k
  · have := g4 p h1 k; have := h3 q g1 g2; omega
  · exact k
  · have := h4 q g1 k; have := g3 p h1 h2; omega

/-- the enumerators of `t` deliver the bits of `v` -/
structure Streams {σ : Type} (v : List Bool) (t : Rmq σ) (At : Nat → σ → Prop) : Prop where
  start : ∀ a, a ≤ v.length → At a (t.enumAt a)
  next : ∀ p e, At p e → p < v.length → ∃ x e', t.next e = some (x, e') ∧ v[p]? = some x ∧ At (p+1) e'

/-- the check of a position -/
theorem pos_iff {β : Type} (o : Option (Nat × Int)) (a : Nat) (k : Option β) :
    (o >>= fun x => assertP (a = x.1) >>= fun _ => k) = if (o.map Prod.fst) = some a then k else none := by
  cases o with
  | none => rfl
  | some x =>
    rw [bind_pure_some]
    by_cases h : a = x.1
    · rw [assertP_eq _ h, bind_pure_some, if_pos (by simp [h])]
    · rw [assertP_none h, if_neg (by simpa using Ne.symm h)]; rfl

theorem excess_succ (v : List Bool) (p : Nat) (x : Bool) (h : v[p]? = some x) : excess v (p+1) = excess v p + if x then 1 else -1 := by
  unfold excess
  rw [List.take_add_one, h]
  cases x <;> simp [List.count_append] <;> omega

theorem excess_le (v : List Bool) (p : Nat) : -(p : Int) ≤ excess v p ∧ excess v p ≤ p := by
  unfold excess
  have h := count_add_count (v.take p)
  rw [List.length_take] at h
  omega

theorem rmqFrom_iff {σ : Type} (v : List Bool) (t : Rmq σ) (At : Nat → σ → Prop) (hs : Streams v t At)
    (hexc : ∀ p, p ≤ v.length → t.excess p = some (excess v p)) (hlen : v.length < 2^31) (a : Nat) (ha : a ≤ v.length) :
    rmqFrom v t a = some () ↔ (∃ e, t.excessRmq a a = some (a, e)) ∧
      ∀ b, a < b → b < v.length → ∃ p e, t.excessRmq a b = some (p, e) ∧ IsExcessRmq v a b p := by
  unfold rmqFrom
  rw [if_neg (by omega), hexc a ha, bind_pure_some]
  show ((t.excessRmq a a) >>= fun x => assertP (a = x.1) >>= fun _ => _) = _ ↔ _
  rw [pos_iff]
  have h0 : (∃ e, t.excessRmq a a = some (a, e)) ↔ (t.excessRmq a a).map Prod.fst = some a := by
    cases t.excessRmq a a with
    | none => simp
    | some x => 
      obtain ⟨p, e⟩ := x
      simp
  rw [h0]
  by_cases hg : (t.excessRmq a a).map Prod.fst = some a
  · rw [if_pos hg]
    have key := forUp_iff (f := rmqStep t a)
      (fun b s => At (b-1) s.it ∧ s.cur = excess v (b-1) ∧ s.min = excess v s.idx ∧ IsExcessRmq v a (b-1) s.idx)
      (fun b => ∃ p e, t.excessRmq a b = some (p, e) ∧ IsExcessRmq v a b p) (v.length - (a+1)) (a+1) ⟨t.enumAt a, excess v a, excess v a, a⟩
      ⟨hs.start a ha, rfl, rfl, by simp, by simp, fun q h1 h2 => by
        have : q = a := by omega
        subst this; exact Int.le_refl _, fun q h1 h2 => by simp at h2; omega⟩ (fun b s hb1 hb2 hI => by
        obtain ⟨i1, i2, i3, i4⟩ := hI
        obtain ⟨x, e', n1, n2, n3⟩ := hs.next (b-1) s.it i1 (by omega)
        rw [Nat.sub_add_cancel (by omega)] at n3
        have hc : s.cur + (if x then (1 : Int) else -1) = excess v b := by
          rw [i2, ← excess_succ v (b-1) x n2, Nat.sub_add_cancel (by omega)]
        have hb := excess_le v b
        have hi : i32 (excess v b) = some (excess v b) := by unfold i32; rw [if_pos (by omega)]
        have hfin : ∀ s' : RmqState σ, At b s'.it → s'.cur = excess v b → s'.min = excess v s'.idx → IsExcessRmq v a b s'.idx →
            ((∃ p e, t.excessRmq a b = some (p, e) ∧ IsExcessRmq v a b p) ∧ ∃ s'', ((t.excessRmq a b) >>= fun x => assertP (s'.idx = x.1) >>= fun _ => pure s') = some s'' ∧
              At (b+1-1) s''.it ∧ s''.cur = excess v (b+1-1) ∧ s''.min = excess v s''.idx ∧ IsExcessRmq v a (b+1-1) s''.idx) ∨
            (¬ (∃ p e, t.excessRmq a b = some (p, e) ∧ IsExcessRmq v a b p) ∧ ((t.excessRmq a b) >>= fun x => assertP (s'.idx = x.1) >>= fun _ => pure s') = none) := by
          intro s' g1 g2 g3 g4
          rw [pos_iff]
          by_cases k : (t.excessRmq a b).map Prod.fst = some s'.idx
          · refine .inl ⟨?_, s', by rw [if_pos k]; rfl, g1, g2, g3, g4⟩
            cases e : t.excessRmq a b with
            | none => rw [e] at k; simp at k
            | some x =>
              rw [e] at k
              obtain ⟨p, e⟩ := x
              simp at k
              subst k
              exact ⟨_, _, rfl, g4⟩
          · refine .inr ⟨?_, by rw [if_neg k]⟩
            rintro ⟨p, e, k1, k2⟩
            rw [k1] at k
            exact k (by simp [isExcessRmq_unique k2 g4])
        unfold rmqStep
        rw [n1, bind_pure_some]
        dsimp only
        rw [hc, hi, bind_pure_some]
        by_cases hlt : excess v b < s.min
        · rw [if_pos hlt, hexc b (by omega), bind_pure_some, assertP_eq _ rfl, bind_pure_some]
          refine hfin ⟨e', excess v b, excess v b, b⟩ n3 rfl rfl ⟨by dsimp only; omega, Nat.le_refl _, fun q h1 h2 => ?_, fun q h1 h2 => ?_⟩
          · rcases Nat.eq_or_lt_of_le h2 with rfl | h2
            · exact Int.le_refl _
            · have := i4.2.2.1 q h1 (by omega); dsimp only; omega
          · have := i4.2.2.1 q h1 (by dsimp only at h2; omega); dsimp only; omega
        · rw [if_neg hlt]
          refine hfin ⟨e', excess v b, s.min, s.idx⟩ n3 rfl i3 ⟨i4.1, by have := i4.2.1; dsimp only; omega, fun q h1 h2 => ?_, i4.2.2.2⟩
          rcases Nat.eq_or_lt_of_le h2 with rfl | h2
          · dsimp only; omega
          · exact i4.2.2.1 q h1 (by omega))
    rcases key with ⟨k1, s', k2, _⟩ | ⟨⟨j, k1, k2, k3⟩, k4⟩
    · rw [k2]
      exact ⟨fun _ => ⟨hg, fun b h1 h2 => k1 b h1 (by omega)⟩, fun _ => rfl⟩
    · rw [k4]
      exact ⟨fun g => by simp at g, fun g => absurd (g.2 j k1 (by omega)) k3⟩
  · rw [if_neg hg]
    exact ⟨fun g => by simp at g, fun g => absurd g.1 hg⟩

theorem rmq_iff {σ : Type} (v : List Bool) (t : Rmq σ) (At : Nat → σ → Prop) (hs : Streams v t At)
    (hexc : ∀ p, p ≤ v.length → t.excess p = some (excess v p)) (hlen : v.length < 2^31) :
    (∀ rand, rmq rand v t = some ()) ↔ v = [] ∨ (∃ e, t.excessRmq v.length v.length = some (v.length, e)) ∧
      ∀ a b, a ≤ b → b < v.length → ∃ p e, t.excessRmq a b = some (p, e) ∧ IsExcessRmq v a b p := by
  by_cases hv : v = []
  · subst hv
    simp [rmq, pure]
  have hpos : 0 < v.length := List.length_pos_iff.2 hv
  have hself : ∀ a p, IsExcessRmq v a a p ↔ p = a := fun a p =>
    ⟨fun h => by have := h.1; have := h.2.1; omega, fun h => by
      subst h
      exact ⟨Nat.le_refl _, Nat.le_refl _, fun q h1 h2 => by
        have : q = p := by omega
        subst this; omega, fun q h1 h2 => by omega⟩⟩
  unfold rmq
  simp only [if_neg hv, forM_iff]
  constructor
  · intro h
    right
    refine ⟨((rmqFrom_iff v t At hs hexc hlen v.length (Nat.le_refl _)).1 (h (fun _ => 0) _ (by simp))).1, fun a b h1 h2 => ?_⟩
    have := (rmqFrom_iff v t At hs hexc hlen a (by omega)).1 (h (fun _ => a) a (by
      rw [List.mem_append]; right
      exact List.mem_map.2 ⟨0, by simp, Nat.mod_eq_of_lt (by omega)⟩))
    rcases Nat.eq_or_lt_of_le h1 with rfl | h1
    · obtain ⟨e, he⟩ := this.1
      exact ⟨a, e, he, (hself a a).2 rfl⟩
    · exact this.2 b h1 h2
  · rintro (h | ⟨h1, h2⟩) rand x _
    · exact absurd h hv
    · by_cases hx : x ≤ v.length
      · refine (rmqFrom_iff v t At hs hexc hlen x hx).2 ⟨?_, fun b g1 g2 => h2 x b (by omega) g2⟩
        rcases Nat.eq_or_lt_of_le hx with rfl | hx
        · exact h1
        · obtain ⟨p, e, k1, k2⟩ := h2 x x (Nat.le_refl _) hx
          rw [(hself x p).1 k2] at k1
          exact ⟨e, k1⟩
      · unfold rmqFrom
        rw [if_pos (by omega)]; rfl

end Test
end Succinct
