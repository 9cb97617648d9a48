import Verif.Props.CartesianTree

/-!
# C68: the comparator handed to `cartesian_tree` decides between equal elements
-/
namespace Succinct
open Spec
open RSBitVector (bind_pure_some)

/-- an element not above a minimum is a minimum -/
theorem isMinAt_of_not_lt {α : Type} {lt : α → α → Bool} (ho : StrictWeak lt) {v : List α} {a b m k : Nat} (hb : b < v.length)
    (h : IsMinAt lt v a b m) (hak : a ≤ k) (hkb : k ≤ b) (hk : k < v.length) (hm : m < v.length) (hc : lt v[m] v[k] = false) :
    IsMinAt lt v a b k := by
  obtain ⟨h1, h2, x, hx, hmin⟩ := h
  rw [List.getElem?_eq_getElem hm] at hx
  cases hx
  refine ⟨hak, hkb, v[k], List.getElem?_eq_getElem hk, fun j y j1 j2 hy => ?_⟩
  by_contra hlt
  rcases ho.neg v[m] (by simpa using hlt : lt y v[k] = true) with g | g
  · rw [hmin j y j1 j2 hy] at g; simp at g
  · rw [hc] at g; simp at g

theorem rightmost_exists {α : Type} {lt : α → α → Bool} (ho : StrictWeak lt) (v : List α) (a b : Nat) (hab : a ≤ b) (hb : b < v.length) :
    ∃ m, IsRightmostMin lt v a b m := by
  obtain ⟨m0, h0, _⟩ := leftmost_exists ho v a b hab hb
  have : ∀ d m, b - m ≤ d → IsMinAt lt v a b m → ∃ m, IsRightmostMin lt v a b m := by
    intro d
    induction d with
    | zero => exact fun m hd hm => ⟨m, hm, fun k hk hk' => by have := hk'.2.1; omega⟩
    | succ d ih =>
      intro m hd hm
      by_cases hex : ∃ k, m < k ∧ IsMinAt lt v a b k
      · obtain ⟨k, hk, hk'⟩ := hex
        exact ih k (by omega) hk'
      · exact ⟨m, hm, fun k hk hk' => hex ⟨k, hk, hk'⟩⟩
  exact this _ m0 (Nat.le_refl _) h0

/-- **C68**: the answer of `rmq` for an arbitrary comparator, order or not, wherever the range has a
winner: an index `m` whose element is preferred to every element on its left and to which no element
on its right is preferred. -/
theorem C68_winner {α : Type} (comp : α → α → Bool) (v : List α) (hv : v.length < 2^30 - 1) :
    ∃ t, CartesianTree.build comp v = some t ∧
      ∀ a b m x, a ≤ m → m ≤ b → b < v.length → v[m]? = some x →
        (∀ k y, a ≤ k → k < m → v[k]? = some y → comp x y = true) →
        (∀ k y, m < k → k ≤ b → v[k]? = some y → comp y x = false) → t.rmq a b = some m := by
  obtain ⟨t, e, hb, hi⟩ := CartesianTree.build_spec comp v hv 0 false
  refine ⟨t, by rw [CartesianTree.build_eq, e], fun a b m x ham hmb hbv hx h1 h2 => ?_⟩
  rw [List.getElem?_eq_getElem (by omega)] at hx
  cases hx
  exact CartesianTree.rmq_spec comp hv hb hi a b m ham hmb hbv
    (fun k hk k1 k2 => h1 k _ k1 k2 (List.getElem?_eq_getElem hk))
    (fun k hk k1 k2 => h2 k _ k1 k2 (List.getElem?_eq_getElem hk))

/-- **C68**: under the reflexive comparator `x <= y` of a strict weak order (`std::less_equal`), `rmq`
returns the largest index in `[a, b]` holding a minimum. -/
theorem C68_rightmost {α : Type} (lt : α → α → Bool) (ho : StrictWeak lt) (v : List α) (hv : v.length < 2^30 - 1) :
    ∃ t, CartesianTree.build (fun x y => !lt y x) v = some t ∧
      ∀ a b, a ≤ b → b < v.length → ∃ m, t.rmq a b = some m ∧ IsRightmostMin lt v a b m := by
  obtain ⟨t, e, h⟩ := C68_winner (fun x y => !lt y x) v hv
  refine ⟨t, e, fun a b hab hbv => ?_⟩
  obtain ⟨m, hm⟩ := rightmost_exists ho v a b hab hbv
  obtain ⟨⟨h1, h2, x, hx, hmin⟩, hr⟩ := id hm
  refine ⟨m, h a b m x h1 h2 hbv hx (fun k y k1 k2 hy => ?_) (fun k y k1 k2 hy => ?_), hm⟩
  · show (!lt y x) = true
    rw [hmin k y k1 (by omega) hy]; rfl
  · show (!lt x y) = false
    by_contra hc
    refine hr k k1 (isMinAt_of_not_lt ho hbv hm.1 (by omega) k2 (by omega) (by omega) ?_)
    rw [List.getElem?_eq_getElem (by omega)] at hx hy
    cases hx; cases hy
    simpa using hc

/-- **C68**: with the order reversed (`std::greater`) `rmq` is a range maximum query: the smallest index
whose element no element of the range exceeds. -/
theorem C68_maximum {α : Type} (lt : α → α → Bool) (ho : StrictWeak lt) (v : List α) (hv : v.length < 2^30 - 1) :
    ∃ t, CartesianTree.build (fun x y => lt y x) v = some t ∧
      ∀ a b, a ≤ b → b < v.length → ∃ m x, t.rmq a b = some m ∧ a ≤ m ∧ m ≤ b ∧ v[m]? = some x ∧
        (∀ k y, a ≤ k → k ≤ b → v[k]? = some y → lt x y = false) ∧
        (∀ k y, a ≤ k → k < m → v[k]? = some y → lt y x = true) := by
  obtain ⟨t, e, h⟩ := C36_rmq _ ho.converse v hv
  refine ⟨t, e, fun a b hab hbv => ?_⟩
  obtain ⟨m, q, hm⟩ := h a b hab hbv
  obtain ⟨h1, h2, h3, h4⟩ := leftmost_strict ho.converse hbv hm
  refine ⟨m, v[m], q, h1, h2, List.getElem?_eq_getElem _, fun k y k1 k2 hy => ?_, fun k y k1 k2 hy => ?_⟩
  · rw [List.getElem?_eq_getElem (by omega)] at hy
    cases hy; exact h4 k (by omega) (by omega) k1 k2
  · rw [List.getElem?_eq_getElem (by omega)] at hy
    cases hy; exact h3 k (by omega) (by omega) k1 k2

/-- **C68**: both answers coincide exactly if the minimum of the range is unique up to position. -/
theorem C68_tie {α : Type} (lt : α → α → Bool) (v : List α) (a b m : Nat) :
    (IsLeftmostMin lt v a b m ∧ IsRightmostMin lt v a b m) ↔ ∀ k, IsMinAt lt v a b k ↔ k = m := by
  constructor
  · rintro ⟨⟨h, hl⟩, _, hr⟩ k
    constructor
    · intro hk
      rcases Nat.lt_trichotomy k m with g | g | g
      · exact absurd hk (hl k g)
      · exact g
      · exact absurd hk (hr k g)
    · rintro rfl; exact h
  · intro h
    exact ⟨⟨(h m).2 rfl, fun k hk hk' => by have := (h k).1 hk'; omega⟩,
      (h m).2 rfl, fun k hk hk' => by have := (h k).1 hk'; omega⟩

/-- ties: the same range answered under `<` and under `<=` -/
example : (CartesianTree.build (fun a b : Nat => decide (a < b)) [3, 1, 4, 1, 5, 9, 1, 6] >>= fun t => t.rmq 0 7) = some 1 ∧
    (CartesianTree.build (fun a b : Nat => !decide (b < a)) [3, 1, 4, 1, 5, 9, 1, 6] >>= fun t => t.rmq 0 7) = some 6 ∧
    (CartesianTree.build (fun a b : Nat => !decide (b < a)) [3, 1, 4, 1, 5, 9, 1, 6] >>= fun t => t.rmq 0 5) = some 3 := by decide +kernel
example : (CartesianTree.build (fun a b : Nat => decide (b < a)) [3, 9, 4, 1, 5, 9, 1, 6] >>= fun t => t.rmq 0 7) = some 1 := by decide +kernel
/-- a comparator that is not transitive (rock, scissors, paper): the range `[1, 3]` has a winner -/
example : (CartesianTree.build (fun a b : Nat => decide ((a + 1) % 3 = b % 3)) [0, 1, 1, 0, 2] >>= fun t => t.rmq 1 3) = some 3 := by decide +kernel

end Succinct
