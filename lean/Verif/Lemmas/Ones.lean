import Verif.Lemmas.Cnt
import Mathlib.Tactic.ByContra

/-! The increasing list of the positions in `[a, b)` where a predicate holds. -/
namespace Succinct

/-- the positions in `[a, b)` where `f` holds, increasing -/
def onesIn (f : Nat → Bool) (a b : Nat) : List Nat := (List.range' a (b - a)).filter f

theorem onesIn_nil {f : Nat → Bool} {a b : Nat} (h : ∀ p, a ≤ p → p < b → f p = false) : onesIn f a b = [] := by
  unfold onesIn
  rw [List.filter_eq_nil_iff]
  intro p hp
  rw [List.mem_range'_1] at hp
  rw [h p hp.1 (by omega)]; simp

theorem onesIn_of_ge (f : Nat → Bool) {a b : Nat} (h : b ≤ a) : onesIn f a b = [] :=
  onesIn_nil (by intro p h1 h2; omega)

theorem onesIn_split (f : Nat → Bool) {a m b : Nat} (h1 : a ≤ m) (h2 : m ≤ b) :
    onesIn f a b = onesIn f a m ++ onesIn f m b := by
  unfold onesIn
  rw [← List.filter_append]
  congr 1
  have := List.range'_append_1 (s := a) (m := m - a) (n := b - m)
  rw [show a + (m - a) = m by omega, show m - a + (b - m) = b - a by omega] at this
  exact this.symm

theorem onesIn_cons {f : Nat → Bool} {a b : Nat} (h : a < b) (hf : f a = true) :
    onesIn f a b = a :: onesIn f (a+1) b := by
  rw [onesIn_split f (show a ≤ a+1 by omega) h]
  have : onesIn f a (a+1) = [a] := by
    unfold onesIn
    rw [show a + 1 - a = 1 by omega]
    simp [List.range'_one, hf]
  rw [this]; rfl

theorem onesIn_length (f : Nat → Bool) (n : Nat) : (onesIn f 0 n).length = cnt f n := by
  induction n with
  | zero => rw [onesIn_of_ge f (by omega), cnt_zero]; rfl
  | succ n ih =>
    rw [onesIn_split f (show 0 ≤ n by omega) (show n ≤ n+1 by omega), List.length_append, ih, cnt_succ]
    congr 1
    cases h : f n
    · rw [onesIn_nil]; rfl
      intro p h1 h2
      rw [show p = n by omega, h]
    · rw [onesIn_cons (by omega) h, onesIn_of_ge f (by omega)]; rfl

theorem onesIn_getElem? {f : Nat → Bool} {n p : Nat} (hp : p < n) (hf : f p = true) :
    (onesIn f 0 n)[cnt f p]? = some p := by
  rw [onesIn_split f (show 0 ≤ p by omega) (show p ≤ n by omega), onesIn_cons hp hf,
    List.getElem?_append_right (by rw [onesIn_length]; omega), onesIn_length, Nat.sub_self]; rfl

theorem onesIn_getElem?_iff {f : Nat → Bool} {n p k : Nat} :
    (onesIn f 0 n)[k]? = some p ↔ p < n ∧ f p = true ∧ cnt f p = k := by
  constructor
  · intro h
    have hk : k < (onesIn f 0 n).length := by
      by_contra hh
      rw [List.getElem?_eq_none (by omega)] at h; simp at h
    rw [onesIn_length] at hk
    obtain ⟨q, h1, h2, h3⟩ := sel_exists hk
    have := onesIn_getElem? h1 h2
    rw [h3, h] at this
    obtain rfl := Option.some.inj this
    exact ⟨h1, h2, h3⟩
  · rintro ⟨h1, h2, h3⟩
    rw [← h3]; exact onesIn_getElem? h1 h2

end Succinct
