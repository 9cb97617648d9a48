import Verif.Spec.Tree
import Verif.Spec.Parens
import Mathlib.Tactic.ByContra

/-! Ordered forests. -/
namespace Succinct.Spec.Forest

theorem bp_length : ∀ F : Forest, F.bp.length = 2 * F.size
  | nil => rfl
  | cons k r => by
    have := bp_length k; have := bp_length r
    simp only [bp, size, List.length_append, List.length_cons]; omega

theorem bp_bal : ∀ F : Forest, Bal F.bp
  | nil => .nil
  | cons k r => .node (bp_bal k) (bp_bal r)

theorem bp_count : ∀ F : Forest, F.bp.count true = F.size ∧ F.bp.count false = F.size
  | nil => ⟨rfl, rfl⟩
  | cons k r => by
    have := bp_count k; have := bp_count r
    simp [bp, size, List.count_append, List.count_cons, *]; omega

namespace Node

theorem ne_nil {F p n o s} (h : Node F p n o s) : p ≠ [] := by cases h <;> simp

theorem det {F p n o s} (h : Node F p n o s) : ∀ {n' o' s'}, Node F p n' o' s' → n = n' ∧ o = o' ∧ s = s' := by
  induction h with
  | here =>
    intro n' o' s' h'
    cases h' with
    | here => exact ⟨rfl, rfl, rfl⟩
    | down h => exact absurd rfl h.ne_nil
  | down h ih =>
    intro n' o' s' h'
    cases h' with
    | here => exact absurd rfl h.ne_nil
    | down h2 => obtain ⟨rfl, rfl, rfl⟩ := ih h2; exact ⟨rfl, rfl, rfl⟩
  | next h ih =>
    intro n' o' s' h'
    cases h' with
    | next h2 => obtain ⟨rfl, rfl, rfl⟩ := ih h2; exact ⟨rfl, rfl, rfl⟩

theorem concat {F p n o s} (h : Node F p n o s) {r m u t} (h2 : Node s r m u t) : Node F (p ++ r) (n + 1 + m) (o + 1 + u) t := by
  induction h with
  | here => rw [show (0:Nat) + 1 + m = 1 + m by omega, show (0:Nat) + 1 + u = 1 + u by omega]; exact .down h2
  | down h ih =>
    have := ih h2
    rename_i n o s
    rw [show 1 + n + 1 + m = 1 + (n + 1 + m) by omega, show 1 + o + 1 + u = 1 + (o + 1 + u) by omega]
    exact .down this
  | next h ih =>
    have := ih h2
    rename_i k _ _ _ n o s
    rw [show 1 + k.size + n + 1 + m = 1 + k.size + (n + 1 + m) by omega, show 2 + 2 * k.size + o + 1 + u = 2 + 2 * k.size + (o + 1 + u) by omega]
    exact .next this

theorem split : ∀ {F p r n o t}, Node F (p ++ r) n o t → p ≠ [] → r ≠ [] →
    ∃ n1 o1 s n2 o2, Node F p n1 o1 s ∧ Node s r n2 o2 t ∧ n = n1 + 1 + n2 ∧ o = o1 + 1 + o2 := by
  intro F p r n o t h
  generalize hq : p ++ r = q at h
  induction h generalizing p with
  | here =>
    intro hp hr
    have := congrArg List.length hq
    have := List.length_pos_iff.2 hp; have := List.length_pos_iff.2 hr
    simp at *; omega
  | down h ih =>
    intro hp hr
    obtain ⟨a, p, rfl⟩ := List.exists_cons_of_ne_nil hp
    simp only [List.cons_append, List.cons.injEq] at hq
    obtain ⟨rfl, hq⟩ := hq
    cases p with
    | nil =>
      simp only [List.nil_append] at hq
      subst hq
      exact ⟨0, 0, _, _, _, .here, h, by omega, by omega⟩
    | cons b p =>
      obtain ⟨n1, o1, s, n2, o2, h1, h2, e1, e2⟩ := ih hq (by simp) hr
      exact ⟨_, _, s, n2, o2, .down h1, h2, by omega, by omega⟩
  | next h ih =>
    intro hp hr
    rename_i k _ i p' n' o' s'
    obtain ⟨a, p, rfl⟩ := List.exists_cons_of_ne_nil hp
    simp only [List.cons_append, List.cons.injEq] at hq
    obtain ⟨rfl, hq⟩ := hq
    obtain ⟨n1, o1, s, n2, o2, h1, h2, e1, e2⟩ := ih (p := i :: p) (by simp [hq]) (by simp) hr
    exact ⟨_, _, s, n2, o2, .next h1, h2, by omega, by omega⟩

/-- the parentheses of a node inside those of the forest -/
theorem shape {F p n o s} (h : Node F p n o s) : ∃ A B, F.bp = A ++ (true :: s.bp ++ false :: B) ∧ A.length = o ∧ A.count true = n ∧
    A.count true + 1 = A.count false + p.length := by
  induction h with
  | here => exact ⟨[], _, rfl, rfl, rfl, rfl⟩
  | down h ih =>
    obtain ⟨A, B, e, h1, h2, h3⟩ := ih
    rename_i k r p n o s
    refine ⟨true :: A, B ++ false :: r.bp, by simp [bp, e], by simp [h1]; omega, by simp [h2]; omega, ?_⟩
    simp only [List.count_cons, List.length_cons]; simp; omega
  | next h ih =>
    obtain ⟨A, B, e, h1, h2, h3⟩ := ih
    rename_i k r i p n o s
    have hk := bp_count k
    have hl := bp_length k
    refine ⟨true :: k.bp ++ false :: A, B, by simp [bp, e], by simp [h1, hl]; omega, ?_, ?_⟩
    · simp [List.count_append, List.count_cons, hk, h2]; omega
    · simp only [List.length_cons] at h3 ⊢
      simp [List.count_append, List.count_cons, hk]; omega

/-- the roots before a root are balanced -/
theorem root_shape {F i n o s} (h : Node F [i] n o s) : ∃ M B, F.bp = M ++ (true :: s.bp ++ false :: B) ∧ M.length = o ∧ Bal M := by
  generalize hp : [i] = p at h
  induction h generalizing i with
  | here => exact ⟨[], _, rfl, rfl, .nil⟩
  | down h ih => simp at hp; exact absurd hp.2.symm (by simpa using h.ne_nil)
  | next h ih =>
    rename_i k r j p n o s
    simp only [List.cons.injEq] at hp
    obtain ⟨rfl, rfl⟩ := hp
    obtain ⟨M, B, e, h1, h2⟩ := ih rfl
    exact ⟨true :: k.bp ++ false :: M, B, by simp [bp, e], by simp [h1, bp_length]; omega, .node (bp_bal k) h2⟩

/-- first component of a path -/
theorem root_of {F i p n o s} (h : Node F (i :: p) n o s) : ∃ m u t, Node F [i] m u t ∧ u ≤ o ∧ o + 2 * s.size ≤ u + 2 * t.size := by
  generalize hp : i :: p = q at h
  induction h generalizing i p with
  | here => cases hp; exact ⟨_, _, _, .here, Nat.le_refl _, Nat.le_refl _⟩
  | down h ih =>
    rename_i k r p' n o s
    cases hp
    obtain ⟨A, B, e, h1, _⟩ := h.shape
    have e := congrArg List.length e
    rw [bp_length] at e
    simp only [List.length_append, List.length_cons, bp_length] at e
    exact ⟨_, _, _, .here, by omega, by omega⟩
  | next h ih =>
    cases hp
    obtain ⟨m, u, t, h1, h2, h3⟩ := ih rfl
    exact ⟨_, _, _, .next h1, by omega, by omega⟩

/-- a later root starts after the end of an earlier one -/
theorem root_lt {F i n o s} (h : Node F [i] n o s) : ∀ {j m u t}, Node F [j] m u t → i < j → o + 2 * s.size + 2 ≤ u := by
  generalize hp : [i] = p at h
  induction h generalizing i with
  | here =>
    intro j m u t h2 hij
    cases hp
    cases h2 with
    | here => omega
    | down h => omega
    | next h => omega
  | down h ih => simp at hp; exact absurd hp.2.symm (by simpa using h.ne_nil)
  | next h ih =>
    intro j m u t h2 hij
    cases hp
    cases h2 with
    | here => omega
    | down h => omega
    | next h2 => have := ih rfl h2 (by omega); omega

/-- every opening parenthesis belongs to a node -/
theorem exists_of_open : ∀ (F : Forest) (i : Nat), F.bp[i]? = some true → ∃ p n s, Node F p n i s
  | nil, i, h => by simp [bp] at h
  | cons k r, i, h => by
    simp only [bp, List.cons_append] at h
    rcases i with _ | i
    · exact ⟨_, _, _, .here⟩
    · rw [List.getElem?_cons_succ] at h
      rcases Nat.lt_or_ge i k.bp.length with h1 | h1
      · rw [List.getElem?_append_left h1] at h
        obtain ⟨p, n, s, h2⟩ := exists_of_open k i h
        exact ⟨_, _, _, by rw [Nat.add_comm]; exact .down h2⟩
      · rw [List.getElem?_append_right h1] at h
        rcases h3 : i - k.bp.length with _ | j
        · rw [h3] at h; simp at h
        · rw [h3, List.getElem?_cons_succ] at h
          obtain ⟨p, n, s, h2⟩ := exists_of_open r j h
          obtain ⟨a, p, rfl⟩ := List.exists_cons_of_ne_nil h2.ne_nil
          rw [bp_length] at h1 h3
          exact ⟨_, _, _, by rw [show i + 1 = 2 + 2 * k.size + j by omega]; exact .next h2⟩

theorem next_sibling {F i n o s} (h : Node F [i] n o s) (hr : F.bp[o + 2 * s.size + 2]? = some true) :
    ∃ t, Node F [i+1] (n + 1 + s.size) (o + 2 * s.size + 2) t := by
  generalize hp : [i] = p at h
  induction h generalizing i with
  | here =>
    cases hp
    rename_i k r
    cases r with
    | nil =>
      have := (List.getElem?_eq_some_iff.1 hr).1
      rw [bp_length] at this; simp [size] at this; omega
    | cons k2 r2 =>
      refine ⟨k2, ?_⟩
      have := Node.next (k := k) (Node.here (k := k2) (r := r2))
      rwa [show 1 + k.size + 0 = 0 + 1 + k.size by omega, show 2 + 2 * k.size + 0 = 0 + 2 * k.size + 2 by omega] at this
  | down h ih => simp at hp; exact absurd hp.2.symm (by simpa using h.ne_nil)
  | next h ih =>
    cases hp
    rename_i k r i n o s
    have e : (cons k r).bp = (true :: k.bp ++ [false]) ++ r.bp := by simp [bp]
    rw [e, List.getElem?_append_right (by simp [bp_length]; omega)] at hr
    obtain ⟨t, h2⟩ := ih (i := _) (by rw [← hr]; congr 1; simp [bp_length]; omega) rfl
    refine ⟨t, ?_⟩
    have := Node.next (k := k) h2
    rwa [show 1 + k.size + (n + 1 + s.size) = 1 + k.size + n + 1 + s.size by omega, show 2 + 2 * k.size + (o + 2 * s.size + 2) = 2 + 2 * k.size + o + 2 * s.size + 2 by omega] at this

end Node

theorem root_succ {F i n o s} (h : Node F [i] n o s) : ∀ {m u t}, Node F [i+1] m u t → u = o + 2 * s.size + 2 ∧ m = n + s.size + 1 := by
  generalize hp : [i] = p at h
  induction h generalizing i with
  | here =>
    intro m u t h2
    cases hp
    cases h2 with
    | next h =>
      cases h with
      | here => omega
      | down h => exact absurd rfl h.ne_nil
  | down h ih => simp at hp; exact absurd hp.2.symm (by simpa using h.ne_nil)
  | next h ih =>
    intro m u t h2
    cases hp
    cases h2 with
    | next h2 => have := ih rfl h2; omega

end Succinct.Spec.Forest
