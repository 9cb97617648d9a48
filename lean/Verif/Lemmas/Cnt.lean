/-! Counting the positions below `n` at which a Boolean function holds. -/
namespace Succinct

/-- number of `i < n` with `f i` -/
def cnt (f : Nat → Bool) : Nat → Nat
  | 0 => 0
  | n+1 => cnt f n + (f n).toNat

@[simp] theorem cnt_zero (f : Nat → Bool) : cnt f 0 = 0 := rfl
theorem cnt_succ (f : Nat → Bool) (n : Nat) : cnt f (n+1) = cnt f n + (f n).toNat := rfl

theorem cnt_congr {f g : Nat → Bool} {n : Nat} (h : ∀ i, i < n → f i = g i) : cnt f n = cnt g n := by
  induction n with
  | zero => rfl
  | succ n ih => rw [cnt_succ, cnt_succ, ih (fun i hi => h i (by omega)), h n (by omega)]

theorem cnt_add (f : Nat → Bool) (a b : Nat) :
    cnt f (a + b) = cnt f a + cnt (fun i => f (a + i)) b := by
  induction b with
  | zero => rfl
  | succ b ih => rw [← Nat.add_assoc, cnt_succ, cnt_succ, ih]; omega

theorem cnt_le (f : Nat → Bool) (n : Nat) : cnt f n ≤ n := by
  induction n with
  | zero => simp
  | succ n ih => rw [cnt_succ]; cases f n <;> simp <;> omega

theorem cnt_mono (f : Nat → Bool) {a b : Nat} (h : a ≤ b) : cnt f a ≤ cnt f b := by
  obtain ⟨c, rfl⟩ := Nat.exists_eq_add_of_le h
  rw [cnt_add]; omega

theorem cnt_sub_le (f : Nat → Bool) {a b : Nat} (h : a ≤ b) : cnt f b ≤ cnt f a + (b - a) := by
  obtain ⟨c, rfl⟩ := Nat.exists_eq_add_of_le h
  rw [cnt_add]; have := cnt_le (fun i => f (a+i)) c; omega

theorem cnt_false {f : Nat → Bool} {n : Nat} (h : ∀ i, i < n → f i = false) : cnt f n = 0 := by
  induction n with
  | zero => rfl
  | succ n ih => rw [cnt_succ, ih (fun i hi => h i (by omega)), h n (by omega)]; rfl

theorem cnt_true {f : Nat → Bool} {n : Nat} (h : ∀ i, i < n → f i = true) : cnt f n = n := by
  induction n with
  | zero => rfl
  | succ n ih => rw [cnt_succ, ih (fun i hi => h i (by omega)), h n (by omega)]; rfl

theorem cnt_not (f : Nat → Bool) (n : Nat) : cnt (fun i => !f i) n = n - cnt f n := by
  induction n with
  | zero => rfl
  | succ n ih =>
    rw [cnt_succ, cnt_succ, ih]; have := cnt_le f n
    cases f n <;> simp <;> omega

theorem cnt_not_add (f : Nat → Bool) (n : Nat) : cnt (fun i => !f i) n + cnt f n = n := by
  rw [cnt_not]; have := cnt_le f n; omega

/-- a one strictly below means the count strictly increases -/
theorem cnt_lt_of_true {f : Nat → Bool} {a b : Nat} (h : a < b) (ha : f a = true) :
    cnt f a < cnt f b := by
  have := cnt_mono f (show a+1 ≤ b by omega)
  rw [cnt_succ, ha] at this; simp at this; omega

/-- uniqueness of `select` -/
theorem sel_unique {f : Nat → Bool} {a b : Nat} (ha : f a = true) (hb : f b = true)
    (h : cnt f a = cnt f b) : a = b := by
  rcases Nat.lt_trichotomy a b with h1 | h1 | h1
  · have := cnt_lt_of_true h1 ha; omega
  · exact h1
  · have := cnt_lt_of_true h1 hb; omega

/-- existence of `select` -/
theorem sel_exists {f : Nat → Bool} {n k : Nat} (h : k < cnt f n) :
    ∃ p, p < n ∧ f p = true ∧ cnt f p = k := by
  induction n with
  | zero => simp at h
  | succ n ih =>
    by_cases hk : k < cnt f n
    · obtain ⟨p, h1, h2, h3⟩ := ih hk
      exact ⟨p, by omega, h2, h3⟩
    · rw [cnt_succ] at h
      cases hf : f n
      · rw [hf] at h; simp at h; omega
      · rw [hf] at h; simp at h; exact ⟨n, by omega, hf, by omega⟩

/-- shifting the start -/
theorem cnt_shift (f : Nat → Bool) {a b : Nat} (h : a ≤ b) :
    cnt (fun i => f (a + i)) (b - a) = cnt f b - cnt f a := by
  obtain ⟨c, rfl⟩ := Nat.exists_eq_add_of_le h
  rw [cnt_add]; simp

theorem cnt_eq_iff_false {f : Nat → Bool} {a b : Nat} (hab : a ≤ b) :
    cnt f a = cnt f b ↔ ∀ i, a ≤ i → i < b → f i = false := by
  constructor
  · intro h i h1 h2
    cases hf : f i
    · rfl
    · have := cnt_mono f h1
      have := cnt_lt_of_true h2 hf
      omega
  · intro h
    obtain ⟨c, rfl⟩ := Nat.exists_eq_add_of_le hab
    rw [cnt_add, cnt_false (f := fun i => f (a+i)) (fun i hi => h (a+i) (by omega) (by omega))]; rfl

theorem cnt_lt_exists {f : Nat → Bool} {a b : Nat} (hlt : cnt f a < cnt f b) :
    ∃ i, a ≤ i ∧ i < b ∧ f i = true := by
  rcases Nat.lt_or_ge b a with h | h
  · have := cnt_mono f (Nat.le_of_lt h); omega
  · refine Classical.byContradiction fun hne => ?_
    have : cnt f a = cnt f b := by
      rw [cnt_eq_iff_false h]
      intro i h1 h2
      cases hf : f i
      · rfl
      · exact (hne ⟨i, h1, h2, hf⟩).elim
    omega

attribute [irreducible] cnt

end Succinct
