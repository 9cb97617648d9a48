import Verif.Model.AutoFile

/-! # C123: `auto_file` closes its file exactly once -/
namespace Succinct
open Spec
namespace AutoFile

/-- the program does not read through a saved pointer, and only uses objects in scope -/
def Prog.Plain : Prog → Nat → Prop
  | .skip, _ => True
  | .use k, n => k < n
  | .save k, n => k < n
  | .useSaved, _ => False
  | .throw_ _, _ => True
  | .seq p q, n => p.Plain n ∧ q.Plain n
  | .scope _ b, n => b.Plain (n + 1)
  | .catch_ p q, n => p.Plain n ∧ q.Plain n

theorem replay_append (es fs : List FileEvent) (o : List Nat) : replay (es ++ fs) o = (replay es o).bind (replay fs) := by
  induction es generalizing o with
  | nil => rfl
  | cons e es ih =>
    cases e <;> simp only [List.cons_append, replay] <;> split <;> first | exact ih _ | rfl

theorem run_plain (p : Prog) : ∀ (env : List Nat) (s : St) (o : List Nat), p.Plain env.length → (∀ h ∈ env, h ∈ o) → (∀ h ∈ o, h < s.next) →
    ∃ r s' es, run p (env.map some) s = some (r, s', es) ∧ replay es o = some o ∧ s.next ≤ s'.next := by
  induction p with
  | skip => intro env s o _ _ _; exact ⟨_, _, _, rfl, rfl, Nat.le_refl _⟩
  | use k =>
    intro env s o hp he _
    have hk : k < env.length := hp
    refine ⟨none, s, [.used env[k]], ?_, ?_, Nat.le_refl _⟩
    · unfold run; simp [hk, get]
    · simp [replay, he _ (List.getElem_mem hk)]
  | save k =>
    intro env s o hp _ _
    have hk : k < env.length := hp
    refine ⟨none, { s with saved := some env[k] }, [], ?_, rfl, Nat.le_refl _⟩
    unfold run; simp [hk, get]
  | useSaved => intro env s o hp; exact hp.elim
  | throw_ e => intro env s o _ _ _; exact ⟨_, _, _, rfl, rfl, Nat.le_refl _⟩
  | seq p q ihp ihq =>
    intro env s o hp he ho
    obtain ⟨r, s1, es, h1, h2, h3⟩ := ihp env s o hp.1 he ho
    unfold run
    rw [h1]
    cases r with
    | some e => exact ⟨_, _, _, rfl, h2, h3⟩
    | none =>
      obtain ⟨r', s2, fs, g1, g2, g3⟩ := ihq env s1 o hp.2 he (fun h hh => Nat.lt_of_lt_of_le (ho h hh) h3)
      simp only [g1]
      exact ⟨_, _, _, rfl, by rw [replay_append, h2]; exact g2, Nat.le_trans h3 g3⟩
  | scope sys b ih =>
    intro env s o hp he ho
    unfold run
    cases sys with
    | fails => exact ⟨_, _, _, rfl, rfl, Nat.le_refl _⟩
    | failsNoMem => exact ⟨_, _, _, rfl, rfl, Nat.le_refl _⟩
    | ok =>
      have hn : s.next ∉ o := fun h => Nat.lt_irrefl _ (ho _ h)
      obtain ⟨r, s', es, h1, h2, h3⟩ := ih (s.next :: env) ⟨s.next + 1, s.saved⟩ (s.next :: o) hp
        (by intro h hh; rcases List.mem_cons.1 hh with rfl | hh
            · exact List.mem_cons_self
            · exact List.mem_cons_of_mem _ (he h hh))
        (by intro h hh; rcases List.mem_cons.1 hh with rfl | hh
            · exact Nat.lt_succ_self _
            · exact Nat.lt_succ_of_lt (ho h hh))
      have hc : ctor .ok s.next = (.ok (some s.next), s.next + 1, [.opened s.next]) := rfl
      rw [List.map_cons] at h1
      simp only [hc, h1]
      refine ⟨r, s', _, rfl, ?_, Nat.le_trans (Nat.le_succ _) h3⟩
      rw [replay_append, replay_append]
      show (Option.bind (replay [.opened s.next] o) (replay es)).bind (replay (dtor (some s.next))) = some o
      simp only [replay, if_neg hn, Option.bind_some, h2, dtor, List.mem_cons, true_or, if_true, List.erase_cons_head]
  | catch_ p q ihp ihq =>
    intro env s o hp he ho
    obtain ⟨r, s1, es, h1, h2, h3⟩ := ihp env s o hp.1 he ho
    unfold run
    rw [h1]
    cases r with
    | none => exact ⟨_, _, _, rfl, h2, h3⟩
    | some e =>
      obtain ⟨r', s2, fs, g1, g2, g3⟩ := ihq env s1 o hp.2 he (fun h hh => Nat.lt_of_lt_of_le (ho h hh) h3)
      simp only [g1]
      exact ⟨_, _, _, rfl, by rw [replay_append, h2]; exact g2, Nat.le_trans h3 g3⟩

/-- opened less closed is what is open more than before -/
theorem replay_count (es : List FileEvent) (o o' : List Nat) (h : replay es o = some o') (x : Nat) :
    es.count (.opened x) + o.count x = es.count (.closed x) + o'.count x := by
  induction es generalizing o with
  | nil => simp only [replay, Option.some.injEq] at h; subst h; simp
  | cons e es ih =>
    cases e with
    | opened y =>
      simp only [replay] at h
      split at h
      · cases h
      · have := ih _ h
        by_cases hy : y = x
        · subst hy; simp at this ⊢; omega
        · simp [hy] at this ⊢; omega
    | used y =>
      simp only [replay] at h
      split at h
      · have := ih _ h; simp at this ⊢; omega
      · cases h
    | closed y =>
      simp only [replay] at h
      split at h
      · next hm =>
        have := ih _ h
        by_cases hy : y = x
        · subst hy
          have hc := List.count_pos_iff.2 hm
          rw [List.count_erase_self] at this
          simp at this ⊢; omega
        · rw [List.count_erase_of_ne (by simpa using fun e => hy e.symm)] at this
          simp [hy] at this ⊢; omega
      · cases h

/-- the handles opened are new and each is opened once -/
theorem run_opened (p : Prog) : ∀ (env : List (Option Nat)) (s s' : St) (r : Option Exc) (es : List FileEvent), run p env s = some (r, s', es) →
    s.next ≤ s'.next ∧ ∀ h, es.count (.opened h) ≤ (if s.next ≤ h ∧ h < s'.next then 1 else 0) := by
  have join : ∀ (a b c : Nat) (es fs : List FileEvent), a ≤ b ∧ (∀ h, es.count (.opened h) ≤ (if a ≤ h ∧ h < b then 1 else 0)) →
      b ≤ c ∧ (∀ h, fs.count (.opened h) ≤ (if b ≤ h ∧ h < c then 1 else 0)) →
      a ≤ c ∧ ∀ h, (es ++ fs).count (.opened h) ≤ (if a ≤ h ∧ h < c then 1 else 0) := by
    intro a b c es fs ⟨h1, h2⟩ ⟨h3, h4⟩
    refine ⟨by omega, fun h => ?_⟩
    have := h2 h
    have := h4 h
    rw [List.count_append]
    split <;> split at * <;> split at * <;> omega
  induction p with
  | skip => intro env s s' r es h; cases h; simp
  | use k =>
    intro env s s' r es h
    unfold run at h
    simp only [Option.bind_eq_bind, Option.bind_eq_some_iff, Option.pure_def, Option.some.injEq, Prod.mk.injEq] at h
    obtain ⟨_, _, _, _, _, rfl, rfl⟩ := h
    simp
  | save k =>
    intro env s s' r es h
    unfold run at h
    simp only [Option.bind_eq_bind, Option.bind_eq_some_iff, Option.pure_def, Option.some.injEq, Prod.mk.injEq] at h
    obtain ⟨_, _, _, rfl, rfl⟩ := h
    simp
  | useSaved =>
    intro env s s' r es h
    unfold run at h
    simp only [Option.bind_eq_bind, Option.bind_eq_some_iff, Option.pure_def, Option.some.injEq, Prod.mk.injEq] at h
    obtain ⟨_, _, _, rfl, rfl⟩ := h
    simp
  | throw_ e => intro env s s' r es h; cases h; simp
  | seq p q ihp ihq =>
    intro env s s' r es h
    unfold run at h
    split at h
    · cases h
    · next e => cases h; exact ihp _ _ _ _ _ e
    · next e =>
      split at h
      · cases h
      · next e' => cases h; exact join _ _ _ _ _ (ihp _ _ _ _ _ e) (ihq _ _ _ _ _ e')
  | scope sys b ih =>
    intro env s s' r es h
    unfold run at h
    cases sys with
    | fails => cases h; simp
    | failsNoMem => cases h; simp
    | ok =>
      have hc : ctor .ok s.next = (.ok (some s.next), s.next + 1, [.opened s.next]) := rfl
      simp only [hc] at h
      split at h
      · cases h
      · next e =>
        cases h
        have h1 := ih _ _ _ _ _ e
        have h0 : s.next ≤ s.next + 1 ∧ ∀ h, [FileEvent.opened s.next].count (.opened h) ≤ (if s.next ≤ h ∧ h < s.next + 1 then 1 else 0) := by
          refine ⟨by omega, fun h => ?_⟩
          by_cases hh : s.next = h
          · subst hh; simp
          · simp [hh]
        have h2 : s'.next ≤ s'.next ∧ ∀ h, (dtor (some s.next)).count (.opened h) ≤ (if s'.next ≤ h ∧ h < s'.next then 1 else 0) := by
          simp [dtor]
        exact join _ _ _ _ _ (join _ _ _ _ _ h0 h1) h2
  | catch_ p q ihp ihq =>
    intro env s s' r es h
    unfold run at h
    split at h
    · cases h
    · next e => cases h; exact ihp _ _ _ _ _ e
    · next e =>
      split at h
      · cases h
      · next e' => cases h; exact join _ _ _ _ _ (ihp _ _ _ _ _ e) (ihq _ _ _ _ _ e')

end AutoFile
open AutoFile

/-- **C123** (`auto_file`): whatever a program does with `auto_file` objects in its blocks, with whatever exceptions and failures
of `fopen`, every file is used only while open and every file opened is closed exactly once before the program ends. -/
theorem C123_auto_file (p : Prog) (hp : p.Plain 0) :
    ∃ r s es, run p [] ⟨0, none⟩ = some (r, s, es) ∧ replay es [] = some [] ∧
      ∀ h, es.count (.opened h) = es.count (.closed h) ∧ es.count (.opened h) ≤ 1 := by
  obtain ⟨r, s, es, h1, h2, _⟩ := run_plain p [] ⟨0, none⟩ [] hp (by simp) (by simp)
  refine ⟨r, s, es, h1, h2, fun h => ⟨?_, ?_⟩⟩
  · have := replay_count _ _ _ h2 h
    simpa using this
  · have := (run_opened p _ _ _ _ _ h1).2 h
    split at this <;> omega

/-- **C123** (failure): if the file cannot be opened the block is not entered, an exception is thrown, and nothing is left
open; the exception is `std::invalid_argument` unless the message cannot be allocated. -/
theorem C123_failure (b : Prog) (sys : Sys) (h : sys ≠ .ok) (env : List (Option Nat)) (s : St) :
    run (.scope sys b) env s = some (some (if sys = .fails then .invalidArgument else .badAlloc), s, []) := by
  cases sys with
  | ok => exact (h rfl).elim
  | fails => rfl
  | failsNoMem => rfl

/-- **C123** (a pointer that outlives its object, not protected): `lines(f.get())` used after the block of `f` reads from a
closed file. -/
theorem C123_dangling_false :
    ∃ p s es, run p [] ⟨0, none⟩ = some (none, s, es) ∧ es = [.opened 0, .closed 0, .used 0] ∧ replay es [] = none :=
  ⟨.seq (.scope .ok (.save 0)) .useSaved, _, _, rfl, rfl, rfl⟩

/-- a program with a nested object, a failing one and a caught exception -/
example : run (.catch_ (.scope .ok (.seq (.use 0) (.scope .ok (.seq (.use 1) (.scope .fails .skip))))) .skip) [] ⟨0, none⟩ =
    some (none, ⟨2, none⟩, [.opened 0, .used 0, .opened 1, .used 0, .closed 1, .closed 0]) := rfl
example : (Prog.catch_ (.scope .ok (.seq (.use 0) (.scope .ok (.seq (.use 1) (.scope .fails .skip))))) .skip).Plain 0 := by
  simp [Prog.Plain]

end Succinct
