import Verif.Model.Util
import Verif.Spec.Lines
import Verif.Lemmas.RSBitVector
import Mathlib.Tactic.ByContra

namespace Succinct.Util
open RSBitVector (bind_pure_some)
open Spec

theorem fgetsTake_stop (n : Nat) (x rest : List Byte) (hx : (10 : Byte) ∉ x) (hn : x.length < n) : fgetsTake n (x ++ 10 :: rest) = x ++ [10] := by
  induction x generalizing n with
  | nil =>
    obtain ⟨m, rfl⟩ : ∃ m, n = m + 1 := ⟨n - 1, by simp at hn; omega⟩
    simp [fgetsTake]
  | cons c x ih =>
    obtain ⟨m, rfl⟩ : ∃ m, n = m + 1 := ⟨n - 1, by simp at hn; omega⟩
    simp only [List.mem_cons, not_or] at hx
    rw [List.cons_append, fgetsTake, if_neg (fun h => hx.1 h.symm), ih m hx.2 (by simp at hn; omega)]; rfl

theorem fgetsTake_full (n : Nat) (x rest : List Byte) (hx : (10 : Byte) ∉ x) (hn : n ≤ x.length) : fgetsTake n (x ++ rest) = x.take n := by
  induction x generalizing n with
  | nil => simp at hn; subst hn; rfl
  | cons c x ih =>
    cases n with
    | zero => rfl
    | succ m =>
      simp only [List.mem_cons, not_or] at hx
      rw [List.cons_append, fgetsTake, if_neg (fun h => hx.1 h.symm), ih m hx.2 (by simpa using hn)]; rfl

theorem fgetsTake_end (n : Nat) (x : List Byte) (hx : (10 : Byte) ∉ x) (hn : x.length ≤ n) : fgetsTake n x = x := by
  induction x generalizing n with
  | nil => cases n <;> rfl
  | cons c x ih =>
    obtain ⟨m, rfl⟩ : ∃ m, n = m + 1 := ⟨n - 1, by simp at hn; omega⟩
    simp only [List.mem_cons, not_or] at hx
    rw [fgetsTake, if_neg (fun h => hx.1 h.symm), ih m hx.2 (by simpa using hn)]

theorem cstr_eq (b : List Byte) (h : (0 : Byte) ∉ b) : cstr b = b := by
  unfold cstr
  induction b with
  | nil => rfl
  | cons c b ih =>
    rw [List.takeWhile_cons, if_pos, ih (fun hb => h (List.mem_cons_of_mem _ hb))]
    simp only [decide_eq_true_eq]
    exact fun e => h (e ▸ List.mem_cons_self)

theorem getLast?_some {x : List Byte} (h : x ≠ []) : ∃ c, x.getLast? = some c := ⟨_, List.getLast?_eq_some_getLast h⟩

theorem getLast?_append_right (l : List Byte) {x : List Byte} (h : x ≠ []) : (l ++ x).getLast? = x.getLast? := by
  obtain ⟨c, hc⟩ := getLast?_some h
  rw [List.getLast?_append, hc]; rfl

theorem getLast?_of_not_mem {x : List Byte} (hx : (10 : Byte) ∉ x) (hne : x ≠ []) (line : List Byte) :
    ∃ c, (line ++ x).getLast? = some c ∧ c ≠ 10 := by
  obtain ⟨c, hc⟩ := getLast?_some hne
  refine ⟨c, by rw [getLast?_append_right _ hne]; exact hc, ?_⟩
  rintro rfl
  exact hx (List.mem_of_getLast? hc)

theorem mb : maxBuffer - 1 = 65535 := rfl

theorem getlineLoop_line (k : Nat) : ∀ (x rest line : List Byte) (buf : Option (List Byte)) (fuel : Nat), x.length ≤ k →
    (10 : Byte) ∉ x → (0 : Byte) ∉ x → x.length < fuel →
    getlineLoop fuel line buf (x ++ 10 :: rest) = some ((true, line ++ x ++ [10]), rest) := by
  induction k using Nat.strongRecOn with
  | ind k ih =>
    intro x rest line buf fuel hk h10 h0 hf
    obtain ⟨f, rfl⟩ : ∃ f, fuel = f + 1 := ⟨fuel - 1, by omega⟩
    rw [getlineLoop, fgets, if_neg (by simp)]
    simp only [mb]
    by_cases hl : x.length < 65535
    · rw [fgetsTake_stop _ _ _ h10 hl, cstr_eq _ (by
        intro h
        rcases List.mem_append.1 h with h | h
        · exact h0 h
        · exact absurd (List.mem_singleton.1 h) (by decide))]
      have e : (line ++ (x ++ [10])).getLast? = some 10 := by simp
      rw [e, bind_pure_some, if_pos rfl]
      have : (x ++ 10 :: rest).drop (x ++ [10]).length = rest := by
        rw [show x ++ 10 :: rest = (x ++ [10]) ++ rest by simp, List.drop_left]
      rw [this]; simp
    · rw [fgetsTake_full _ _ _ h10 (by omega)]
      have h0' : (0 : Byte) ∉ x.take 65535 := fun h => h0 (List.mem_of_mem_take h)
      have h10' : (10 : Byte) ∉ x.take 65535 := fun h => h10 (List.mem_of_mem_take h)
      have hlen : (x.take 65535).length = 65535 := by rw [List.length_take]; omega
      rw [cstr_eq _ h0']
      obtain ⟨c, hc, hc10⟩ := getLast?_of_not_mem h10' (by intro h; rw [h] at hlen; cases hlen) line
      rw [hc, bind_pure_some, if_neg hc10, hlen, List.drop_append_of_le_length (by omega)]
      rw [ih (x.length - 65535) (by omega) (x.drop 65535) rest (line ++ x.take 65535) _ f (by rw [List.length_drop])
        (fun h => h10 (List.mem_of_mem_drop h)) (fun h => h0 (List.mem_of_mem_drop h)) (by rw [List.length_drop]; omega)]
      rw [List.append_assoc line, List.take_append_drop]

/-- the last chunk `fgets` reads of a text without newline -/
def lastChunk (x : List Byte) : List Byte := x.drop (65535 * ((x.length - 1) / 65535))

theorem getlineLoop_end (k : Nat) : ∀ (x line : List Byte) (buf : Option (List Byte)) (fuel : Nat), x.length ≤ k → x ≠ [] →
    (10 : Byte) ∉ x → (0 : Byte) ∉ x → x.length + 1 < fuel →
    getlineLoop fuel line buf x = some ((true, line ++ x ++ lastChunk x), []) := by
  induction k using Nat.strongRecOn with
  | ind k ih =>
    intro x line buf fuel hk hne h10 h0 hf
    have hpos : 0 < x.length := List.length_pos_iff.2 hne
    obtain ⟨f, rfl⟩ : ∃ f, fuel = f + 2 := ⟨fuel - 2, by omega⟩
    rw [getlineLoop, fgets, if_neg hne]
    simp only [mb]
    by_cases hl : x.length ≤ 65535
    · rw [fgetsTake_end _ _ h10 hl, cstr_eq _ h0]
      obtain ⟨c, hc, hc10⟩ := getLast?_of_not_mem h10 hne line
      rw [hc, bind_pure_some, if_neg hc10, List.drop_length]
      rw [getlineLoop, fgets, if_pos rfl]
      simp only []
      rw [if_neg (by simp [hne]), bind_pure_some, cstr_eq _ h0]
      obtain ⟨c', hc', _⟩ := getLast?_of_not_mem h10 hne (line ++ x)
      rw [hc', bind_pure_some]
      have : lastChunk x = x := by
        unfold lastChunk
        rw [show (x.length - 1) / 65535 = 0 by omega]; simp
      rw [this]; rfl
    · have e1 := fgetsTake_full 65535 x [] h10 (by omega)
      rw [List.append_nil] at e1
      rw [e1]
      have h0' : (0 : Byte) ∉ x.take 65535 := fun h => h0 (List.mem_of_mem_take h)
      have h10' : (10 : Byte) ∉ x.take 65535 := fun h => h10 (List.mem_of_mem_take h)
      have hlen : (x.take 65535).length = 65535 := by rw [List.length_take]; omega
      rw [cstr_eq _ h0']
      obtain ⟨c, hc, hc10⟩ := getLast?_of_not_mem h10' (by intro h; rw [h] at hlen; cases hlen) line
      rw [hc, bind_pure_some, if_neg hc10, hlen]
      rw [ih (x.length - 65535) (by omega) (x.drop 65535) (line ++ x.take 65535) _ (f+1) (by rw [List.length_drop])
        (by intro h; have := congrArg List.length h; rw [List.length_drop] at this; simp at this; omega)
        (fun h => h10 (List.mem_of_mem_drop h)) (fun h => h0 (List.mem_of_mem_drop h)) (by rw [List.length_drop]; omega)]
      rw [List.append_assoc line, List.take_append_drop]
      have : lastChunk (x.drop 65535) = lastChunk x := by
        unfold lastChunk
        rw [List.drop_drop, List.length_drop]
        congr 1
        omega
      rw [this]

/-! trimming -/

theorem trimRev_spec (s : List Byte) : ∃ r, s = r ++ trimRev s ∧ (∀ c ∈ r, c = 13 ∨ c = 10) ∧ ∀ c, (trimRev s).head? = some c → c ≠ 13 ∧ c ≠ 10 := by
  induction s with
  | nil => exact ⟨[], rfl, by simp, by simp [trimRev]⟩
  | cons c s ih =>
    rw [trimRev]
    split
    · rename_i h
      obtain ⟨r, h1, h2, h3⟩ := ih
      refine ⟨c :: r, by rw [List.cons_append, ← h1], ?_, h3⟩
      intro d hd
      rcases List.mem_cons.1 hd with rfl | hd
      · exact h
      · exact h2 d hd
    · rename_i h
      refine ⟨[], rfl, by simp, ?_⟩
      intro d hd
      simp at hd
      subst hd
      exact not_or.1 h

theorem trim_spec (s : List Byte) : IsTrimmed s (trimNewlineChars s) := by
  obtain ⟨r, h1, h2, h3⟩ := trimRev_spec s.reverse
  refine ⟨r.reverse, ?_, by simpa using h2, ?_⟩
  · unfold trimNewlineChars
    rw [← List.reverse_append, ← h1, List.reverse_reverse]
  · intro c hc
    unfold trimNewlineChars at hc
    rw [List.getLast?_reverse] at hc
    exact h3 c hc

/-- the string stored for a line -/
def stored (trim : Bool) (l : List Byte) : List Byte := if trim then trimNewlineChars l else l

theorem fastGetline_line (x rest : List Byte) (h10 : (10 : Byte) ∉ x) (h0 : (0 : Byte) ∉ x) (trim : Bool) :
    fastGetline (x ++ 10 :: rest) trim = some ((true, stored trim (x ++ [10])), rest) := by
  unfold fastGetline
  rw [getlineLoop_line x.length x rest [] none _ (Nat.le_refl _) h10 h0 (by simp; omega), bind_pure_some]
  cases trim <;> rfl

theorem fastGetline_last (x : List Byte) (hne : x ≠ []) (h10 : (10 : Byte) ∉ x) (h0 : (0 : Byte) ∉ x) (trim : Bool) :
    fastGetline x trim = some ((true, stored trim (x ++ lastChunk x)), []) := by
  unfold fastGetline
  rw [getlineLoop_end x.length x [] none _ (Nat.le_refl _) hne h10 h0 (by omega), bind_pure_some]
  cases trim <;> rfl

theorem fastGetline_eof (trim : Bool) : fastGetline [] trim = some ((false, []), []) := by
  cases trim <;> rfl

/-! lines -/

theorem exists_first (s : List Byte) (h : (10 : Byte) ∈ s) : ∃ x rest, s = x ++ 10 :: rest ∧ (10 : Byte) ∉ x := by
  induction s with
  | nil => simp at h
  | cons c s ih =>
    by_cases hc : c = 10
    · exact ⟨[], s, by simp [hc], by simp⟩
    · rcases List.mem_cons.1 h with h | h
      · exact absurd h.symm hc
      · obtain ⟨x, rest, h1, h2⟩ := ih h
        exact ⟨c :: x, rest, by simp [h1], fun h => (List.mem_cons.1 h).elim (fun e => hc e.symm) h2⟩

theorem Lines.exists (s : List Byte) : ∃ ls, Lines s ls := by
  induction h : s.length using Nat.strongRecOn generalizing s with
  | ind n ih =>
    by_cases h10 : (10 : Byte) ∈ s
    · obtain ⟨x, rest, rfl, hx⟩ := exists_first s h10
      obtain ⟨ls, hls⟩ := ih rest.length (by rw [← h]; simp; omega) rest rfl
      exact ⟨(x ++ [10]) :: ls, by have := Lines.cons x hx hls; simpa using this⟩
    · by_cases hs : s = []
      · exact ⟨[], hs ▸ .nil⟩
      · exact ⟨[s], .last s hs h10⟩

theorem split_unique {x y s t : List Byte} (hx : (10 : Byte) ∉ x) (hy : (10 : Byte) ∉ y) (h : x ++ 10 :: s = y ++ 10 :: t) : x = y ∧ s = t := by
  induction x generalizing y with
  | nil =>
    cases y with
    | nil => simpa using h
    | cons c y => simp at h hy; exact absurd h.1 hy.1
  | cons c x ih =>
    cases y with
    | nil => simp at h hx; exact absurd h.1.symm hx.1
    | cons d y =>
      simp only [List.cons_append, List.cons.injEq] at h
      obtain ⟨h1, h2⟩ := ih (fun hh => hx (List.mem_cons_of_mem _ hh)) (fun hh => hy (List.mem_cons_of_mem _ hh)) h.2
      exact ⟨by rw [h.1, h1], h2⟩

theorem Lines.unique {s : List Byte} {a b : List (List Byte)} (ha : Lines s a) (hb : Lines s b) : a = b := by
  induction ha generalizing b with
  | nil =>
    generalize hs : ([] : List Byte) = s at hb
    cases hb with
    | nil => rfl
    | last _ h => exact absurd hs.symm h
    | cons x => simp at hs
  | last x hne hx =>
    cases hb with
    | nil => exact absurd rfl hne
    | last _ _ _ => rfl
    | cons y hy => simp at hx
  | @cons x s ls hx hl ih =>
    generalize hs : x ++ [10] ++ s = t at hb
    cases hb with
    | nil => simp at hs
    | last _ _ h => rw [← hs] at h; simp at h
    | @cons y s' ls' hy hl' =>
      have := split_unique (s := s) (t := s') hx hy (by simpa using hs)
      obtain ⟨rfl, rfl⟩ := this
      rw [ih hl']

theorem getlines_terminated {s : List Byte} {ls : List (List Byte)} (h : Lines s ls) (ht : Terminated s) (h0 : (0 : Byte) ∉ s) (trim : Bool)
    (fuel : Nat) (hf : ls.length < fuel) : getlines trim fuel s = some (ls.map (stored trim)) := by
  induction h generalizing fuel with
  | nil =>
    obtain ⟨f, rfl⟩ : ∃ f, fuel = f + 1 := ⟨fuel - 1, by omega⟩
    rw [getlines, fastGetline_eof, bind_pure_some]; rfl
  | last x hne hx =>
    rcases ht with ht | ht
    · exact absurd ht hne
    · exact absurd (List.mem_of_getLast? ht) hx
  | @cons x s ls hx hl ih =>
    obtain ⟨f, rfl⟩ : ∃ f, fuel = f + 1 := ⟨fuel - 1, by omega⟩
    have e : x ++ [10] ++ s = x ++ 10 :: s := by simp
    rw [e] at h0 ⊢
    rw [getlines, fastGetline_line x s hx (fun h => h0 (List.mem_append_left _ h)) trim, bind_pure_some]
    simp only []
    rw [if_pos trivial]
    have ht' : Terminated s := by
      by_cases hs : s = []
      · exact Or.inl hs
      · right
        rcases ht with ht | ht
        · simp at ht
        · rwa [getLast?_append_right _ hs] at ht
    rw [ih ht' (fun h => h0 (List.mem_append_right _ (List.mem_cons_of_mem _ h))) f (by simpa using hf), bind_pure_some]; rfl

/-- reading any text: the lines, the last one followed by its last chunk if it lacks a newline -/
theorem getlines_unterminated {s y : List Byte} {ls : List (List Byte)} (h : Lines s ls) (ht : Terminated s) (h0 : (0 : Byte) ∉ s)
    (hy : y ≠ []) (hy10 : (10 : Byte) ∉ y) (hy0 : (0 : Byte) ∉ y) (trim : Bool)
    (fuel : Nat) (hf : ls.length + 1 < fuel) : getlines trim fuel (s ++ y) = some (ls.map (stored trim) ++ [stored trim (y ++ lastChunk y)]) := by
  induction h generalizing fuel with
  | nil =>
    obtain ⟨f, rfl⟩ : ∃ f, fuel = f + 2 := ⟨fuel - 2, by simp at hf; omega⟩
    rw [List.nil_append, getlines, fastGetline_last y hy hy10 hy0, bind_pure_some]
    simp only []
    rw [if_pos trivial, getlines, fastGetline_eof, bind_pure_some]; rfl
  | last x hne hx =>
    rcases ht with ht | ht
    · exact absurd ht hne
    · exact absurd (List.mem_of_getLast? ht) hx
  | @cons x s ls hx hl ih =>
    obtain ⟨f, rfl⟩ : ∃ f, fuel = f + 1 := ⟨fuel - 1, by omega⟩
    have e : x ++ [10] ++ s = x ++ 10 :: s := by simp
    rw [e] at h0 ⊢
    rw [List.append_assoc, List.cons_append]
    rw [getlines, fastGetline_line x (s ++ y) hx (fun h => h0 (List.mem_append_left _ h)) trim, bind_pure_some]
    simp only []
    rw [if_pos trivial]
    have ht' : Terminated s := by
      by_cases hs : s = []
      · exact Or.inl hs
      · right
        rcases ht with ht | ht
        · simp at ht
        · rwa [getLast?_append_right _ hs] at ht
    rw [ih ht' (fun h => h0 (List.mem_append_right _ (List.mem_cons_of_mem _ h))) f (by simpa using hf), bind_pure_some]; rfl

theorem collect_eq (trim : Bool) (fuel : Nat) (s line : List Byte) (r : List (List Byte)) (h : getlines trim fuel s = some r) :
    LineIter.collect (fuel + 1) ⟨line, some s, trim⟩ = some (line :: r) := by
  induction fuel generalizing s line r with
  | zero => simp [getlines] at h
  | succ f ih =>
    rw [LineIter.collect]
    simp only [LineIter.atEnd, Option.isNone_some, Bool.false_eq_true, if_false]
    rw [getlines] at h
    cases hg : fastGetline s trim with
    | none => rw [hg] at h; simp at h
    | some p =>
      obtain ⟨⟨ok, l⟩, s'⟩ := p
      rw [hg, bind_pure_some] at h
      simp only [LineIter.increment]
      rw [bind_pure_some]
      simp only [hg]
      rw [bind_pure_some]
      cases ok with
      | false =>
        simp at h; subst h
        simp [LineIter.collect, LineIter.atEnd]
      | true =>
        simp only [if_true] at h ⊢
        cases hr : getlines trim f s' with
        | none => rw [hr] at h; simp at h
        | some r' =>
          rw [hr, bind_pure_some] at h
          cases h
          rw [show (pure (⟨l, some s', trim⟩ : LineIter) : Option LineIter) = some ⟨l, some s', trim⟩ from rfl, bind_pure_some, ih s' l r' hr, bind_pure_some]; rfl

/-! the buffer iterator -/

/-- a line without newline, one trailing carriage return removed -/
def chomp (x : List Byte) : List Byte := if x.getLast? = some 13 then x.dropLast else x

theorem scan_eq (pre x rest : List Byte) (hx : (10 : Byte) ∉ x) (hr : rest = [] ∨ ∃ r, rest = 10 :: r) (n : Nat) (hn : n = x.length + rest.length) :
    BufIter.scan (pre ++ x ++ rest) n pre.length = some (pre.length + x.length) := by
  induction x generalizing pre n with
  | nil =>
    rcases hr with rfl | ⟨r, rfl⟩
    · simp at hn; subst hn; rfl
    · obtain ⟨m, rfl⟩ : ∃ m, n = m + 1 := ⟨n - 1, by simp at hn; omega⟩
      rw [BufIter.scan]
      have : rd (pre ++ [] ++ 10 :: r) pre.length = some 10 := by simp [rd]
      rw [this, bind_pure_some]; simp
  | cons c x ih =>
    obtain ⟨m, rfl⟩ : ∃ m, n = m + 1 := ⟨n - 1, by simp at hn; omega⟩
    simp only [List.mem_cons, not_or] at hx
    rw [BufIter.scan]
    have : rd (pre ++ (c :: x) ++ rest) pre.length = some c := by simp [rd]
    rw [this, bind_pure_some, if_pos (fun h => hx.1 h.symm)]
    have := ih (pre ++ [c]) hx.2 m (by simp at hn; omega)
    rw [List.length_append, List.length_singleton] at this
    rw [show pre ++ (c :: x) ++ rest = pre ++ [c] ++ x ++ rest by simp, this]
    simp; omega

theorem increment_eq (pre x rest v : List Byte) (hx : (10 : Byte) ∉ x) (hr : rest = [] ∨ ∃ r, rest = 10 :: r) (hne : x ++ rest ≠ []) :
    BufIter.increment ⟨pre ++ x ++ rest, some pre.length, v⟩ = some ⟨pre ++ x ++ rest, some (pre.length + x.length + 1), chomp x⟩ := by
  unfold BufIter.increment
  simp only []
  have hpos : 0 < (x ++ rest).length := List.length_pos_iff.2 hne
  rw [List.length_append] at hpos
  rw [bind_pure_some, if_neg (by simp only [List.length_append]; omega)]
  rw [scan_eq pre x rest hx hr _ (by simp only [List.length_append]; omega), bind_pure_some]
  have hdrop : (pre ++ x ++ rest).drop pre.length = x ++ rest := by rw [List.append_assoc, List.drop_left]
  by_cases hxe : x = []
  · subst hxe
    have : BufIter.dropCr (pre ++ [] ++ rest) pre.length (pre.length + ([] : List Byte).length) = some pre.length := by simp [BufIter.dropCr]
    rw [this, bind_pure_some, hdrop]
    simp [chomp]
  · have hxl : 0 < x.length := List.length_pos_iff.2 hxe
    have hlast : rd (pre ++ x ++ rest) (pre.length + x.length - 1) = x.getLast? := by
      unfold rd
      rw [List.getElem?_append_left (by rw [List.length_append]; omega), List.getElem?_append_right (by omega), List.getLast?_eq_getElem?]
      congr 1; omega
    unfold BufIter.dropCr
    rw [if_pos (by omega), hlast]
    obtain ⟨c, hc⟩ := getLast?_some hxe
    rw [hc, bind_pure_some, hdrop]
    unfold chomp
    rw [hc]
    by_cases h13 : c = 13
    · subst h13
      rw [if_pos rfl, if_pos rfl]
      simp only [pure, Option.bind_eq_bind, Option.bind_some]
      rw [show pre.length + x.length - 1 - pre.length = x.length - 1 by omega, List.take_append_of_le_length (by omega), ← List.dropLast_eq_take]
    · rw [if_neg h13, if_neg (by simpa using h13)]
      simp only [pure, Option.bind_eq_bind, Option.bind_some]
      rw [show pre.length + x.length - pre.length = x.length by omega, List.take_left]

/-- the line without its newline -/
def body (l : List Byte) : List Byte := if l.getLast? = some 10 then l.dropLast else l

theorem body_line (x : List Byte) : body (x ++ [10]) = x := by simp [body]
theorem body_last (x : List Byte) (h : (10 : Byte) ∉ x) : body x = x := by
  unfold body
  rw [if_neg (fun e => h (List.mem_of_getLast? e))]

theorem bufCollect_eq {s : List Byte} {ls : List (List Byte)} (h : Lines s ls) (buf v : List Byte) (q : Nat) (hq : buf.drop q = s)
    (fuel : Nat) (hf : ls.length + 1 < fuel) :
    BufIter.collect fuel ⟨buf, some q, v⟩ = some (v :: ls.map fun l => chomp (body l)) := by
  have base : ∀ (q : Nat) (v : List Byte) (fuel : Nat), buf.length ≤ q → 1 < fuel → BufIter.collect fuel ⟨buf, some q, v⟩ = some [v] := by
    intro q v fuel hq hf
    obtain ⟨f, rfl⟩ : ∃ f, fuel = f + 2 := ⟨fuel - 2, by omega⟩
    simp [BufIter.collect, BufIter.atEnd, BufIter.deref, BufIter.increment, hq]
  have split : ∀ (q : Nat) (x rest : List Byte), buf.drop q = x ++ rest → x ++ rest ≠ [] → ∃ pre, buf = pre ++ x ++ rest ∧ pre.length = q := by
    intro q x rest h hne
    refine ⟨buf.take q, ?_, ?_⟩
    · rw [List.append_assoc, ← h, List.take_append_drop]
    · rw [List.length_take]
      have := congrArg List.length h
      have := List.length_pos_iff.2 hne
      rw [List.length_drop] at *
      omega
  induction h generalizing q v fuel with
  | nil =>
    have : buf.length ≤ q := List.drop_eq_nil_iff.1 hq
    exact base q v fuel this (by simpa using hf)
  | last x hne hx =>
    obtain ⟨f, rfl⟩ : ∃ f, fuel = f + 1 := ⟨fuel - 1, by omega⟩
    obtain ⟨pre, hb, rfl⟩ := split q x [] (by simpa using hq) (by simpa using hne)
    have hi := increment_eq pre x [] v hx (Or.inl rfl) (by simpa using hne)
    rw [← hb] at hi
    rw [BufIter.collect]
    simp only [BufIter.atEnd, Option.isNone_some, Bool.false_eq_true, if_false, BufIter.deref]
    rw [bind_pure_some, hi]
    simp only [pure, Option.bind_eq_bind, Option.bind_some]
    rw [base _ _ _ (by rw [hb]; simp) (by simp at hf; omega)]
    simp [body_last x hx]
  | @cons x s ls hx hl ih =>
    obtain ⟨f, rfl⟩ : ∃ f, fuel = f + 1 := ⟨fuel - 1, by omega⟩
    have hq' : buf.drop q = x ++ 10 :: s := by simpa using hq
    obtain ⟨pre, hb, rfl⟩ := split q x (10 :: s) hq' (by simp)
    have hi := increment_eq pre x (10 :: s) v hx (Or.inr ⟨s, rfl⟩) (by simp)
    rw [← hb] at hi
    rw [BufIter.collect]
    simp only [BufIter.atEnd, Option.isNone_some, Bool.false_eq_true, if_false, BufIter.deref]
    rw [bind_pure_some, hi]
    simp only [pure, Option.bind_eq_bind, Option.bind_some]
    rw [ih (chomp x) _ (by
      rw [hb, show pre ++ x ++ 10 :: s = (pre ++ x ++ [10]) ++ s by simp, show pre.length + x.length + 1 = (pre ++ x ++ [10]).length by simp; omega]
      rw [List.drop_left]) f (by simpa using hf)]
    rw [List.map_cons, body_line]; rfl

theorem Lines.length_le {s : List Byte} {ls : List (List Byte)} (h : Lines s ls) : ls.length ≤ s.length := by
  induction h with
  | nil => simp
  | last x hne _ => have := List.length_pos_iff.2 hne; simp; omega
  | cons x _ _ ih => simp; omega

theorem bufLines_eq {s : List Byte} {ls : List (List Byte)} (h : Lines s ls) : BufIter.lines s = some (ls.map fun l => chomp (body l)) := by
  unfold BufIter.lines BufIter.new
  cases h with
  | nil => rfl
  | last _ hne hx =>
    have hi := increment_eq [] s [] [] hx (Or.inl rfl) (by simpa using hne)
    simp only [List.nil_append, List.append_nil, List.length_nil] at hi
    rw [hi, bind_pure_some, bufCollect_eq (s := []) .nil _ _ _ (by simp) _ (by simp)]
    simp [body_last s hx]
  | @cons x t ls hx hl =>
    have hi := increment_eq [] x (10 :: t) [] hx (Or.inr ⟨t, rfl⟩) (by simp)
    simp only [List.nil_append, List.length_nil] at hi
    rw [show x ++ [10] ++ t = x ++ 10 :: t by simp, hi, bind_pure_some, bufCollect_eq hl _ _ _ (by
      rw [show x ++ 10 :: t = (x ++ [10]) ++ t by simp, show 0 + x.length + 1 = (x ++ [10]).length by simp, List.drop_left]) _ (by
      have := Lines.length_le hl; simp; omega)]
    simp only [List.map_cons, body_line]

theorem chomp_spec (x : List Byte) : x = chomp x ++ [13] ∨ (x = chomp x ∧ (chomp x).getLast? ≠ some 13) := by
  unfold chomp
  split
  · rename_i h
    left
    obtain ⟨u, hu⟩ := List.getLast?_eq_some_iff.1 h
    rw [hu]; simp
  · rename_i h; exact Or.inr ⟨rfl, h⟩

theorem isChomped_of_lines {s : List Byte} {ls : List (List Byte)} (h : Lines s ls) : ∀ l ∈ ls, IsChomped l (chomp (body l)) := by
  induction h with
  | nil => simp
  | last x hne hx =>
    intro l hl
    simp at hl; subst hl
    exact ⟨l, Or.inr ⟨rfl, hx⟩, by rw [body_last l hx]; exact chomp_spec l⟩
  | cons x hx _ ih =>
    intro l hl
    rcases List.mem_cons.1 hl with rfl | hl
    · exact ⟨x, Or.inl rfl, by rw [body_line]; exact chomp_spec x⟩
    · exact ih l hl

end Succinct.Util
