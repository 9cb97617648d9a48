import Verif.Lemmas.LineAgree

/-! # C125: the two ways to read lines -/
namespace Succinct
open Spec Util

/-- **C125**: for every text without NUL bytes, `fast_getline` with trimming and iteration over `mmap_lines` yield the same lines exactly if no
line has two carriage returns before its end, and the text is empty or ends with a newline or its last line is one of the few
that the missing newline does no harm to. -/
theorem C125_agree (s : List Byte) (ls : List (List Byte)) (h : Lines s ls) (h0 : 0 ∉ s) (fuel : Nat) (hf : ls.length < fuel) :
    getlines true fuel s = BufIter.lines s ↔ ∀ l ∈ ls, SameLine l := by
  rw [getlines_got h h0 fuel hf, bufLines_eq h, Option.some.injEq, List.map_inj_left]
  have key : ∀ l ∈ ls, (gotLine l = chomp (body l) ↔ SameLine l) := by
    clear hf h0
    induction h with
    | nil => simp
    | last x hne hx =>
      intro l hl
      simp at hl; subst hl
      rw [same_last l hne hx]
      constructor
      · rintro ⟨h1, h2, h3⟩
        exact ⟨l, Or.inr ⟨rfl, hx, h1, h2⟩, h3⟩
      · rintro ⟨u, h1 | ⟨rfl, _, h1, h2⟩, h3⟩
        · rw [h1] at hx; simp at hx
        · exact ⟨h1, h2, h3⟩
    | @cons x s ls hx hl ih =>
      intro l hl
      rcases List.mem_cons.1 hl with rfl | hl
      · rw [same_line x hx]
        constructor
        · intro h; exact ⟨x, Or.inl rfl, h⟩
        · rintro ⟨u, h1 | ⟨rfl, h1, _⟩, h3⟩
          · rwa [List.append_cancel_right h1]
          · simp at h1
      · exact ih l hl
  exact forall₂_congr key

/-- **C125**: in particular for a text with Unix or DOS line ends and a final newline. -/
theorem C125_text (s : List Byte) (ht : Terminated s) (h0 : 0 ∉ s) (hcr : ¬ [13, 13] <:+: s) (fuel : Nat) (hf : s.length < fuel) :
    getlines true fuel s = BufIter.lines s := by
  obtain ⟨ls, h⟩ := Lines.exists s
  have hlen : ls.length ≤ s.length := by
    clear hf hcr h0 ht
    induction h with
    | nil => simp
    | last x hne hx => have := List.length_pos_iff.2 hne; simp; omega
    | cons x hx hl ih => simp; omega
  refine (C125_agree s ls h h0 fuel (by omega)).mpr ?_
  clear hlen hf h0
  induction h with
  | nil => simp
  | last x hne hx =>
    rcases ht with ht | ht
    · exact absurd ht hne
    · exact absurd (List.mem_of_getLast? ht) hx
  | @cons x s ls hx hl ih =>
    intro l hl'
    rcases List.mem_cons.1 hl' with rfl | hl'
    · exact ⟨x, Or.inl rfl, fun hs => hcr (hs.isInfix.trans ⟨[], [10] ++ s, by simp⟩)⟩
    · refine ih ?_ (fun hi => hcr (hi.trans (List.suffix_append _ _).isInfix)) l hl'
      by_cases hs : s = []
      · exact Or.inl hs
      · right
        rcases ht with ht | ht
        · simp at ht
        · rwa [getLast?_append_right _ hs] at ht

/-- **C125**: iteration over `lines(f)` and over `mmap_lines` never yield the same: the first begins with a line that is not in the file. -/
theorem C125_iterators_differ (s : List Byte) (h0 : 0 ∉ s) (fuel : Nat) (hf : s.length < fuel) :
    LineIter.collect (fuel + 1) (LineIter.new s true) ≠ BufIter.lines s := by
  obtain ⟨ls, h⟩ := Lines.exists s
  have hlen : ls.length ≤ s.length := by
    clear hf h0
    induction h with
    | nil => simp
    | last x hne hx => have := List.length_pos_iff.2 hne; simp; omega
    | cons x hx hl ih => simp; omega
  rw [show LineIter.collect (fuel + 1) (LineIter.new s true) = _ from collect_eq true fuel s [] _ (getlines_got h h0 fuel (by omega)), bufLines_eq h]
  intro e
  have := congrArg List.length (Option.some.inj e)
  simp at this

/-- "a\r\n\nb\n" is read alike, "a\r\r\n" and "a" are not, "\r" is -/
example : getlines true 9 [97, 13, 10, 10, 98, 10] = BufIter.lines [97, 13, 10, 10, 98, 10] ∧
    getlines true 9 [97, 13, 13, 10] ≠ BufIter.lines [97, 13, 13, 10] ∧ getlines true 9 [97] ≠ BufIter.lines [97] ∧
    getlines true 9 [13] = BufIter.lines [13] := by decide +kernel

/-- the hypotheses of `C125_text` -/
example : Terminated ([97, 13, 10, 10, 98, 10] : List Byte) ∧ (0 : Byte) ∉ ([97, 13, 10, 10, 98, 10] : List Byte) ∧
    ¬ [13, 13] <:+: ([97, 13, 10, 10, 98, 10] : List Byte) := ⟨Or.inr rfl, by decide, by decide⟩

example : SameLine [97, 13, 10] ∧ SameLine [13] ∧ ¬ SameLine [97, 13, 13, 10] := by
  refine ⟨⟨[97, 13], Or.inl rfl, by decide⟩, ⟨[13], Or.inr ⟨rfl, by decide, rfl, rfl⟩, by decide⟩, ?_⟩
  rintro ⟨u, h | ⟨rfl, h, _⟩, h2⟩
  · have : u = [97, 13, 13] := List.append_cancel_right (show u ++ [10] = [97, 13, 13] ++ [10] from h.symm)
    subst this; exact h2 (by decide)
  · exact h (by decide)

end Succinct
