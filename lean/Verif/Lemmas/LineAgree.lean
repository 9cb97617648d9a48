import Verif.Lemmas.Lines
import Verif.Spec.LineAgree
import Mathlib.Tactic.ByContra

namespace Succinct.Util
open Succinct.Spec
open RSBitVector (bind_pure_some)

/-- what `fast_getline` makes of a line, trimming -/
def gotLine (l : List Byte) : List Byte := if l.getLast? = some 10 then trimNewlineChars l else trimNewlineChars (l ++ lastChunk l)

theorem getlines_got {s : List Byte} {ls : List (List Byte)} (h : Lines s ls) (h0 : (0 : Byte) ∉ s) (fuel : Nat) (hf : ls.length < fuel) :
    getlines true fuel s = some (ls.map gotLine) := by
  induction h generalizing fuel with
  | nil =>
    obtain ⟨f, rfl⟩ : ∃ f, fuel = f + 1 := ⟨fuel - 1, by omega⟩
    rw [getlines, fastGetline_eof, bind_pure_some]; rfl
  | last x hne hx =>
    obtain ⟨f, rfl⟩ : ∃ f, fuel = f + 2 := ⟨fuel - 2, by simp at hf; omega⟩
    rw [getlines, fastGetline_last x hne hx h0, bind_pure_some]
    simp only []
    rw [if_pos trivial, getlines, fastGetline_eof, bind_pure_some]
    have : gotLine x = trimNewlineChars (x ++ lastChunk x) := by
      unfold gotLine; rw [if_neg (fun e => hx (List.mem_of_getLast? e))]
    simp [this, stored]
  | @cons x s ls hx hl ih =>
    obtain ⟨f, rfl⟩ : ∃ f, fuel = f + 1 := ⟨fuel - 1, by omega⟩
    have e : x ++ [10] ++ s = x ++ 10 :: s := by simp
    rw [e] at h0 ⊢
    rw [getlines, fastGetline_line x s hx (fun h => h0 (List.mem_append_left _ h)) true, bind_pure_some]
    simp only []
    rw [if_pos trivial, ih (fun h => h0 (List.mem_append_right _ (List.mem_cons_of_mem _ h))) f (by simpa using hf), bind_pure_some]
    have : gotLine (x ++ [10]) = stored true (x ++ [10]) := by
      unfold gotLine; rw [if_pos (by simp)]; rfl
    rw [List.map_cons, this]; rfl

theorem trimmed_unique {s t t' : List Byte} (h : IsTrimmed s t) (h' : IsTrimmed s t') : t = t' := by
  obtain ⟨r, e, hr, ht⟩ := h
  obtain ⟨r', e', hr', ht'⟩ := h'
  have key : ∀ {t t' r r' : List Byte}, t ++ r = t' ++ r' → (∀ c ∈ r, c = 13 ∨ c = 10) →
      (∀ c, t'.getLast? = some c → c ≠ 13 ∧ c ≠ 10) → t'.length ≤ t.length := by
    intro t t' r r' e hr ht'
    by_contra hc
    obtain ⟨a, rfl, ha⟩ := (List.append_eq_append_iff.1 e).resolve_right (by
      rintro ⟨a, rfl, _⟩; simp at hc)
    have hane : a ≠ [] := by rintro rfl; simp at hc
    have hm : a.getLast hane ∈ r := by rw [ha]; exact List.mem_append_left _ (List.getLast_mem _)
    have hl := ht' (a.getLast hane) (by rw [List.getLast?_append, List.getLast?_eq_some_getLast hane]; rfl)
    rcases hr _ hm with h | h
    · exact hl.1 h
    · exact hl.2 h
  have e2 : t ++ r = t' ++ r' := by rw [← e, ← e']
  have l1 := key e2 hr ht'
  have l2 := key e2.symm hr' ht
  exact (List.append_inj e2 (by omega)).1

/-- every line is something that does not end with a carriage return, then carriage returns -/
theorem split_cr (u : List Byte) (h10 : (10 : Byte) ∉ u) : ∃ T k, u = T ++ List.replicate k 13 ∧ T.getLast? ≠ some 13 := by
  obtain ⟨r, e, hr, ht⟩ := trim_spec u
  refine ⟨trimNewlineChars u, r.length, ?_, fun h => (ht _ h).1 rfl⟩
  rw [← List.eq_replicate_of_mem (a := (13 : Byte)) (l := r) (fun c hc => by
    rcases hr c hc with h | h
    · exact h
    · rw [h] at hc; exact absurd (by rw [e]; exact List.mem_append_right _ hc) h10)]
  exact e

theorem chomp_split (T : List Byte) (k : Nat) (hT : T.getLast? ≠ some 13) : chomp (T ++ List.replicate k 13) = T ++ List.replicate (k-1) 13 := by
  unfold chomp
  cases k with
  | zero => rw [List.replicate_zero, List.append_nil, if_neg hT]
  | succ k =>
    rw [List.replicate_succ', ← List.append_assoc, if_pos (by simp)]
    simp

theorem twoCr_split (T : List Byte) (k : Nat) (hT : T.getLast? ≠ some 13) : [13, 13] <:+ T ++ List.replicate k 13 ↔ 2 ≤ k := by
  constructor
  · rintro ⟨a, ha⟩
    by_contra hc
    have : k = 0 ∨ k = 1 := by omega
    rcases this with rfl | rfl
    · simp at ha
      rw [← ha] at hT; simp at hT
    · have e : a ++ [13] ++ [13] = T ++ [13] := by simpa using ha
      have := List.append_cancel_right e
      rw [← this] at hT; simp at hT
  · intro h
    obtain ⟨j, rfl⟩ : ∃ j, k = j + 2 := ⟨k - 2, by omega⟩
    exact ⟨T ++ List.replicate j 13, by rw [List.replicate_succ', List.replicate_succ']; simp⟩

theorem same_line (u : List Byte) (h10 : (10 : Byte) ∉ u) : gotLine (u ++ [10]) = chomp (body (u ++ [10])) ↔ ¬ [13, 13] <:+ u := by
  obtain ⟨T, k, rfl, hT⟩ := split_cr u h10
  rw [body_line, chomp_split T k hT, twoCr_split T k hT]
  have : gotLine (T ++ List.replicate k 13 ++ [10]) = T := by
    unfold gotLine
    rw [if_pos (by simp)]
    refine trimmed_unique (trim_spec _) ⟨List.replicate k 13 ++ [10], by simp, ?_, ?_⟩
    · intro c hc
      rcases List.mem_append.1 hc with h | h
      · exact Or.inl (List.eq_of_mem_replicate h)
      · exact Or.inr (by simpa using h)
    · intro c hc
      refine ⟨fun h => hT (by rw [hc, h]), fun h => h10 ?_⟩
      rw [h] at hc
      exact List.mem_append_left _ (List.mem_of_getLast? hc)
  rw [this]
  constructor
  · intro e
    have := congrArg List.length e
    simp at this
    omega
  · intro hk
    have : k - 1 = 0 := by omega
    simp [this]

theorem same_last (y : List Byte) (hne : y ≠ []) (h10 : (10 : Byte) ∉ y) :
    gotLine y = chomp (body y) ↔ y.getLast? = some 13 ∧ y.length % 65535 = 1 ∧ ¬ [13, 13] <:+ y := by
  have hpos := List.length_pos_iff.2 hne
  have hlc : (lastChunk y).length = (y.length - 1) % 65535 + 1 := by
    unfold lastChunk; rw [List.length_drop]; omega
  have hsuf : lastChunk y <:+ y := List.drop_suffix _ _
  rw [body_last y h10]
  have hgot : gotLine y = trimNewlineChars (y ++ lastChunk y) := by
    unfold gotLine; rw [if_neg (fun e => h10 (List.mem_of_getLast? e))]
  rw [hgot]
  generalize hc : lastChunk y = t at *
  obtain ⟨T, k, rfl, hT⟩ := split_cr y h10
  rw [chomp_split T k hT, twoCr_split T k hT]
  have hlast : (T ++ List.replicate k 13).getLast? = some 13 ↔ 1 ≤ k := by
    cases k with
    | zero => rw [List.replicate_zero, List.append_nil]; exact ⟨fun h => absurd h hT, fun h => by omega⟩
    | succ k => rw [List.replicate_succ', ← List.append_assoc]; simp
  rw [hlast]
  have hTok : ∀ c, T.getLast? = some c → c ≠ 13 ∧ c ≠ 10 := by
    intro c hc
    refine ⟨fun h => hT (by rw [hc, h]), fun h => h10 ?_⟩
    rw [h] at hc
    exact List.mem_append_left _ (List.mem_of_getLast? hc)
  have hall : t.length ≤ k → trimNewlineChars (T ++ List.replicate k 13 ++ t) = T := by
    intro htk
    have : t <:+ List.replicate k 13 := by
      refine List.suffix_of_suffix_length_le hsuf (List.suffix_append _ _) (by simpa using htk)
    refine trimmed_unique (trim_spec _) ⟨List.replicate k 13 ++ t, by simp, ?_, hTok⟩
    intro c hc
    rcases List.mem_append.1 hc with h | h
    · exact Or.inl (List.eq_of_mem_replicate h)
    · exact Or.inl (List.eq_of_mem_replicate (this.subset h))
  have hlen : (T ++ List.replicate k 13).length = T.length + k := by simp
  rw [hlen] at hlc hpos ⊢
  constructor
  · intro e
    have htk : t.length ≤ k := by
      obtain ⟨r, e2, hr, _⟩ := trim_spec (T ++ List.replicate k (13 : Byte) ++ t)
      rw [e] at e2
      have hl2 := congrArg List.length e2
      simp only [List.length_append, List.length_replicate] at hl2
      have hts : t <:+ r := by
        refine List.suffix_of_suffix_length_le (List.suffix_append (T ++ List.replicate k 13) t) ?_ (by omega)
        rw [e2]; exact List.suffix_append _ _
      have ht13 : ∀ c ∈ t, c = 13 := by
        intro c hc
        rcases hr c (hts.subset hc) with h | h
        · exact h
        · rw [h] at hc; exact absurd (hsuf.subset hc) h10
      by_contra hk
      obtain ⟨a, ha⟩ := List.suffix_of_suffix_length_le (List.suffix_append T (List.replicate k 13)) hsuf (by simp; omega)
      have hane : a ≠ [] := by
        rintro rfl
        have := congrArg List.length ha
        simp at this; omega
      have hsuf2 := hsuf
      rw [← ha] at hsuf2
      obtain ⟨b, hb⟩ := hsuf2
      have hTa : b ++ a = T := by
        rw [← List.append_assoc] at hb
        exact List.append_cancel_right hb
      apply hT
      rw [← hTa, List.getLast?_append, List.getLast?_eq_some_getLast hane]
      have := ht13 (a.getLast hane) (by rw [← ha]; exact List.mem_append_left _ (List.getLast_mem _))
      rw [this]; rfl
    rw [hall htk] at e
    have := congrArg List.length e
    simp at this
    omega
  · rintro ⟨h1, h2, h3⟩
    rw [hall (by omega), show k - 1 = 0 by omega]
    simp

end Succinct.Util
