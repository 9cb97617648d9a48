import Verif.Lemmas.Getline
import Verif.Props.Util

/-! # C81: `fast_getline` on every file -/
namespace Succinct
open Spec Util

theorem IsTrimmed.unique {s t u : List Byte} (ht : IsTrimmed s t) (hu : IsTrimmed s u) : t = u := by
  have aux : ∀ {t u r q : List Byte}, t ++ r = u ++ q → (∀ c ∈ r, c = 13 ∨ c = 10) → (∀ c, u.getLast? = some c → c ≠ 13 ∧ c ≠ 10) → u.length ≤ t.length := by
    intro t u r q e hr hu
    by_cases hlt : u.length ≤ t.length
    · exact hlt
    · obtain ⟨m, h1, h2⟩ | ⟨m, h1, h2⟩ := List.append_eq_append_iff.1 e
      · have hm : m ≠ [] := by rintro rfl; rw [List.append_nil] at h1; rw [h1] at hlt; exact absurd (Nat.le_refl _) hlt
        obtain ⟨c, hc⟩ := getLast?_some hm
        have h3 := hu c (by rw [h1, getLast?_append_right _ hm]; exact hc)
        have h4 := hr c (by rw [h2]; exact List.mem_append_left _ (List.mem_of_getLast? hc))
        rcases h4 with h4 | h4
        · exact absurd h4 h3.1
        · exact absurd h4 h3.2
      · rw [h1, List.length_append] at hlt; omega
  obtain ⟨r, h1, h2, h3⟩ := ht
  obtain ⟨q, g1, g2, g3⟩ := hu
  have e := h1.symm.trans g1
  exact (List.append_inj e (Nat.le_antisymm (aux e.symm g2 h3) (aux e h2 g3))).1

/-- **C81.**  Every file is cut into pieces in exactly one way, and repeated calls of `fast_getline` return the lines `Reads` describes: those and no others;
where `Reads` gives nothing the calls are undefined.  With `trim_newline` the same lines are returned without trailing newline characters. -/
theorem C81_fast_getline (s : List Byte) : ∃ cs, Cut s cs ∧ (∀ cs', Cut s cs' → cs' = cs) ∧ ∀ fuel, s.length < fuel →
    (∀ ls, getlines false fuel s = some ls ↔ Reads cs ls) ∧
    (∀ ts, getlines true fuel s = some ts ↔ ∃ ls, Reads cs ls ∧ ts.length = ls.length ∧
      ∀ (i : Nat) a b, ls[i]? = some a → ts[i]? = some b → IsTrimmed a b) := by
  obtain ⟨cs, hcut⟩ := Cut.exists s
  refine ⟨cs, hcut, fun cs' h => Cut.unique h hcut, fun fuel hf => ?_⟩
  have hlen := cut_length hcut
  have len : ∀ {cs ls : List (List Byte)}, Reads cs ls → ls.length ≤ cs.length := by
    intro cs ls h
    induction h with
    | nil => exact Nat.le_refl _
    | line g c _ _ _ _ ih => simp; omega
    | last g c => simp
  have stored_false : ∀ l : List (List Byte), l.map (stored false) = l := fun l => List.map_id l
  have fwd : ∀ trim ls, getlines trim fuel s = some ls → ∃ l, Reads cs l ∧ ls = l.map (stored trim) := by
    intro trim ls h
    rcases reads_or_bad _ cs (Nat.le_refl _) with ⟨l, h1, h2⟩ | hbad
    · rw [getlines_reads h1 s trim fuel hcut (by omega)] at h
      exact ⟨l, h1, (Option.some.inj h).symm⟩
    · rw [hbad s trim fuel hcut] at h; cases h
  refine ⟨fun ls => ⟨fun h => ?_, fun h => ?_⟩, fun ts => ⟨fun h => ?_, ?_⟩⟩
  · obtain ⟨l, h1, rfl⟩ := fwd _ _ h
    rw [stored_false]; exact h1
  · rw [getlines_reads h s false fuel hcut (by have := len h; omega), stored_false]
  · obtain ⟨l, h1, rfl⟩ := fwd _ _ h
    refine ⟨l, h1, List.length_map .., fun i a b ha hb => ?_⟩
    rw [List.getElem?_map, ha] at hb
    cases hb
    exact trim_spec a
  · rintro ⟨ls, h1, h2, h3⟩
    rw [getlines_reads h1 s true fuel hcut (by have := len h1; omega)]
    congr 1
    apply List.ext_getElem (by rw [List.length_map, h2])
    intro i g1 g2
    rw [List.length_map] at g1
    rw [List.getElem_map]
    exact IsTrimmed.unique (trim_spec _) (h3 i _ _ (List.getElem?_eq_getElem g1) (List.getElem?_eq_getElem g2))

theorem lines_flatten {s : List Byte} {ls : List (List Byte)} (h : Lines s ls) : ls.flatten = s ∧ ls.length ≤ s.length := by
  induction h with
  | nil => exact ⟨rfl, Nat.le_refl _⟩
  | last x hne =>
    have := List.length_pos_iff.2 hne
    exact ⟨by simp, by simp; omega⟩
  | cons x _ _ ih => exact ⟨by rw [List.flatten_cons, ih.1], by simp; omega⟩

/-- **C81**, the files read correctly: the bytes of the lines returned are the bytes of the file exactly if it has no NUL byte and is empty or ends with a newline. -/
theorem C81_faithful (s : List Byte) (fuel : Nat) (hf : s.length < fuel) :
    (∃ ls, getlines false fuel s = some ls ∧ ls.flatten = s) ↔ (0 : Byte) ∉ s ∧ Terminated s := by
  constructor
  · rintro ⟨ls, h, e⟩
    obtain ⟨cs, hcut, huniq, hr⟩ := C81_fast_getline s
    clear huniq
    have hR := ((hr fuel hf).1 ls).1 h
    have h0 : (0 : Byte) ∉ s := by
      rw [← e]
      have : ∀ {cs ls : List (List Byte)}, Reads cs ls → ∀ l ∈ ls, (0 : Byte) ∉ l := by
        intro cs ls h
        have vis : ∀ g : List (List Byte), (0 : Byte) ∉ g.flatMap visible := fun g hm => by
          obtain ⟨d, _, h2⟩ := List.mem_flatMap.1 hm
          exact zero_not_visible d h2
        induction h with
        | nil => simp
        | line g c _ _ _ _ ih => exact List.forall_mem_cons.2 ⟨vis _, ih⟩
        | last g c => exact List.forall_mem_cons.2 ⟨vis _, by simp⟩
      intro hm
      obtain ⟨l, h1, h2⟩ := List.mem_flatten.1 hm
      exact this hR l h1 h2
    refine ⟨h0, ?_⟩
    have es := cut_flatten hcut
    have hne : ∀ c ∈ cs, c ≠ [] := by
      clear hr hR es h e h0 hf
      induction hcut with
      | nil => simp
      | cons c h1 _ _ _ _ ih => exact List.forall_mem_cons.2 ⟨h1, ih⟩
    have h0' : ∀ c ∈ cs, (0 : Byte) ∉ c := fun c hc hm => h0 (by rw [es]; exact List.mem_flatten.2 ⟨c, hc, hm⟩)
    have vis : ∀ g : List (List Byte), (∀ c ∈ g, (0 : Byte) ∉ c) → g.flatMap visible = g.flatten := by
      intro g hg
      induction g with
      | nil => rfl
      | cons c g ih =>
        rw [List.flatMap_cons, List.flatten_cons, visible_eq (hg c (by simp)), ih (fun d hd => hg d (by simp [hd]))]
    rw [es] at e
    rw [es]
    clear hr hcut h es h0 hf
    induction hR with
    | nil => exact Or.inl rfl
    | @line g c cs ls _ hc _ _ ih =>
      have hg : ∀ x ∈ g ++ [c], (0 : Byte) ∉ x := fun x hx => h0' x (by
        rcases List.mem_append.1 hx with hx | hx
        · exact List.mem_append_left _ hx
        · exact List.mem_append_right _ (by simp at hx; simp [hx]))
      rw [List.flatten_cons, vis _ hg, show (g ++ c :: cs).flatten = (g ++ [c]).flatten ++ cs.flatten by simp] at e
      have e2 := List.append_cancel_left e
      have := ih e2 (fun x hx => hne x (by simp [hx])) (fun x hx => h0' x (by simp [hx]))
      right
      rw [show (g ++ c :: cs).flatten = (g ++ [c]).flatten ++ cs.flatten by simp]
      rcases this with h | h
      · rw [h, List.append_nil, show (g ++ [c]).flatten = g.flatten ++ c by simp, getLast?_append_right _ (hne c (by simp))]
        exact hc.2
      · have : cs.flatten ≠ [] := by intro h'; rw [h'] at h; cases h
        rw [getLast?_append_right _ this]; exact h
    | last g c =>
      exfalso
      have hg : ∀ x ∈ g ++ [c, c], (0 : Byte) ∉ x := fun x hx => h0' x (by simpa using hx)
      rw [List.flatten_cons, List.flatten_nil, List.append_nil, vis _ hg] at e
      have h1 := congrArg List.length e
      have h2 := List.length_pos_iff.2 (hne c (by simp))
      simp only [List.flatten_append, List.flatten_cons, List.flatten_nil, List.append_nil, List.length_append] at h1
      omega
  · rintro ⟨h0, ht⟩
    obtain ⟨ls, h, _⟩ := C47_lines_exist s
    obtain ⟨h1, h2⟩ := lines_flatten h
    refine ⟨ls, ?_, h1⟩
    rw [getlines_terminated h ht h0 false fuel (by omega)]
    exact congrArg some (List.map_id ls)

/-- a piece begins a line if it is the first or follows a complete one -/
def BeginsLine (g : List (List Byte)) : Prop := g = [] ∨ ∃ d, g.getLast? = some d ∧ Complete d

theorem reads_iff (n : Nat) : ∀ cs : List (List Byte), cs.length ≤ n →
    ((∃ ls, Reads cs ls) ↔ ∀ g c r, cs = g ++ c :: r → BeginsLine g → c.head? ≠ some 0) := by
  intro cs hn
  constructor
  · rintro ⟨ls, h⟩
    clear hn
    induction h with
    | nil => intro g c r e; simp at e
    | @line g0 c0 cs ls hg0 _ hz _ ih =>
      intro g c r e hb
      rw [show g0 ++ c0 :: cs = (g0 ++ [c0]) ++ cs by simp] at e
      rcases List.append_eq_append_iff.1 e with ⟨m, h1, h2⟩ | ⟨m, h1, h2⟩
      · refine ih m c r h2 ?_
        by_cases hm : m = []
        · exact Or.inl hm
        · right
          rcases hb with hb | ⟨d, hd, hc⟩
          · rw [hb] at h1; simp at h1
          · refine ⟨d, ?_, hc⟩
            rw [h1, List.getLast?_append] at hd
            obtain ⟨x, hx⟩ : ∃ x, m.getLast? = some x := ⟨_, List.getLast?_eq_some_getLast hm⟩
            rw [hx] at hd ⊢
            exact hd
      · cases m with
        | nil => exact ih [] c r h2.symm (Or.inl rfl)
        | cons c' m =>
          cases h2
          rcases hb with rfl | ⟨d, hd, hc⟩
          · exact hz c (by rw [h1]; rfl)
          · exfalso
            have e2 := congrArg List.dropLast h1
            rw [List.dropLast_concat, List.dropLast_append_of_ne_nil (by simp)] at e2
            exact hg0 d (by rw [e2]; exact List.mem_append_left _ (List.mem_of_getLast? hd)) hc
    | last g0 c0 hg0 hz =>
      intro g c r e hb
      rcases hb with rfl | ⟨d, hd, hc⟩
      · exact hz c (by rw [e]; rfl)
      · exact absurd hc (hg0 d (by rw [e]; exact List.mem_append_left _ (List.mem_of_getLast? hd)))
  · induction n generalizing cs with
    | zero => exact fun _ => ⟨[], by rw [List.eq_nil_of_length_eq_zero (Nat.le_zero.1 hn)]; exact .nil⟩
    | succ n ih =>
      intro h
      cases cs with
      | nil => exact ⟨[], .nil⟩
      | cons d cs =>
        have hd := h [] d cs rfl (Or.inl rfl)
        have head : ∀ (g : List (List Byte)) (c : List Byte) (r : List (List Byte)), d :: cs = g ++ c :: r → ∀ x, (g ++ [c]).head? = some x → x.head? ≠ some 0 := by
          intro g c r e x hx
          cases g with
          | nil => cases e; cases hx; exact hd
          | cons y g => cases e; cases hx; exact hd
        rcases split_complete (d :: cs) with hall | ⟨g, c, r, e, hg, hc⟩
        · obtain ⟨c, hc⟩ : ∃ c, (d :: cs).getLast? = some c := ⟨_, List.getLast?_eq_some_getLast (by simp)⟩
          obtain ⟨g, e⟩ := List.getLast?_eq_some_iff.1 hc
          rw [e] at hall ⊢
          exact ⟨_, .last g c hall (head g c [] e)⟩
        · have hl : r.length ≤ n := by
            have := congrArg List.length e
            simp at this hn
            omega
          rw [e] at h ⊢
          obtain ⟨ls, h1⟩ := ih r hl (fun g' c' r' e' hb => h (g ++ c :: g') c' r' (by rw [e']; simp) (by
            right
            rcases hb with rfl | ⟨x, hx, hxc⟩
            · exact ⟨c, by simp, hc⟩
            · refine ⟨x, ?_, hxc⟩
              rw [List.getLast?_append, List.getLast?_cons, hx]; rfl))
          exact ⟨_, .line g c hg hc (head g c r e) h1⟩

/-- **C81**, undefined behaviour: the calls run into it exactly if a piece that begins a line begins with a NUL byte. -/
theorem C81_undefined (s : List Byte) (cs : List (List Byte)) (hcut : Cut s cs) (fuel : Nat) (hf : s.length < fuel) :
    getlines false fuel s = none ↔ ∃ g c r, cs = g ++ c :: r ∧ BeginsLine g ∧ c.head? = some 0 := by
  obtain ⟨cs', _, h2, h3⟩ := C81_fast_getline s
  have h4 := (h3 fuel hf).1
  rw [← h2 cs hcut] at h4
  have h5 := reads_iff _ cs (Nat.le_refl _)
  constructor
  · intro h
    by_contra hn
    obtain ⟨ls, hls⟩ := h5.2 (fun g c r e hb h0 => hn ⟨g, c, r, e, hb, h0⟩)
    rw [(h4 ls).2 hls] at h
    cases h
  · rintro ⟨g, c, r, e, hb, h0⟩
    cases hg : getlines false fuel s with
    | none => rfl
    | some ls => exact absurd h0 (h5.1 ⟨ls, (h4 ls).1 hg⟩ g c r e hb)

/-- **C81** for `line_iterator`: it yields an empty line and then the lines described above. -/
theorem C81_line_iterator (s : List Byte) (cs ls : List (List Byte)) (hcut : Cut s cs) (h : Reads cs ls) (fuel : Nat) (hf : s.length < fuel) :
    LineIter.collect (fuel + 1) (LineIter.new s false) = some ([] :: ls) := by
  obtain ⟨cs', _, h2, h3⟩ := C81_fast_getline s
  rw [← h2 cs hcut] at h3
  exact collect_eq false fuel s [] ls (((h3 fuel hf).1 ls).2 h)

/-- "a\0b\nc\nd": the NUL hides "b\n", so that the first line goes on with "c\n"; "d" is returned twice -/
theorem C81_example : Cut [97, 0, 98, 10, 99, 10, 100] [[97, 0, 98, 10], [99, 10], [100]] ∧ Reads [[97, 0, 98, 10], [99, 10], [100]] [[97, 99, 10], [100, 100]] := by
  refine ⟨.cons [97, 0, 98, 10] (by simp) (by simp) (by decide) (Or.inl rfl) (.cons [99, 10] (by simp) (by simp) (by decide) (Or.inl rfl)
    (.cons [100] (by simp) (by simp) (by simp) (Or.inr (Or.inr rfl)) .nil)), ?_⟩
  exact .line [[97, 0, 98, 10]] [99, 10] (by simp [Complete]) (by simp [Complete]) (by simp) (.last [] [100] (by simp [Complete]) (by simp))

example : getlines false 8 [97, 0, 98, 10, 99, 10, 100] = some [[97, 99, 10], [100, 100]] := by decide +kernel
/-- "a\n\0b\n" -/
example : getlines false 6 [97, 10, 0, 98, 10] = none := by decide +kernel
example : BeginsLine [[97, 10]] ∧ Cut [97, 10, 0, 98, 10] [[97, 10], [0, 98, 10]] :=
  ⟨Or.inr ⟨[97, 10], rfl, by simp [Complete]⟩, .cons [97, 10] (by simp) (by simp) (by decide) (Or.inl rfl)
    (.cons [0, 98, 10] (by simp) (by simp) (by decide) (Or.inl rfl) .nil)⟩

end Succinct
