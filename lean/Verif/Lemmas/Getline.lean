import Verif.Lemmas.Lines
import Verif.Spec.Getline

/-! # `fast_getline` on arbitrary files (for C81) -/
namespace Succinct.Util
open RSBitVector (bind_pure_some)
open Spec

theorem dropLast_concat {c : List Byte} {x : Byte} (h : c.getLast? = some x) : c.dropLast ++ [x] = c := by
  obtain ⟨ys, rfl⟩ := List.getLast?_eq_some_iff.1 h
  simp

theorem not_mem_of_last {c : List Byte} (h : (10 : Byte) ∉ c.dropLast) (hl : c.getLast? ≠ some 10) : (10 : Byte) ∉ c := by
  intro hm
  have hne : c ≠ [] := by rintro rfl; cases hm
  obtain ⟨x, hx⟩ := getLast?_some hne
  rw [← dropLast_concat hx] at hm
  rcases List.mem_append.1 hm with hm | hm
  · exact h hm
  · rw [List.mem_singleton] at hm
    rw [hx, hm] at hl
    exact hl rfl

theorem fgets_cut {c s : List Byte} (h1 : c ≠ []) (h2 : c.length ≤ 65535) (h3 : (10 : Byte) ∉ c.dropLast)
    (h4 : c.getLast? = some 10 ∨ c.length = 65535 ∨ s = []) : fgets maxBuffer (c ++ s) = some (c, s) := by
  have e : fgetsTake 65535 (c ++ s) = c := by
    by_cases hl : c.getLast? = some 10
    · have hc := dropLast_concat hl
      have hlen := congrArg List.length hc
      rw [List.length_append, List.length_singleton] at hlen
      have := fgetsTake_stop 65535 c.dropLast s h3 (by omega)
      rw [hc] at this
      have e : c ++ s = c.dropLast ++ 10 :: s := by
        rw [show c.dropLast ++ 10 :: s = (c.dropLast ++ [10]) ++ s by simp, hc]
      rw [e, this]
    · have hn := not_mem_of_last h3 hl
      rcases h4 with h4 | h4 | h4
      · exact absurd h4 hl
      · rw [fgetsTake_full _ _ _ hn (by omega), ← h4, List.take_length]
      · subst h4
        rw [List.append_nil]
        exact fgetsTake_end _ _ hn h2
  unfold fgets
  rw [if_neg (by simp [h1])]
  simp only [mb]
  rw [e, List.drop_left]

theorem visible_prefix (c : List Byte) : ∃ r, c = visible c ++ r := ⟨c.dropWhile (· ≠ 0), (List.takeWhile_append_dropWhile).symm⟩

theorem zero_not_visible (c : List Byte) : (0 : Byte) ∉ visible c := by
  unfold visible
  induction c with
  | nil => simp
  | cons x c ih =>
    rw [List.takeWhile_cons]
    by_cases hx : x = 0
    · simp [hx]
    · rw [if_pos (by simpa using hx)]
      exact fun h => (List.mem_cons.1 h).elim (fun e => hx e.symm) ih

theorem visible_eq {c : List Byte} (h : (0 : Byte) ∉ c) : visible c = c := cstr_eq c h

theorem visible_nil {c : List Byte} (h : c ≠ []) : visible c = [] ↔ c.head? = some 0 := by
  cases c with
  | nil => exact absurd rfl h
  | cons x c =>
    unfold visible
    rw [List.takeWhile_cons]
    by_cases hx : x = 0
    · simp [hx]
    · simp [hx]

theorem visible_last {c : List Byte} (h3 : (10 : Byte) ∉ c.dropLast) : (visible c).getLast? = some 10 ↔ Complete c := by
  constructor
  · intro h
    obtain ⟨r, hr⟩ := visible_prefix c
    have hrn : r = [] := by
      by_contra hne
      apply h3
      rw [hr, List.dropLast_append_of_ne_nil hne]
      exact List.mem_append_left _ (List.mem_of_getLast? h)
    rw [hrn, List.append_nil] at hr
    refine ⟨?_, by rw [← hr] at h; exact h⟩
    rw [hr]; exact zero_not_visible _
  · rintro ⟨h0, hl⟩
    rw [visible_eq h0]; exact hl

theorem line_last {line c : List Byte} (hl : line.getLast? ≠ some 10) (h3 : (10 : Byte) ∉ c.dropLast) :
    (line ++ visible c).getLast? = some 10 ↔ Complete c := by
  rw [← visible_last h3]
  by_cases hv : visible c = []
  · rw [hv, List.append_nil]
    constructor
    · exact fun h => absurd h hl
    · intro h; cases h
  · rw [getLast?_append_right _ hv]

/-- one iteration at a piece -/
theorem getlineLoop_step {c s line : List Byte} (h1 : c ≠ []) (h2 : c.length ≤ 65535) (h3 : (10 : Byte) ∉ c.dropLast)
    (h4 : c.getLast? = some 10 ∨ c.length = 65535 ∨ s = []) (hl : line.getLast? ≠ some 10) (buf : Option (List Byte)) (fuel : Nat) :
    (line ++ visible c = [] → getlineLoop (fuel + 1) line buf (c ++ s) = none) ∧
    (Complete c → getlineLoop (fuel + 1) line buf (c ++ s) = some ((true, line ++ visible c), s)) ∧
    (¬ Complete c → line ++ visible c ≠ [] → (line ++ visible c).getLast? ≠ some 10 ∧
      getlineLoop (fuel + 1) line buf (c ++ s) = getlineLoop fuel (line ++ visible c) (some c) s) := by
  have e : getlineLoop (fuel + 1) line buf (c ++ s) = ((line ++ visible c).getLast? >>= fun x =>
      if x = 10 then some ((true, line ++ visible c), s) else getlineLoop fuel (line ++ visible c) (some c) s) := by
    rw [getlineLoop, fgets_cut h1 h2 h3 h4]; rfl
  refine ⟨fun hn => ?_, fun hc => ?_, fun hc hn => ?_⟩
  · rw [e, hn]; rfl
  · rw [e, (line_last hl h3).2 hc, bind_pure_some, if_pos rfl]
  · have hx : (line ++ visible c).getLast? ≠ some 10 := fun h => hc ((line_last hl h3).1 h)
    refine ⟨hx, ?_⟩
    obtain ⟨x, hg⟩ := getLast?_some hn
    rw [e, hg, bind_pure_some, if_neg (fun h => hx (by rw [hg, h]))]

theorem cut_flatten {s : List Byte} {cs : List (List Byte)} (h : Cut s cs) : s = cs.flatten := by
  induction h with
  | nil => rfl
  | cons c _ _ _ _ _ ih => rw [List.flatten_cons, ← ih]

theorem cut_length {s : List Byte} {cs : List (List Byte)} (h : Cut s cs) : cs.length ≤ s.length := by
  induction h with
  | nil => simp
  | cons c h _ _ _ _ ih =>
    have := List.length_pos_iff.2 h
    simp; omega

theorem cut_drop {g cs : List (List Byte)} {s : List Byte} (h : Cut s (g ++ cs)) : ∃ s', Cut s' cs := by
  induction g generalizing s with
  | nil => exact ⟨s, h⟩
  | cons d g ih =>
    cases h with
    | cons _ _ _ _ _ h => exact ih h

theorem loop_line (g : List (List Byte)) : ∀ (c : List Byte) (cs : List (List Byte)) (s line : List Byte) (buf : Option (List Byte)) (fuel : Nat),
    Cut s (g ++ c :: cs) → (∀ d ∈ g, ¬ Complete d) → Complete c → line.getLast? ≠ some 10 →
    (line = [] → ∀ d, (g ++ [c]).head? = some d → d.head? ≠ some 0) → g.length < fuel →
    ∃ s', Cut s' cs ∧ getlineLoop fuel line buf s = some ((true, line ++ (g ++ [c]).flatMap visible), s') := by
  induction g with
  | nil =>
    intro c cs s line buf fuel hcut _ hc hl _ hf
    obtain ⟨f, rfl⟩ : ∃ f, fuel = f + 1 := ⟨fuel - 1, by omega⟩
    cases hcut with
    | cons _ h1 h2 h3 h4 h =>
      exact ⟨_, h, by rw [(getlineLoop_step h1 h2 h3 h4 hl buf f).2.1 hc]; simp⟩
  | cons d g ih =>
    intro c cs s line buf fuel hcut hg hc hl hz hf
    obtain ⟨f, rfl⟩ : ∃ f, fuel = f + 1 := ⟨fuel - 1, by omega⟩
    cases hcut with
    | cons _ h1 h2 h3 h4 h =>
      have hne : line ++ visible d ≠ [] := by
        intro h0
        obtain ⟨k1, k2⟩ := List.append_eq_nil_iff.1 h0
        exact hz k1 d rfl ((visible_nil h1).1 k2)
      obtain ⟨k1, k2⟩ := (getlineLoop_step h1 h2 h3 h4 hl buf f).2.2 (hg d (by simp)) hne
      obtain ⟨s', r1, r2⟩ := ih c cs _ (line ++ visible d) (some d) f h (fun x hx => hg x (by simp [hx])) hc k1 (fun h0 => absurd h0 hne) (by simp at hf; omega)
      exact ⟨s', r1, by rw [k2, r2]; simp⟩

theorem loop_last (g : List (List Byte)) : ∀ (c : List Byte) (s line : List Byte) (buf : Option (List Byte)) (fuel : Nat),
    Cut s (g ++ [c]) → (∀ d ∈ g ++ [c], ¬ Complete d) → line.getLast? ≠ some 10 →
    (line = [] → ∀ d, (g ++ [c]).head? = some d → d.head? ≠ some 0) → g.length + 1 < fuel →
    getlineLoop fuel line buf s = some ((true, line ++ (g ++ [c, c]).flatMap visible), []) := by
  induction g with
  | nil =>
    intro c s line buf fuel hcut hg hl hz hf
    obtain ⟨f, rfl⟩ : ∃ f, fuel = f + 2 := ⟨fuel - 2, by simp at hf; omega⟩
    cases hcut with
    | cons _ h1 h2 h3 h4 h =>
      have hne : line ++ visible c ≠ [] := by
        intro h0
        obtain ⟨k1, k2⟩ := List.append_eq_nil_iff.1 h0
        exact hz k1 c rfl ((visible_nil h1).1 k2)
      cases h
      rw [((getlineLoop_step h1 h2 h3 h4 hl buf (f+1)).2.2 (hg c (by simp)) hne).2, getlineLoop, fgets, if_pos rfl]
      simp only []
      rw [if_neg hne, bind_pure_some]
      have : line ++ visible c ++ cstr c ≠ [] := fun h => hne (List.append_eq_nil_iff.1 h).1
      obtain ⟨x, hx⟩ := getLast?_some this
      rw [hx, bind_pure_some]
      simp [visible, cstr]
  | cons d g ih =>
    intro c s line buf fuel hcut hg hl hz hf
    obtain ⟨f, rfl⟩ : ∃ f, fuel = f + 1 := ⟨fuel - 1, by omega⟩
    cases hcut with
    | cons _ h1 h2 h3 h4 h =>
      have hne : line ++ visible d ≠ [] := by
        intro h0
        obtain ⟨k1, k2⟩ := List.append_eq_nil_iff.1 h0
        exact hz k1 d rfl ((visible_nil h1).1 k2)
      obtain ⟨k1, k2⟩ := (getlineLoop_step h1 h2 h3 h4 hl buf f).2.2 (hg d (by simp)) hne
      have r2 := ih c _ (line ++ visible d) (some d) f h (fun x hx => hg x (by rw [List.cons_append]; exact List.mem_cons_of_mem _ hx)) k1
        (fun h0 => absurd h0 hne) (by simp at hf; omega)
      rw [k2, r2]; simp

theorem fastGetline_of_loop {s l s' : List Byte} (h : getlineLoop (s.length + 2) [] none s = some ((true, l), s')) (trim : Bool) :
    fastGetline s trim = some ((true, stored trim l), s') := by
  unfold fastGetline
  rw [h, bind_pure_some]
  cases trim <;> rfl

theorem fastGetline_bad {c s : List Byte} {cs : List (List Byte)} (h : Cut s (c :: cs)) (h0 : c.head? = some 0) (trim : Bool) : fastGetline s trim = none := by
  cases h with
  | cons _ h1 h2 h3 h4 h =>
    unfold fastGetline
    rw [(getlineLoop_step h1 h2 h3 h4 (line := []) (by simp) none _).1 (by rw [List.nil_append]; exact (visible_nil h1).2 h0)]; rfl

theorem getlines_reads {cs ls : List (List Byte)} (h : Reads cs ls) : ∀ (s : List Byte) (trim : Bool) (fuel : Nat), Cut s cs → ls.length < fuel →
    getlines trim fuel s = some (ls.map (stored trim)) := by
  induction h with
  | nil =>
    intro s trim fuel hcut hf
    obtain ⟨f, rfl⟩ : ∃ f, fuel = f + 1 := ⟨fuel - 1, by omega⟩
    cases hcut
    rw [getlines, fastGetline_eof, bind_pure_some]; rfl
  | @line g c cs ls hg hc hz _ ih =>
    intro s trim fuel hcut hf
    obtain ⟨f, rfl⟩ : ∃ f, fuel = f + 1 := ⟨fuel - 1, by omega⟩
    have hlen := cut_length hcut
    obtain ⟨s', h1, h2⟩ := loop_line g c cs s [] none (s.length + 2) hcut hg hc (by simp) (fun _ => hz) (by simp at hlen; omega)
    rw [getlines, fastGetline_of_loop h2, bind_pure_some]
    simp only []
    rw [if_pos trivial, ih s' trim f h1 (by simpa using hf), bind_pure_some]; rfl
  | last g c hg hz =>
    intro s trim fuel hcut hf
    obtain ⟨f, rfl⟩ : ∃ f, fuel = f + 2 := ⟨fuel - 2, by simp at hf; omega⟩
    have hlen := cut_length hcut
    have h2 := loop_last g c s [] none (s.length + 2) hcut hg (by simp) (fun _ => hz) (by simp at hlen; omega)
    rw [getlines, fastGetline_of_loop h2, bind_pure_some]
    simp only []
    rw [if_pos trivial, getlines, fastGetline_eof, bind_pure_some]; rfl

theorem split_complete (cs : List (List Byte)) : (∀ d ∈ cs, ¬ Complete d) ∨ ∃ g c r, cs = g ++ c :: r ∧ (∀ d ∈ g, ¬ Complete d) ∧ Complete c := by
  induction cs with
  | nil => exact Or.inl (by simp)
  | cons d cs ih =>
    by_cases hd : Complete d
    · exact Or.inr ⟨[], d, cs, rfl, by simp, hd⟩
    · rcases ih with ih | ⟨g, c, r, h1, h2, h3⟩
      · exact Or.inl (List.forall_mem_cons.2 ⟨hd, ih⟩)
      · exact Or.inr ⟨d :: g, c, r, by rw [h1]; rfl, List.forall_mem_cons.2 ⟨hd, h2⟩, h3⟩

/-- either something is read, or the calls are undefined -/
theorem reads_or_bad : ∀ (n : Nat) (cs : List (List Byte)), cs.length ≤ n → (∃ ls, Reads cs ls ∧ ls.length ≤ cs.length) ∨
    ∀ (s : List Byte) (trim : Bool) (fuel : Nat), Cut s cs → getlines trim fuel s = none := by
  intro n
  induction n with
  | zero =>
    intro cs h
    rw [List.eq_nil_of_length_eq_zero (Nat.le_zero.1 h)]
    exact Or.inl ⟨[], .nil, Nat.le_refl _⟩
  | succ n ih =>
    intro cs hn
    cases cs with
    | nil => exact Or.inl ⟨[], .nil, Nat.le_refl _⟩
    | cons d cs =>
      by_cases hz : d.head? = some 0
      · refine Or.inr fun s trim fuel hcut => ?_
        cases fuel with
        | zero => rfl
        | succ f => rw [getlines, fastGetline_bad hcut hz]; rfl
      · have head : ∀ (g : List (List Byte)) (c : List Byte) (r : List (List Byte)), d :: cs = g ++ c :: r → ∀ x, (g ++ [c]).head? = some x → x.head? ≠ some 0 := by
          intro g c r e x hx
          cases g with
          | nil => cases e; cases hx; exact hz
          | cons y g => cases e; cases hx; exact hz
        rcases split_complete (d :: cs) with hall | ⟨g, c, r, e, hg, hc⟩
        · obtain ⟨c, hc⟩ : ∃ c, (d :: cs).getLast? = some c := ⟨_, List.getLast?_eq_some_getLast (by simp)⟩
          obtain ⟨g, e⟩ := List.getLast?_eq_some_iff.1 hc
          left
          rw [e] at hall ⊢
          exact ⟨_, .last g c hall (head g c [] e), by simp⟩
        · have hl : r.length ≤ n := by
            have := congrArg List.length e
            simp at this hn
            omega
          rcases ih r hl with ⟨ls, h1, h2⟩ | hbad
          · left
            rw [e]
            exact ⟨_, .line g c hg hc (head g c r e) h1, by simp; omega⟩
          · right
            intro s trim fuel hcut
            rw [e] at hcut
            have hlen := cut_length hcut
            cases fuel with
            | zero => rfl
            | succ f =>
              obtain ⟨s', h1, h2⟩ := loop_line g c r s [] none (s.length + 2) hcut hg hc (by simp) (fun _ => head g c r e) (by simp at hlen; omega)
              rw [getlines, fastGetline_of_loop h2, bind_pure_some]
              simp only []
              rw [if_pos trivial, hbad s' trim f h1]; rfl

theorem Cut.exists (s : List Byte) : ∃ cs, Cut s cs := by
  induction h : s.length using Nat.strongRecOn generalizing s with
  | ind n ih =>
    by_cases hs : s = []
    · exact ⟨[], hs ▸ .nil⟩
    · have key : ∃ c r, s = c ++ r ∧ c ≠ [] ∧ c.length ≤ 65535 ∧ (10 : Byte) ∉ c.dropLast ∧ (c.getLast? = some 10 ∨ c.length = 65535 ∨ r = []) := by
        have hpos := List.length_pos_iff.2 hs
        by_cases h10 : (10 : Byte) ∈ s.take 65535
        · obtain ⟨x, rest, h1, h2⟩ := exists_first _ h10
          have hlen := congrArg List.length h1
          rw [List.length_take, List.length_append, List.length_cons] at hlen
          refine ⟨x ++ [10], rest ++ s.drop 65535, ?_, by simp, by simp; omega, by simpa using h2, by simp⟩
          rw [← List.append_assoc, List.append_assoc x, List.singleton_append, ← h1, List.take_append_drop]
        · refine ⟨s.take 65535, s.drop 65535, (List.take_append_drop _ _).symm, ?_, by rw [List.length_take]; omega,
            fun hm => h10 (List.dropLast_subset _ hm), ?_⟩
          · intro e
            have := congrArg List.length e
            rw [List.length_take, List.length_nil] at this
            omega
          · by_cases hl : 65535 ≤ s.length
            · exact Or.inr (Or.inl (by rw [List.length_take]; omega))
            · exact Or.inr (Or.inr (List.drop_eq_nil_of_le (by omega)))
      obtain ⟨c, r, e, h1, h2, h3, h4⟩ := key
      have hpos := List.length_pos_iff.2 h1
      obtain ⟨cs, hcs⟩ := ih r.length (by rw [← h, e]; simp; omega) r rfl
      exact ⟨c :: cs, e ▸ .cons c h1 h2 h3 h4 hcs⟩

theorem Cut.unique {s : List Byte} {a b : List (List Byte)} (ha : Cut s a) (hb : Cut s b) : a = b := by
  induction ha generalizing b with
  | nil =>
    generalize hs : ([] : List Byte) = s at hb
    cases hb with
    | nil => rfl
    | cons c h => exact absurd (List.append_eq_nil_iff.1 hs.symm).1 h
  | @cons c s cs h1 h2 h3 h4 _ ih =>
    have f1 := fgets_cut h1 h2 h3 h4
    generalize hs : c ++ s = t at hb
    cases hb with
    | nil => exact absurd (List.append_eq_nil_iff.1 hs).1 h1
    | @cons c' s' cs' g1 g2 g3 g4 h' =>
      have f2 := fgets_cut g1 g2 g3 g4
      rw [← hs, f1] at f2
      cases f2
      rw [ih h']

end Succinct.Util
