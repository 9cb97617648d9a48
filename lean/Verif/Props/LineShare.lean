import Verif.Model.LineShare
import Verif.Props.Getline

/-! # C91: `line_iterator`s sharing a file; C92: adaptors -/
namespace Succinct
open Spec Util RSBitVector

/-- the `i`-th increment made on a file with these lines is as it should be: it obtains the `i`-th line, trimmed if the iterator trims, or nothing if
there are no more lines -/
def GetsLine (ls : List (List Byte)) (i : Nat) (e : ShEvent) : Prop :=
  match ls[i]? with
  | some l => ∃ r, e.line = some r ∧ if e.trim then IsTrimmed l r else r = l
  | none => e.line = none

theorem stored_spec (t : Bool) (l : List Byte) : if t then IsTrimmed l (stored t l) else stored t l = l := by
  cases t
  · rfl
  · exact trim_spec l

/-- one call of `fast_getline` on a file that can be read -/
theorem fastGetline_reads {cs ls : List (List Byte)} (h : Reads cs ls) {s : List Byte} (hcut : Cut s cs) :
    (ls = [] ∧ ∀ trim, fastGetline s trim = some ((false, []), s)) ∨
    ∃ l ls' cs' s', ls = l :: ls' ∧ Reads cs' ls' ∧ Cut s' cs' ∧ ∀ trim, fastGetline s trim = some ((true, stored trim l), s') := by
  have hlen := cut_length hcut
  cases h with
  | nil =>
    cases hcut
    exact Or.inl ⟨rfl, fun trim => rfl⟩
  | @line g c cs ls hg hc hz hr =>
    obtain ⟨s', h1, h2⟩ := loop_line g c cs s [] none (s.length + 2) hcut hg hc (by simp) (fun _ => hz) (by simp at hlen; omega)
    exact Or.inr ⟨_, ls, cs, s', rfl, hr, h1, fun trim => fastGetline_of_loop h2 trim⟩
  | last g c hg hz =>
    have h2 := loop_last g c s [] none (s.length + 2) hcut hg (by simp) (fun _ => hz) (by simp at hlen; omega)
    exact Or.inr ⟨_, [], [], [], rfl, .nil, .nil, fun trim => fastGetline_of_loop h2 trim⟩

/-- a file all of whose lines can be read, and those lines -/
def Readable (s : List Byte) (ls : List (List Byte)) : Prop := ∃ cs, Cut s cs ∧ Reads cs ls

theorem readable_step {s : List Byte} {ls : List (List Byte)} (h : Readable s ls) :
    (ls = [] ∧ ∀ trim, fastGetline s trim = some ((false, []), s)) ∨
    ∃ l ls' s', ls = l :: ls' ∧ Readable s' ls' ∧ ∀ trim, fastGetline s trim = some ((true, stored trim l), s') := by
  obtain ⟨cs, h1, h2⟩ := h
  rcases fastGetline_reads h2 h1 with h | ⟨l, ls', cs', s', e, a, b, c⟩
  · exact Or.inl h
  · exact Or.inr ⟨l, ls', s', e, ⟨cs', b, a⟩, c⟩

/-- what an increment does -/
theorem shared_inc {st : Shared} {i : Nat} {it : ShIter} {f : Nat} {s : List Byte} {ls : List (List Byte)} (h1 : st.iters[i]? = some it) (h2 : it.file = some f)
    (h3 : st.files[f]? = some s) (hr : Readable s ls) :
    (ls = [] ∧ Shared.inc st i = some (⟨st.files.set f s, st.iters.set i ⟨[], none, it.trim⟩⟩, [⟨f, it.trim, none⟩])) ∨
    ∃ l ls' s', ls = l :: ls' ∧ Readable s' ls' ∧
      Shared.inc st i = some (⟨st.files.set f s', st.iters.set i ⟨stored it.trim l, some f, it.trim⟩⟩, [⟨f, it.trim, some (stored it.trim l)⟩]) := by
  have e : Shared.inc st i = (fastGetline s it.trim >>= fun r => if r.1.1 then some (⟨st.files.set f r.2, st.iters.set i ⟨r.1.2, some f, it.trim⟩⟩, [⟨f, it.trim, some r.1.2⟩])
      else some (⟨st.files.set f r.2, st.iters.set i ⟨r.1.2, none, it.trim⟩⟩, [⟨f, it.trim, none⟩])) := by
    unfold Shared.inc
    rw [show rd st.iters i = some it from h1, bind_pure_some, h2, bind_pure_some, show rd st.files f = some s from h3, bind_pure_some]
    rfl
  rcases readable_step hr with ⟨rfl, h⟩ | ⟨l, ls', s', rfl, h, h'⟩
  · left; rw [e, h]; exact ⟨rfl, rfl⟩
  · right; exact ⟨l, ls', s', rfl, h, by rw [e, h']; rfl⟩

theorem shared_step_events {st st' : Shared} {op : ShOp} {ev : List ShEvent} (h : Shared.step st op = some (st', ev)) {f : Nat} {s : List Byte}
    {ls : List (List Byte)} (hs : st.files[f]? = some s) (hr : Readable s ls) :
    ∃ s', st'.files[f]? = some s' ∧ ((ev.filter (·.file = f) = [] ∧ Readable s' ls) ∨
      ∃ e, ev.filter (·.file = f) = [e] ∧ GetsLine ls 0 e ∧ Readable s' ls.tail) := by
  cases op with
  | «open» g trim =>
    obtain ⟨x, _, e⟩ := Option.bind_eq_some_iff.1 h
    cases e
    exact ⟨s, hs, Or.inl ⟨rfl, hr⟩⟩
  | copy i =>
    obtain ⟨x, _, e⟩ := Option.bind_eq_some_iff.1 h
    cases e
    exact ⟨s, hs, Or.inl ⟨rfl, hr⟩⟩
  | assign i j =>
    obtain ⟨x, _, e⟩ := Option.bind_eq_some_iff.1 h
    obtain ⟨y, _, e⟩ := Option.bind_eq_some_iff.1 e
    cases e
    exact ⟨s, hs, Or.inl ⟨rfl, hr⟩⟩
  | inc i =>
    have h : Shared.inc st i = some (st', ev) := h
    have h' := h
    unfold Shared.inc at h'
    obtain ⟨it, h1, h'⟩ := Option.bind_eq_some_iff.1 h'
    obtain ⟨g, h2, h'⟩ := Option.bind_eq_some_iff.1 h'
    obtain ⟨u, h3, h'⟩ := Option.bind_eq_some_iff.1 h'
    by_cases hg : g = f
    · subst hg
      have hu : u = s := Option.some.inj (h3.symm.trans hs)
      subst hu
      have hlt : g < st.files.length := (List.getElem?_eq_some_iff.1 hs).1
      rcases shared_inc h1 h2 hs hr with ⟨rfl, h4⟩ | ⟨l, ls', s', rfl, h5, h4⟩
      · rw [h] at h4; cases h4
        exact ⟨u, by simp [hlt], Or.inr ⟨⟨g, it.trim, none⟩, by simp, rfl, hr⟩⟩
      · rw [h] at h4; cases h4
        exact ⟨s', by simp [hlt], Or.inr ⟨⟨g, it.trim, some (stored it.trim l)⟩, by simp, ⟨_, rfl, stored_spec _ _⟩, h5⟩⟩
    · obtain ⟨⟨⟨ok, line⟩, s'⟩, h4, h'⟩ := Option.bind_eq_some_iff.1 h'
      refine ⟨s, ?_, Or.inl ⟨?_, hr⟩⟩ <;> cases ok <;> cases h' <;> simp [hg, hs]

/-- **C91.**  However increments of iterators and of copies of them are interleaved, on whatever files: the `i`-th increment made by any iterator on a file
obtains the `i`-th line of that file (trimmed if this iterator trims), and nothing once the lines are used up.  Every line is obtained just once. -/
theorem C91_shared (st st' : Shared) (ops : List ShOp) (evs : List ShEvent) (h : Shared.run st ops = some (st', evs)) (f : Nat) (s : List Byte)
    (ls : List (List Byte)) (hs : st.files[f]? = some s) (hr : Readable s ls) :
    ∀ (i : Nat) e, (evs.filter (·.file = f))[i]? = some e → GetsLine ls i e := by
  induction ops generalizing st evs s ls with
  | nil => cases h; simp
  | cons op ops ih =>
    obtain ⟨⟨st1, ev⟩, h1, h⟩ := Option.bind_eq_some_iff.1 h
    obtain ⟨⟨st2, evs'⟩, h2, h⟩ := Option.bind_eq_some_iff.1 h
    cases h
    obtain ⟨s', h3, ⟨h4, h5⟩ | ⟨e', h4, h5, h6⟩⟩ := shared_step_events h1 hs hr
    · rw [List.filter_append, h4, List.nil_append]
      exact ih st1 evs' h2 s' ls h3 h5
    · rw [List.filter_append, h4, List.singleton_append]
      intro i e he
      cases i with
      | zero => cases he; exact h5
      | succ i =>
        have := ih st1 evs' h2 s' ls.tail h3 h6 i e (by simpa using he)
        unfold GetsLine at this ⊢
        rw [← List.getElem?_tail]
        exact this

/-- **C91**, what else an increment changes: the iterator incremented holds the line obtained and still refers to the file, or is at the end if there was
no line; every other iterator, its copies included, keeps its line and is not at the end if it was not, even when the file is used up. -/
theorem C91_increment (st : Shared) (i : Nat) (it : ShIter) (f : Nat) (s : List Byte) (ls : List (List Byte)) (h1 : st.iters[i]? = some it)
    (h2 : it.file = some f) (h3 : st.files[f]? = some s) (hr : Readable s ls) :
    ∃ st' e, Shared.step st (.inc i) = some (st', [e]) ∧ e.file = f ∧ e.trim = it.trim ∧ GetsLine ls 0 e ∧
      st'.iters[i]? = some ⟨e.line.getD [], if ls = [] then none else some f, it.trim⟩ ∧
      (∀ j, j ≠ i → st'.iters[j]? = st.iters[j]?) ∧ (∃ s', st'.files[f]? = some s' ∧ Readable s' ls.tail) ∧
      ∀ g, g ≠ f → st'.files[g]? = st.files[g]? := by
  have hi : i < st.iters.length := (List.getElem?_eq_some_iff.1 h1).1
  have hf : f < st.files.length := (List.getElem?_eq_some_iff.1 h3).1
  rcases shared_inc h1 h2 h3 hr with ⟨rfl, h4⟩ | ⟨l, ls', s', rfl, h5, h4⟩
  · refine ⟨_, _, h4, rfl, rfl, rfl, by simp [hi], fun j hj => List.getElem?_set_ne (Ne.symm hj), ⟨s, by simp [hf], hr⟩, fun g hg => List.getElem?_set_ne (Ne.symm hg)⟩
  · refine ⟨_, _, h4, rfl, rfl, ⟨_, rfl, stored_spec _ _⟩, by simp [hi], fun j hj => List.getElem?_set_ne (Ne.symm hj), ⟨s', by simp [hf], h5⟩, fun g hg => List.getElem?_set_ne (Ne.symm hg)⟩

/-- **C91**, comparison: two iterators are equal just if they refer to the same file or both are at an end -/
theorem C91_equal (a b : ShIter) : Shared.equal a b = true ↔ a.file = b.file := by
  unfold Shared.equal
  exact beq_iff_eq

/-- **C91**, the guarantees of a forward iterator (`boost::forward_traversal_tag`, `util.hpp:54`) do not hold: from `b = a`, an increment of `a` leaves `a == b`
although `*a` and `*b` differ, and a later increment of `b` does not arrive where `a` is. -/
theorem C91_multipass_false :
    ∃ st a b b', Shared.run ⟨[[97, 10, 98, 10]], []⟩ [.open 0 false, .copy 0, .inc 0] = some (st, [⟨0, false, some [97, 10]⟩]) ∧
      st.iters = [a, b] ∧ Shared.equal a b = true ∧ a.line ≠ b.line ∧
      (Shared.step st (.inc 1)).map (·.1.iters) = some [a, b'] ∧ b'.line ≠ a.line :=
  ⟨⟨[[98, 10]], [⟨[97, 10], some 0, false⟩, ⟨[], some 0, false⟩]⟩, ⟨[97, 10], some 0, false⟩, ⟨[], some 0, false⟩, ⟨[98, 10], some 0, false⟩, by decide +kernel⟩

/-- two files; copies with and without trimming take turns, the last increment finds the first file used up -/
theorem C91_example : (Shared.run ⟨[[97, 13, 10, 98, 10], [99, 10]], []⟩ [.open 0 true, .open 1 false, .open 0 false, .copy 0, .inc 3, .inc 1, .inc 2, .inc 0]).map (·.2) =
    some [⟨0, true, some [97]⟩, ⟨1, false, some [99, 10]⟩, ⟨0, false, some [98, 10]⟩, ⟨0, true, none⟩] := by decide +kernel

example : Readable [97, 13, 10, 98, 10] [[97, 13, 10], [98, 10]] := by
  refine ⟨[[97, 13, 10], [98, 10]], .cons [97, 13, 10] (by simp) (by simp) (by decide) (Or.inl rfl) (.cons [98, 10] (by simp) (by simp) (by decide) (Or.inl rfl) .nil), ?_⟩
  exact .line [] [97, 13, 10] (by simp) (by simp [Complete]) (by simp) (.line [] [98, 10] (by simp) (by simp [Complete]) (by simp) .nil)

/-- **C92.**  The range `stl_string_adaptor` makes of a string is the string and one NUL; of strings without NUL bytes no range is a prefix of
that of another string, and the ranges compare in lexicographic order (of unsigned bytes) as the strings do.  `identity_adaptor` changes nothing. -/
theorem C92_adaptors (s : List Byte) :
    stlStringAdaptor s = s ++ [0] ∧ identityAdaptor s = s ∧
    ((0 : Byte) ∉ s → ∀ t, (0 : Byte) ∉ t → (stlStringAdaptor s <+: stlStringAdaptor t → s = t) ∧
      (List.Lex (· < ·) (stlStringAdaptor s) (stlStringAdaptor t) ↔ List.Lex (· < ·) s t)) := by
  have e : ∀ s : List Byte, stlStringAdaptor s = s ++ [0] := fun s => by unfold stlStringAdaptor; rw [List.take_of_length_le (by simp)]
  refine ⟨e s, rfl, fun hs t ht => ?_⟩
  rw [e, e]
  constructor
  · induction s generalizing t with
    | nil =>
      cases t with
      | nil => exact fun _ => rfl
      | cons c t =>
        intro h
        exact absurd (List.mem_cons.2 (Or.inl (List.cons_prefix_cons.1 h).1)) ht
    | cons c s ih =>
      cases t with
      | nil =>
        intro h
        exact absurd (List.mem_cons.2 (Or.inl (List.cons_prefix_cons.1 h).1.symm)) hs
      | cons d t =>
        intro h
        obtain ⟨rfl, h2⟩ := List.cons_prefix_cons.1 h
        rw [ih (fun h => hs (List.mem_cons.2 (Or.inr h))) t (fun h => ht (List.mem_cons.2 (Or.inr h))) h2]
  · have pos : ∀ {c : Byte} {s : List Byte}, (0 : Byte) ∉ c :: s → (0 : Byte) < c := by
      intro c s h
      have : c ≠ 0 := fun hc => h (by simp [hc])
      rw [BitVec.lt_def]
      exact Nat.pos_of_ne_zero (fun hz => this (BitVec.eq_of_toNat_eq hz))
    induction s generalizing t with
    | nil =>
      cases t with
      | nil =>
        refine ⟨fun h => ?_, fun h => by cases h⟩
        cases h with
        | cons h => cases h
        | rel h => exact absurd h (by decide)
      | cons c t => exact ⟨fun _ => .nil, fun _ => .rel (pos ht)⟩
    | cons c s ih =>
      cases t with
      | nil =>
        refine ⟨fun h => ?_, fun h => by cases h⟩
        have := pos hs
        rw [BitVec.lt_def] at this
        cases h with
        | cons h => exact absurd this (by decide)
        | rel h => rw [BitVec.lt_def] at h; omega
      | cons d t =>
        have ih := ih (fun h => hs (List.mem_cons.2 (Or.inr h))) t (fun h => ht (List.mem_cons.2 (Or.inr h)))
        refine ⟨fun h => ?_, fun h => ?_⟩
        · cases h with
          | cons h => exact .cons (ih.1 h)
          | rel h => exact .rel h
        · cases h with
          | cons h => exact .cons (ih.2 h)
          | rel h => exact .rel h

/-- without the NUL "a" would be a prefix of "ab" -/
example : ¬ stlStringAdaptor [97] <+: stlStringAdaptor [97, 98] ∧ [97] <+: ([97, 98] : List Byte) := by decide

end Succinct
