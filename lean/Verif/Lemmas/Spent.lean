import Verif.Model.Spent
import Verif.Lemmas.RSBitVector

/-! Invariant of a builder that has been made into a vector. -/
namespace Succinct
open Spec
open RSBitVector (bind_pure_some)

namespace Spent

/-- the bits of the vector below its size are those of `l`; only the words of `ws` that hold padding may
have changed; while `m_cur_word` points into the vector the builder has no words of its own and its
size lies in the last word of the vector -/
structure Ok (l : List Bool) (ws : List Word) (s : Spent) : Prop where
  size : s.vec.size = l.length
  len : s.vec.bits.length = (l.length + 63) / 64
  bit : ∀ p, p < l.length → wbit s.vec.bits p = bitFn l p
  full : l.length % 64 = 0 → s.vec.bits = ws
  ptr : ∀ c, s.cur = .lent c → s.bits = [] ∧ l.length ≤ s.size ∧ s.size ≤ 64 * ((l.length + 63) / 64) ∧
    (l.length % 64 ≠ 0 → c + 1 = (l.length + 63) / 64)

theorem consume_ok {b : Builder} {l : List Bool} (h : Inv b l) :
    ∃ s, consume b = some s ∧ s.vec = BitVector.ofRange l ∧ s.size = l.length ∧ s.bits = [] ∧ Ok l s.vec.bits s := by
  obtain ⟨v, ev, hv⟩ := BitVector.ofBuilder_rep b l h
  have hl := h.len
  have hs := h.size
  unfold consume
  rw [assertP_eq _ (by rw [h.size, h.repr.len]), bind_pure_some]
  refine ⟨_, rfl, ?_, hs, rfl, hs, hl, fun p _ => h.repr.bit p, fun _ => rfl, ?_⟩
  · exact BitVector.eq_ofRange ⟨hs, h.repr⟩
  · intro c hc
    refine ⟨rfl, ?_, ?_, ?_⟩
    · show l.length ≤ b.size; omega
    · show b.size ≤ _; omega
    · intro hm
      have := h.cur hm
      simp only [this] at hc
      injection hc with hc
      omega

variable {l : List Bool} {ws : List Word}

theorem orCur_ok {s s' : Spent} (h : Ok l ws s) {v : Word} (hm : s.size % 64 ≠ 0) (hv : ∀ i, i < s.size % 64 → v.getLsbD i = false)
    (e : orCur s v = some s') :
    s'.size = s.size ∧ s'.cur = s.cur ∧ Ok l ws s' := by
  unfold orCur at e
  split at e
  · simp at e
  · rename_i c hc
    obtain ⟨bits, e1, e2⟩ := Option.bind_eq_some_iff.1 e
    cases e2
    refine ⟨rfl, rfl, h.size, h.len, h.bit, h.full, fun c' hc' => ?_⟩
    have hc' : s.cur = .lent c' := hc'
    rw [hc] at hc'; cases hc'
  · rename_i c hc
    obtain ⟨bits, e1, e2⟩ := Option.bind_eq_some_iff.1 e
    cases e2
    obtain ⟨p1, p2, p3, p4⟩ := h.ptr c hc
    have hlm : l.length % 64 ≠ 0 := by omega
    have hcl := p4 hlm
    have hlen := h.len
    have hcw : c < s.vec.bits.length := by omega
    rw [Builder.orCur_eq _ _ _ hcw] at e1
    cases e1
    refine ⟨rfl, rfl, h.size, by simpa using hlen, fun p hp => ?_, fun hx => absurd hx hlm, h.ptr⟩
    show wbit (s.vec.bits.set c _) p = _
    rw [wbit_set _ _ _ hcw]
    split
    · rename_i hpc
      rw [BitVec.getLsbD_or, hv _ (by omega), Bool.or_false, ← h.bit p hp]
      unfold wbit
      rw [hpc, List.getD_eq_getElem?_getD, List.getElem?_eq_getElem hcw]
      rfl
    · exact h.bit p hp

theorem Ok.own {s : Spent} (h : Ok l ws s) (bits : List Word) (size c : Nat) : Ok l ws ⟨s.vec, bits, size, .own c⟩ :=
  ⟨h.size, h.len, h.bit, h.full, nofun⟩

theorem pushBack_ok {s s' : Spent} (h : Ok l ws s) (x : Bool) (e : pushBack s x = some s') : Ok l ws s' := by
  unfold pushBack at e
  simp only [] at e
  rw [shl_eq _ _ (by omega), bind_pure_some] at e
  split at e
  · obtain ⟨c, _, e⟩ := Option.bind_eq_some_iff.1 e
    obtain ⟨s1, e1, e⟩ := Option.bind_eq_some_iff.1 e
    cases e
    unfold orCur at e1
    simp only [] at e1
    obtain ⟨bits, _, e2⟩ := Option.bind_eq_some_iff.1 e1
    cases e2
    exact h.own _ _ _
  · rename_i hm
    obtain ⟨s1, e1, e⟩ := Option.bind_eq_some_iff.1 e
    cases e
    obtain ⟨g1, g2, g⟩ := orCur_ok h hm (fun i hi => by rw [BitVec.getLsbD_shiftLeft]; simp [hi]) e1
    refine ⟨g.size, g.len, g.bit, g.full, fun c hc => ?_⟩
    obtain ⟨p1, p2, p3, p4⟩ := g.ptr c hc
    exact ⟨p1, by show l.length ≤ s1.size + 1; omega, by show s1.size + 1 ≤ _; omega, p4⟩

theorem appendBits_ok {s s' : Spent} (h : Ok l ws s) (bits : Word) (len : Nat) (e : appendBits s bits len = some s') : Ok l ws s' := by
  unfold appendBits at e
  obtain ⟨_, _, e⟩ := Option.bind_eq_some_iff.1 e
  split at e
  · cases e; exact h
  · simp only [] at e
    obtain ⟨s1, e1, e⟩ := Option.bind_eq_some_iff.1 e
    obtain ⟨c, _, e⟩ := Option.bind_eq_some_iff.1 e
    cases e
    unfold appendWords at e1
    split at e1
    · cases e1; exact h.own _ _ _
    · rename_i hm
      rw [shl_eq _ _ (by omega), bind_pure_some] at e1
      obtain ⟨s2, e2, e1⟩ := Option.bind_eq_some_iff.1 e1
      -- the size has been increased before the write
      have e2' : orCur s (bits <<< (s.size % 64)) = some { s2 with size := s.size } := by
        unfold orCur at e2 ⊢
        simp only [] at e2
        split at e2
        · simp at e2
        · rename_i c hc
          obtain ⟨b, q1, q2⟩ := Option.bind_eq_some_iff.1 e2
          cases q2
          rw [hc]; simp only []
          rw [q1, bind_pure_some]; rfl
        · rename_i c hc
          obtain ⟨b, q1, q2⟩ := Option.bind_eq_some_iff.1 e2
          cases q2
          rw [hc]; simp only []
          rw [q1, bind_pure_some]; rfl
      obtain ⟨_, _, g⟩ := orCur_ok h hm (fun i hi => by rw [BitVec.getLsbD_shiftLeft]; simp [hi]) e2'
      split at e1
      · obtain ⟨w, _, e1⟩ := Option.bind_eq_some_iff.1 e1
        cases e1
        exact g.own _ _ _
      · cases e1
        exact g.own _ _ _

theorem oneExtendLoop_ok (fuel : Nat) : ∀ {s s' : Spent} (n : Nat), Ok l ws s → oneExtendLoop fuel s n = some s' → Ok l ws s' := by
  induction fuel with
  | zero =>
    intro s s' n h e
    unfold oneExtendLoop at e
    split at e
    · simp at e
    · split at e
      · obtain ⟨v, _, e⟩ := Option.bind_eq_some_iff.1 e
        exact appendBits_ok h _ _ e
      · cases e; exact h
  | succ fuel ih =>
    intro s s' n h e
    unfold oneExtendLoop at e
    split at e
    · obtain ⟨s1, e1, e⟩ := Option.bind_eq_some_iff.1 e
      exact ih _ (appendBits_ok h _ _ e1) e
    · split at e
      · obtain ⟨v, _, e⟩ := Option.bind_eq_some_iff.1 e
        exact appendBits_ok h _ _ e
      · cases e; exact h

/-- operations that leave the pointer, the size and an empty buffer alone while the pointer is lent -/
theorem via_ok {s s' : Spent} (h : Ok l ws s) (op : Builder → Option Builder)
    (hop : ∀ b b', b.bits = [] → b.cur = none → op b = some b' → b'.cur = none → b'.bits = [] ∧ b'.size = b.size)
    (e : via s op = some s') : Ok l ws s' := by
  unfold via at e
  obtain ⟨b, e1, e⟩ := Option.bind_eq_some_iff.1 e
  cases e
  refine ⟨h.size, h.len, h.bit, h.full, fun c hc => ?_⟩
  simp only [] at hc
  split at hc
  · cases hc
  · rename_i hb
    split at hc
    · rename_i c' hs
      cases hc
      obtain ⟨p1, p2, p3, p4⟩ := h.ptr c hs
      obtain ⟨q1, q2⟩ := hop s.builder b p1 (by unfold builder; simp [hs]) e1 hb
      have q2 : b.size = s.size := q2
      exact ⟨q1, by show l.length ≤ b.size; omega, by show b.size ≤ _; omega, p4⟩
    · cases hc

theorem step_ok {s s' : Spent} (h : Ok l ws s) (op : Op) (e : step s op = some s') : Ok l ws s' := by
  cases op with
  | pushBack x => exact pushBack_ok h x e
  | appendBits bits len => exact appendBits_ok h bits len e
  | oneExtend n => exact oneExtendLoop_ok n n h e
  | set pos x =>
    unfold step at e
    refine via_ok h _ (fun b b' hb hc e1 _ => ?_) e
    unfold Builder.set at e1
    simp only [] at e1
    rw [shl_eq _ _ (by omega), bind_pure_some] at e1
    rw [hb] at e1
    simp [rd] at e1
  | setBits pos bits len =>
    unfold step at e
    refine via_ok h _ (fun b b' hb hc e1 _ => ?_) e
    unfold Builder.setBits at e1
    obtain ⟨_, _, e1⟩ := Option.bind_eq_some_iff.1 e1
    obtain ⟨_, _, e1⟩ := Option.bind_eq_some_iff.1 e1
    split at e1
    · cases e1; exact ⟨hb, rfl⟩
    · obtain ⟨_, _, e1⟩ := Option.bind_eq_some_iff.1 e1
      obtain ⟨_, _, e1⟩ := Option.bind_eq_some_iff.1 e1
      rw [hb] at e1
      simp [rd] at e1
  | zeroExtend n =>
    unfold step at e
    refine via_ok h _ (fun b b' hb hc e1 hn => ?_) e
    unfold Builder.zeroExtend at e1
    obtain ⟨k, e2, e1⟩ := Option.bind_eq_some_iff.1 e1
    split at e1
    · obtain ⟨_, _, e1⟩ := Option.bind_eq_some_iff.1 e1
      cases e1; cases hn
    · rename_i hk
      cases e1
      unfold subU at e2
      rw [hb] at e2
      simp only [List.length_nil, Nat.zero_le, if_true, Nat.sub_zero, Option.some.injEq] at e2
      unfold wordsFor at e2
      exact ⟨hb, by show b.size + n = b.size; omega⟩
  | append rhs =>
    unfold step at e
    refine via_ok h _ (fun b b' hb hc e1 hn => ?_) e
    unfold Builder.append at e1
    split at e1
    · cases e1; exact ⟨hb, rfl⟩
    · simp only [] at e1
      obtain ⟨_, _, e1⟩ := Option.bind_eq_some_iff.1 e1
      split at e1
      · obtain ⟨_, _, e1⟩ := Option.bind_eq_some_iff.1 e1
        obtain ⟨_, _, e1⟩ := Option.bind_eq_some_iff.1 e1
        cases e1; cases hn
      · obtain ⟨_, e2, e1⟩ := Option.bind_eq_some_iff.1 e1
        rw [hb] at e2
        simp [subU] at e2
  | reverse =>
    unfold step at e
    refine via_ok h _ (fun b b' hb hc e1 hn => ?_) e
    unfold Builder.reverse at e1
    rw [hb] at e1
    unfold Builder.reverseLoop at e1
    simp only [bind_pure_some] at e1
    obtain ⟨_, _, e1⟩ := Option.bind_eq_some_iff.1 e1
    cases e1
    exact ⟨rfl, rfl⟩
  | reserve r =>
    unfold step at e
    refine via_ok h _ (fun b b' hb hc e1 hn => ?_) e
    unfold Builder.reserve at e1
    split at e1
    all_goals (cases e1; exact ⟨hb, rfl⟩)

theorem run_ok (ops : List Op) : ∀ {s s' : Spent}, Ok l ws s → run s ops = some s' → Ok l ws s' := by
  induction ops with
  | nil => intro s s' h e; cases e; exact h
  | cons op ops ih =>
    intro s s' h e
    unfold run at e
    obtain ⟨s1, e1, e⟩ := Option.bind_eq_some_iff.1 e
    exact ih (step_ok h op e1) e

end Spent

/-! Vectors with arbitrary bits in the padding. -/
namespace BitVector

/-- the words of a vector with dirty padding are those of a longer vector -/
theorem dirty_eq {v : BitVector} {l : List Bool} (hs : v.size = l.length) (hl : v.bits.length = (l.length + 63) / 64)
    (hb : ∀ p, p < l.length → wbit v.bits p = bitFn l p) :
    ∃ m, v = ⟨l.length, (ofRange (l ++ m)).bits⟩ := by
  let m : List Bool := (List.range (64 * v.bits.length - l.length)).map fun i => wbit v.bits (l.length + i)
  have hm : m.length = 64 * v.bits.length - l.length := by simp [m]
  refine ⟨m, ?_⟩
  have hr : Rep ⟨(l ++ m).length, v.bits⟩ (l ++ m) := by
    refine ⟨rfl, ?_, fun p => ?_⟩
    · show v.bits.length = _
      rw [List.length_append, hm]; unfold wordsFor; omega
    · show wbit v.bits p = _
      rw [bitFn_append]
      split
      · exact hb p ‹_›
      · unfold bitFn
        rw [List.getD_eq_getElem?_getD]
        by_cases hp : p < 64 * v.bits.length
        · simp only [m]
          rw [List.getElem?_map, List.getElem?_range (by omega)]
          simp only [Option.map_some, Option.getD_some]
          congr 1; omega
        · rw [List.getElem?_eq_none (by omega), wbit_of_ge _ _ (by omega)]; rfl
  rw [← eq_ofRange hr]
  cases v
  simp only at hs
  rw [hs]

variable {l m : List Bool}

theorem resize_getBits (ov : Word → Nat → Word) (pos len : Nat) (h : pos + len ≤ l.length) :
    getBits ov ⟨l.length, (ofRange (l ++ m)).bits⟩ pos len = getBits ov (ofRange (l ++ m)) pos len := by
  have := (ofRange_rep (l ++ m)).size
  rw [List.length_append] at this
  unfold getBits
  rw [assertP_eq _ (by exact h), assertP_eq _ (by omega)]

theorem resize_access (pos : Nat) (h : pos < l.length) :
    access ⟨l.length, (ofRange (l ++ m)).bits⟩ pos = access (ofRange (l ++ m)) pos := by
  have := (ofRange_rep (l ++ m)).size
  rw [List.length_append] at this
  unfold access
  rw [assertP_eq _ (by exact h), assertP_eq _ (by omega)]

theorem resize_predecessor (b : Bool) (pos : Nat) (h : pos < l.length) :
    predecessor b ⟨l.length, (ofRange (l ++ m)).bits⟩ pos = predecessor b (ofRange (l ++ m)) pos := by
  have := (ofRange_rep (l ++ m)).size
  rw [List.length_append] at this
  unfold predecessor
  rw [assertP_eq _ (by exact h), assertP_eq _ (by omega)]

theorem resize_successor (b : Bool) (pos : Nat) (h : pos < l.length) :
    successor b ⟨l.length, (ofRange (l ++ m)).bits⟩ pos = successor b (ofRange (l ++ m)) pos := by
  have := (ofRange_rep (l ++ m)).size
  rw [List.length_append] at this
  unfold successor
  rw [assertP_eq _ (by exact h), assertP_eq _ (by omega)]

end BitVector
end Succinct
