import Verif.Model.History
import Verif.Lemmas.BitVector

/-! # C01–C06: the builder and the bit vector -/
namespace Succinct
open Spec

theorem Builder.run_inv (p : Prog) : ∀ l, p.spec = some l → p.ReserveAligned → ∃ s, run p = some s ∧ Inv s l := by
  induction p with
  | new n b =>
    intro l h _
    simp only [Prog.spec, Option.some.injEq] at h
    subst h; exact new_inv n b
  | pushBack p b ih =>
    intro l h hr
    simp only [Prog.spec, Option.bind_eq_bind, Option.bind_eq_some_iff, Option.some.injEq] at h
    obtain ⟨l0, h0, rfl⟩ := h
    obtain ⟨s, e, i⟩ := ih l0 h0 hr
    simp only [run, e]
    exact pushBack_inv s l0 i b
  | set p pos b ih =>
    intro l h hr
    simp only [Prog.spec, Option.bind_eq_bind, Option.bind_eq_some_iff] at h
    obtain ⟨l0, h0, h⟩ := h
    split at h
    · rename_i hp
      simp only [Option.some.injEq] at h; subst h
      obtain ⟨s, e, i⟩ := ih l0 h0 hr
      simp only [run, e]
      exact set_inv s l0 i pos b hp
    · simp at h
  | setBits p pos bits len ih =>
    intro l h hr
    simp only [Prog.spec, Option.bind_eq_bind, Option.bind_eq_some_iff] at h
    obtain ⟨l0, h0, h⟩ := h
    split at h
    · rename_i hp
      simp only [Option.some.injEq] at h; subst h
      obtain ⟨s, e, i⟩ := ih l0 h0 hr
      simp only [run, e]
      exact setBits_inv s l0 i pos bits len hp.1 hp.2
    · simp at h
  | appendBits p bits len ih =>
    intro l h hr
    simp only [Prog.spec, Option.bind_eq_bind, Option.bind_eq_some_iff] at h
    obtain ⟨l0, h0, h⟩ := h
    split at h
    · rename_i hp
      simp only [Option.some.injEq] at h; subst h
      obtain ⟨s, e, i⟩ := ih l0 h0 hr
      simp only [run, e]
      exact appendBits_inv s l0 i bits len hp
    · simp at h
  | zeroExtend p n ih =>
    intro l h hr
    simp only [Prog.spec, Option.bind_eq_bind, Option.bind_eq_some_iff, Option.some.injEq] at h
    obtain ⟨l0, h0, rfl⟩ := h
    obtain ⟨s, e, i⟩ := ih l0 h0 hr
    simp only [run, e]
    exact zeroExtend_inv s l0 i n
  | oneExtend p n ih =>
    intro l h hr
    simp only [Prog.spec, Option.bind_eq_bind, Option.bind_eq_some_iff, Option.some.injEq] at h
    obtain ⟨l0, h0, rfl⟩ := h
    obtain ⟨s, e, i⟩ := ih l0 h0 hr
    simp only [run, e]
    exact oneExtend_inv s l0 i n
  | append p q ihp ihq =>
    intro l h hr
    simp only [Prog.spec, Option.bind_eq_bind, Option.bind_eq_some_iff, Option.some.injEq] at h
    obtain ⟨l0, h0, l1, h1, rfl⟩ := h
    obtain ⟨s, e, i⟩ := ihp l0 h0 hr.1
    obtain ⟨t, e', i'⟩ := ihq l1 h1 hr.2
    simp only [run, e, e']
    exact append_inv s t l0 l1 i i'
  | reverse p ih =>
    intro l h hr
    simp only [Prog.spec, Option.bind_eq_bind, Option.bind_eq_some_iff, Option.some.injEq] at h
    obtain ⟨l0, h0, rfl⟩ := h
    obtain ⟨s, e, i⟩ := ih l0 h0 hr
    simp only [run, e]
    exact reverse_inv s l0 i
  | reserve p r ih =>
    intro l h hr
    simp only [Prog.spec] at h
    obtain ⟨s, e, i⟩ := ih l h hr.1
    simp only [run, e]
    cases r with
    | false => exact ⟨s, rfl, i⟩
    | true =>
      refine ⟨_, rfl, i.size, i.repr, ?_⟩
      intro hc
      exact absurd (hr.2 rfl l h) hc

/-- **C01.** Whatever list a history of builder calls specifies, running the modelled builder never
meets undefined behaviour or a failing assertion, and the bit vector made from it has the length of
that list and its elements.  Reallocating `reserve` calls are allowed while the size is a multiple
of 64; `C01_reserve_false` shows the restriction is needed. -/
theorem C01_builder_history (p : Prog) (l : List Bool) (h : p.spec = some l) (hr : p.ReserveAligned) :
    ∃ b v, Builder.run p = some b ∧ BitVector.ofBuilder b = some v ∧ v.size = l.length ∧
      ∀ i, v.access i = l[i]? := by
  obtain ⟨s, e, i⟩ := Builder.run_inv p l h hr
  obtain ⟨v, ev, hv⟩ := BitVector.ofBuilder_rep s l i
  refine ⟨s, v, e, ev, hv.size, ?_⟩
  intro j
  by_cases hj : j < l.length
  · rw [BitVector.access_eq hv j hj, bitFn_getElem? l j hj]
  · rw [BitVector.access_none hv j (by omega), List.getElem?_eq_none (by omega)]

/-- The history vector is, as a data structure, the one the range constructor builds for the same
list, so all later theorems, stated for `BitVector.ofRange l`, apply to it as well. -/
theorem C01_builder_eq_range (p : Prog) (l : List Bool) (h : p.spec = some l) (hr : p.ReserveAligned) :
    (Builder.run p).bind BitVector.ofBuilder = some (BitVector.ofRange l) := by
  obtain ⟨s, e, i⟩ := Builder.run_inv p l h hr
  obtain ⟨v, ev, hv⟩ := BitVector.ofBuilder_rep s l i
  rw [e, Option.bind_some, ev, BitVector.eq_ofRange hv]

/-- a history exercising a straddling `append`, a `reverse` and `set_bits` -/
def exampleProg : Prog :=
  .setBits (.reverse (.append (.oneExtend (.new 3 false) 70) (.appendBits (.pushBack (.new 60 true) false) 0x2b#64 6)))
    62 5#64 4

example : exampleProg.spec.map List.length = some 140 ∧ exampleProg.ReserveAligned :=
  ⟨by decide +kernel, ⟨trivial, trivial⟩⟩

/-- A reallocating `reserve` in the middle of a word leaves `m_cur_word` dangling
(`bit_vector.hpp:40-42`): the next `push_back` is undefined. -/
theorem C01_reserve_false :
    ∃ p l, Prog.spec p = some l ∧ Builder.run p = none :=
  ⟨.pushBack (.reserve (.pushBack (.new 0 false) true) true) true, _, rfl, by decide +kernel⟩

/-- **C02.** The range constructor reproduces its input, and reading at or beyond the end is the
violation of an assertion. -/
theorem C02_range (l : List Bool) :
    (BitVector.ofRange l).size = l.length ∧ ∀ i, (BitVector.ofRange l).access i = l[i]? := by
  have hv := BitVector.ofRange_rep l
  refine ⟨hv.size, ?_⟩
  intro j
  by_cases hj : j < l.length
  · rw [BitVector.access_eq hv j hj, bitFn_getElem? l j hj]
  · rw [BitVector.access_none hv j (by omega), List.getElem?_eq_none (by omega)]

example : (BitVector.ofRange (List.replicate 64 true ++ [false, true])).access 65 = some true ∧
    (BitVector.ofRange (List.replicate 64 true ++ [false, true])).access 66 = none := by decide +kernel

/-- **C03.** `get_bits(pos, len)` is the addressed bit field, whatever the machine computes for the
over-wide shift `1 << 64`. -/
theorem C03_get_bits (ov : Word → Nat → Word) (l : List Bool) (pos len : Nat) (hlen : len ≤ 64)
    (hp : pos + len ≤ l.length) :
    ∃ x, (BitVector.ofRange l).getBits ov pos len = some x ∧
      lowBits x len = (l.drop pos).take len ∧ x.toNat < 2^len := by
  obtain ⟨x, e, hx⟩ := BitVector.getBits_eq ov (BitVector.ofRange_rep l) pos len hlen hp
  refine ⟨x, e, ?_, ?_⟩
  · apply bitFn_ext
    · simp; omega
    · intro i
      rw [bitFn_lowBits, hx, bitFn_take, bitFn_drop]
      cases decide (i < len) <;> simp
  · apply Nat.lt_pow_two_of_testBit
    intro i hi
    rw [BitVec.testBit_toNat, hx]
    have : ¬ i < len := by omega
    simp [this]

/-- Outside the vector `get_bits` fails its assertion. -/
theorem C03_get_bits_pre (ov : Word → Nat → Word) (l : List Bool) (pos len : Nat)
    (hp : l.length < pos + len) : (BitVector.ofRange l).getBits ov pos len = none := by
  unfold BitVector.getBits assertP
  rw [if_neg (by rw [(BitVector.ofRange_rep l).size]; omega)]; rfl

example : (BitVector.ofRange (List.replicate 60 true ++ List.replicate 60 false)).getBits (fun _ _ => 77) 50 64 = some 1023#64 := by
  decide +kernel

/-- **C04.** `get_word(pos)` is the next 64 bits, padded with zeros. -/
theorem C04_get_word (l : List Bool) (pos : Nat) (hp : pos < l.length) :
    ∃ x, (BitVector.ofRange l).getWord pos = some x ∧
      wordBits x = (l.drop pos ++ List.replicate 64 false).take 64 := by
  obtain ⟨x, e, hx⟩ := BitVector.getWord_eq (BitVector.ofRange_rep l) pos hp
  refine ⟨x, e, ?_⟩
  apply bitFn_ext
  · simp [wordBits]
  · intro i
    rw [bitFn_wordBits, bitFn_take, bitFn_append, bitFn_drop, bitFn_replicate]
    by_cases hi : i < 64
    · rw [hx i hi]
      split
      · simp [hi]
      · rename_i h
        simp only [List.length_drop] at h
        rw [bitFn_of_ge _ _ (by omega)]; simp
    · rw [BitVec.getLsbD_of_ge _ _ (by omega)]; simp [hi]

/-- **C04.** `get_word56(pos)`: if the eight bytes read exist, the low 56 bits of the result are
the next 56 bits, padded with zeros. -/
theorem C04_get_word56 (l : List Bool) (pos : Nat)
    (hp : pos / 8 + 8 ≤ 8 * (BitVector.ofRange l).bits.length) :
    ∃ x, (BitVector.ofRange l).getWord56 pos = some x ∧
      lowBits x 56 = (l.drop pos ++ List.replicate 56 false).take 56 := by
  obtain ⟨x, e, hx⟩ := BitVector.getWord56_eq (BitVector.ofRange_rep l) pos hp
  refine ⟨x, e, ?_⟩
  apply bitFn_ext
  · simp
  · intro i
    rw [bitFn_lowBits, bitFn_take, bitFn_append, bitFn_drop, bitFn_replicate]
    by_cases hi : i < 56
    · rw [hx i hi]
      split
      · simp [hi]
      · rename_i h
        simp only [List.length_drop] at h
        rw [bitFn_of_ge _ _ (by omega)]; simp
    · simp [hi]

example : (BitVector.ofRange (List.replicate 70 true)).getWord 8 = some 0x3fffffffffffffff#64 := by
  decide +kernel
example : 27 / 8 + 8 ≤ 8 * (BitVector.ofRange (List.replicate 70 true)).bits.length := by decide +kernel

theorem xor_not_eq (b : Bool) (l : List Bool) (q : Nat) (hq : q < l.length) :
    (!b ^^ bitFn l q) = true ↔ l[q]? = some b := by
  rw [bitFn_getElem? l q hq]
  cases b <;> cases bitFn l q <;> simp

/-- the call `predecessor0` or `predecessor1` -/
def BitVector.predecessorB (b : Bool) (v : BitVector) (pos : Nat) : Option Nat :=
  if b then v.predecessor1 pos else v.predecessor0 pos

/-- the call `successor0` or `successor1` -/
def BitVector.successorB (b : Bool) (v : BitVector) (pos : Nat) : Option Nat :=
  if b then v.successor1 pos else v.successor0 pos

theorem BitVector.predecessorB_eq (b : Bool) (v : BitVector) (pos : Nat) :
    v.predecessorB b pos = v.predecessor (!b) pos := by cases b <;> rfl

theorem BitVector.successorB_eq (b : Bool) (v : BitVector) (pos : Nat) :
    v.successorB b pos = v.successor (!b) pos := by cases b <;> rfl

/-- **C05.** `predecessor_b(pos)` is the largest position `≤ pos` holding `b`; the call fails
exactly if there is none. -/
theorem C05_predecessor (b : Bool) (l : List Bool) (pos : Nat) (hp : pos < l.length) :
    (∀ q, (BitVector.ofRange l).predecessorB b pos = some q ↔ IsPred b l pos q) ∧
    ((BitVector.ofRange l).predecessorB b pos = none ↔ ∀ r, r ≤ pos → l[r]? ≠ some b) := by
  have h := BitVector.predecessor_cases (!b) (BitVector.ofRange_rep l) pos hp
  rw [BitVector.predecessorB_eq]
  split at h
  · rename_i q hq
    obtain ⟨h1, h2, h3⟩ := h
    rw [hq]
    have g2 := (xor_not_eq b l q (by omega)).mp h2
    have g3 : ∀ r, q < r → r ≤ pos → l[r]? ≠ some b := by
      intro r hr hr2 hc
      have := h3 r hr hr2
      rw [(xor_not_eq b l r (by omega)).mpr hc] at this
      exact absurd this (by decide)
    constructor
    · intro q'
      constructor
      · intro he
        simp only [Option.some.injEq] at he
        subst he; exact ⟨h1, g2, g3⟩
      · intro ⟨k1, k2, k3⟩
        rcases Nat.lt_trichotomy q q' with hlt | heq | hgt
        · exact absurd k2 (g3 q' hlt k1)
        · rw [heq]
        · exact absurd g2 (k3 q hgt h1)
    · constructor
      · intro hc; simp at hc
      · intro hc; exact absurd g2 (hc q h1)
  · rename_i hq
    rw [hq]
    have g : ∀ r, r ≤ pos → l[r]? ≠ some b := by
      intro r hr hc
      have := h r hr
      rw [(xor_not_eq b l r (by omega)).mpr hc] at this
      exact absurd this (by decide)
    constructor
    · intro q'
      constructor
      · intro he; simp at he
      · intro ⟨k1, k2, _⟩; exact absurd k2 (g q' k1)
    · simpa using g

example : IsPred true (List.replicate 3 true ++ List.replicate 130 false) 131 2 :=
  ⟨by decide, by decide, by
    intro r hr hr2
    rw [List.getElem?_append_right (by simp; omega), List.getElem?_replicate]
    split <;> simp⟩

/-- **C06.** If some position in `[pos, size)` holds `b`, `successor_b(pos)` is the smallest one. -/
theorem C06_successor (b : Bool) (l : List Bool) (pos q : Nat) (hp : pos < l.length)
    (hq : IsSucc b l pos q) : (BitVector.ofRange l).successorB b pos = some q := by
  have h := BitVector.successor_cases (!b) (BitVector.ofRange_rep l) pos hp
  rw [BitVector.successorB_eq]
  obtain ⟨k1, k2, k3⟩ := hq
  have hql : q < l.length := by
    by_contra hc
    rw [List.getElem?_eq_none (by omega)] at k2; simp at k2
  have k2' := (xor_not_eq b l q hql).mpr k2
  split at h
  · rename_i q' hq'
    obtain ⟨h1, h1', h2, h3⟩ := h
    rw [hq']
    rcases Nat.lt_trichotomy q q' with hlt | heq | hgt
    · rw [h3 q k1 hlt] at k2'; exact absurd k2' (by decide)
    · rw [heq]
    · exact absurd ((xor_not_eq b l q' (by omega)).mp h2) (k3 q' h1 hgt)
  · rename_i hn
    rw [h q k1 (by rw [wordsFor_eq]; omega)] at k2'
    exact absurd k2' (by decide)

/-- **C06.** Conversely, a returned position inside the vector is the right one, so an answer is
never wrong. -/
theorem C06_successor_sound (b : Bool) (l : List Bool) (pos q : Nat) (hp : pos < l.length)
    (hq : (BitVector.ofRange l).successorB b pos = some q) (hql : q < l.length) : IsSucc b l pos q := by
  have h := BitVector.successor_cases (!b) (BitVector.ofRange_rep l) pos hp
  rw [BitVector.successorB_eq] at hq
  rw [hq] at h
  obtain ⟨h1, h1', h2, h3⟩ := h
  refine ⟨h1, (xor_not_eq b l q hql).mp h2, ?_⟩
  intro r hr hr2 hc
  have := h3 r hr hr2
  rw [(xor_not_eq b l r (by omega)).mpr hc] at this
  exact absurd this (by decide)

/-- **C06.** If there is no later one, `successor1` runs off the end (failing assertion); if there
is no later zero, `successor0` either runs off the end or answers `size()`, a padding bit. -/
theorem C06_successor_absent (b : Bool) (l : List Bool) (pos : Nat) (hp : pos < l.length)
    (hno : ∀ r, pos ≤ r → l[r]? ≠ some b) :
    (BitVector.ofRange l).successorB b pos =
      if b = false ∧ l.length % 64 ≠ 0 then some l.length else none := by
  have h := BitVector.successor_cases (!b) (BitVector.ofRange_rep l) pos hp
  rw [BitVector.successorB_eq]
  have hno' : ∀ r, pos ≤ r → r < l.length → (!b ^^ bitFn l r) = false := by
    intro r hr hr2
    cases hc : (!b ^^ bitFn l r) with
    | false => rfl
    | true => exact absurd ((xor_not_eq b l r hr2).mp hc) (hno r hr)
  split at h
  · rename_i q hq
    obtain ⟨h1, h1', h2, h3⟩ := h
    rw [wordsFor_eq] at h1'
    have hql : l.length ≤ q := by
      by_contra hc
      rw [hno' q h1 (by omega)] at h2; exact absurd h2 (by decide)
    rw [hq]
    rw [bitFn_of_ge _ _ hql] at h2
    have hb : b = false := by cases b <;> simp_all
    subst hb
    have : q = l.length := by
      by_contra hc
      have := h3 l.length (by omega) (by omega)
      rw [bitFn_of_ge _ _ (Nat.le_refl _)] at this
      exact absurd this (by decide)
    rw [if_pos ⟨rfl, by omega⟩, this]
  · rename_i hn
    rw [hn]
    rw [if_neg]
    intro ⟨hb, h64⟩
    subst hb
    have := h l.length (by omega) (by rw [wordsFor_eq]; omega)
    rw [bitFn_of_ge _ _ (Nat.le_refl _)] at this
    exact absurd this (by decide)

example : IsSucc true (List.replicate 130 false ++ [true]) 1 130 :=
  ⟨by decide, by decide +kernel, by decide +kernel⟩
example : ∀ r, 64 ≤ r → (List.replicate 64 true ++ List.replicate 66 false)[r]? ≠ some true := by
  intro r hr
  rw [List.getElem?_append_right (by simpa using hr), List.getElem?_replicate]
  split <;> simp

end Succinct
