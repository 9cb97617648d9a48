import Verif.Lemmas.RSBitVector

/-! # C14–C17: `rs_bit_vector` -/
namespace Succinct
open Spec

/-- **C14.** For every bit sequence and every choice of hint tables, construction succeeds and rank,
rank0, num_ones and num_zeros are exact; beyond the end `rank` fails its assertion. -/
theorem C14_rank (l : List Bool) (a b : Bool) :
    ∃ v, RSBitVector.build (BitVector.ofRange l) a b = some v ∧
      v.numOnes = some (l.count true) ∧ v.numZeros = some (l.count false) ∧
      (∀ pos, pos ≤ l.length → v.rank pos = some (rank1 l pos) ∧ v.rank0 pos = some (rank0 l pos)) ∧
      (∀ pos, l.length < pos → v.rank pos = none) := by
  obtain ⟨v, e, eb, h⟩ := RSBitVector.build_inv l a b
  have hc := count_add_count l
  refine ⟨v, e, ?_, ?_, ?_, ?_⟩
  · rw [RSBitVector.numOnes_eq h, count_eq_cnt]
  · rw [RSBitVector.numZeros_eq h, ← count_eq_cnt]; congr 1; omega
  · intro pos hp
    have hr := RSBitVector.rank_eq h pos hp
    refine ⟨by rw [hr, rank1_eq_cnt], ?_⟩
    unfold RSBitVector.rank0
    rw [hr, RSBitVector.bind_pure_some, subU_eq _ _ (cnt_le _ _), rank0_eq l pos hp, rank1_eq_cnt]
  · intro pos hp
    unfold RSBitVector.rank assertP
    rw [if_neg (by rw [h.rep.size]; omega)]; rfl

/-- **C15.** `select(n)` returns the position of the `n`-th one whenever there is one, with or without
hints; otherwise the assertion of the source fails. -/
theorem C15_select (l : List Bool) (a b : Bool) :
    ∃ v, RSBitVector.build (BitVector.ofRange l) a b = some v ∧
      (∀ n, n < l.count true → ∃ p, v.select n = some p ∧ IsSelect1 l n p) ∧
      (∀ n, l.count true ≤ n → v.select n = none) := by
  obtain ⟨v, e, eb, h⟩ := RSBitVector.build_inv l a b
  refine ⟨v, e, ?_, ?_⟩
  · intro n hn
    rw [count_eq_cnt] at hn
    obtain ⟨p, h1, h2, h3⟩ := RSBitVector.select_eq h n hn
    exact ⟨p, h1, (isSelect1_iff l n p).2 ⟨h2, h3⟩⟩
  · intro n hn
    rw [count_eq_cnt] at hn
    unfold RSBitVector.select
    rw [RSBitVector.numOnes_eq h, RSBitVector.bind_pure_some]
    unfold assertP
    rw [if_neg (by omega)]; rfl

/-- **C16.** `select0(n)` returns the position of the `n`-th zero whenever there is one. -/
theorem C16_select0 (l : List Bool) (a b : Bool) :
    ∃ v, RSBitVector.build (BitVector.ofRange l) a b = some v ∧
      (∀ n, n < l.count false → ∃ p, v.select0 n = some p ∧ IsSelect0 l n p) ∧
      (∀ n, l.count false ≤ n → v.select0 n = none) := by
  obtain ⟨v, e, eb, h⟩ := RSBitVector.build_inv l a b
  have hc := count_add_count l
  have he := count_eq_cnt l
  refine ⟨v, e, ?_, ?_⟩
  · intro n hn
    obtain ⟨p, h1, h2, h3, h4⟩ := RSBitVector.select0_eq h n (by omega)
    exact ⟨p, h1, (isSelect0_iff l n p).2 ⟨h2, h3, by rw [← cnt_not]; exact h4⟩⟩
  · intro n hn
    unfold RSBitVector.select0
    rw [RSBitVector.numZeros_eq h, RSBitVector.bind_pure_some]
    unfold assertP
    rw [if_neg (by omega)]; rfl

theorem isSelect1_unique {l : List Bool} {n p q : Nat} (hp : IsSelect1 l n p) (hq : IsSelect1 l n q) : p = q := by
  rw [isSelect1_iff] at hp hq
  exact sel_unique hp.1 hq.1 (hp.2.trans hq.2.symm)

theorem isSelect0_unique {l : List Bool} {n p q : Nat} (hp : IsSelect0 l n p) (hq : IsSelect0 l n q) : p = q := by
  rw [isSelect0_iff] at hp hq
  refine sel_unique (f := fun i => !bitFn l i) (by simp [hp.2.1]) (by simp [hq.2.1]) ?_
  rw [cnt_not, cnt_not, hp.2.2, hq.2.2]

/-- **C17.** The hint tables never change an answer: objects built from the same bits with any two
choices of hint flags agree on every call, including the calls that fail an assertion. -/
theorem C17_hints_irrelevant (l : List Bool) (a b a' b' : Bool) :
    ∃ v w, RSBitVector.build (BitVector.ofRange l) a b = some v ∧
      RSBitVector.build (BitVector.ofRange l) a' b' = some w ∧
      (∀ n, v.select n = w.select n) ∧ (∀ n, v.select0 n = w.select0 n) ∧
      (∀ pos, v.rank pos = w.rank pos) ∧ v.numOnes = w.numOnes := by
  obtain ⟨v, ev, s1, s2⟩ := C15_select l a b
  obtain ⟨w, ew, t1, t2⟩ := C15_select l a' b'
  obtain ⟨v', ev', z1, z2⟩ := C16_select0 l a b
  obtain ⟨w', ew', y1, y2⟩ := C16_select0 l a' b'
  obtain ⟨v'', ev'', o1, _, r1, r2⟩ := C14_rank l a b
  obtain ⟨w'', ew'', o2, _, q1, q2⟩ := C14_rank l a' b'
  obtain rfl : v = v' := Option.some.inj (ev.symm.trans ev')
  obtain rfl : v = v'' := Option.some.inj (ev.symm.trans ev'')
  obtain rfl : w = w' := Option.some.inj (ew.symm.trans ew')
  obtain rfl : w = w'' := Option.some.inj (ew.symm.trans ew'')
  refine ⟨v, w, ev, ew, ?_, ?_, ?_, o1.trans o2.symm⟩
  · intro n
    rcases Nat.lt_or_ge n (l.count true) with h | h
    · obtain ⟨p, e1, i1⟩ := s1 n h
      obtain ⟨q, e2, i2⟩ := t1 n h
      rw [e1, e2, isSelect1_unique i1 i2]
    · rw [s2 n h, t2 n h]
  · intro n
    rcases Nat.lt_or_ge n (l.count false) with h | h
    · obtain ⟨p, e1, i1⟩ := z1 n h
      obtain ⟨q, e2, i2⟩ := y1 n h
      rw [e1, e2, isSelect0_unique i1 i2]
    · rw [z2 n h, y2 n h]
  · intro pos
    rcases Nat.lt_or_ge l.length pos with h | h
    · rw [r2 pos h, q2 pos h]
    · rw [(r1 pos h).1, (q1 pos h).1]

/-- 1300 bits: three blocks, the last one incomplete, with ones and zeros on both sides of every
block boundary -/
def exampleBits : List Bool := (List.range 1300).map fun i => i % 3 == 0 || i % 7 == 0

/- the queries at and around the block boundary, computed by the model -/
example : (RSBitVector.build (BitVector.ofRange exampleBits) true true).bind (fun v => v.rank 512) = some 220 := by
  decide +kernel
example : (RSBitVector.build (BitVector.ofRange exampleBits) true true).bind (fun v => v.select 219) = some 511 := by
  decide +kernel
example : (RSBitVector.build (BitVector.ofRange exampleBits) false true).bind (fun v => v.select 220) = some 513 := by
  decide +kernel
example : (RSBitVector.build (BitVector.ofRange exampleBits) true true).bind (fun v => v.select0 741) = some 1298 := by
  decide +kernel
/- more than one hint: 3000 ones need two entries before the sentinel -/
example : (RSBitVector.build (BitVector.ofRange (List.replicate 3000 true)) true true).map (fun v => v.hints)
    = some [2, 4, 6] := by decide +kernel
example : (RSBitVector.build (BitVector.ofRange (List.replicate 3000 true)) true true).bind (fun v => v.select 2048)
    = some 2048 := by decide +kernel

end Succinct
