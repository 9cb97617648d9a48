import Verif.Lemmas.MachineBuilder
import Verif.Props.RSBitVector

/-!
# C74: arithmetic modulo `2^64` does not change an answer

`Verif/Model/Machine.lean` runs the code with wrapping 64-bit words for all sizes, positions and counts.  As long
as the bit sequence has at most `2^63` bits, every call has the result the specification asks for; for a query
this holds for every 64-bit argument, also where the computation with it wraps.

The property does not hold of every call of the builder: the theorems ending in `_false` give calls whose
arguments wrap and are not caught.
-/
namespace Succinct
open Spec
open Machine (W)
open RSBitVector (bind_pure_some)

/-- a history followed by the construction of the bit vector, in 64-bit arithmetic -/
def Machine.history (p : Prog) : Option Machine.BitVector := (Machine.Builder.run p).bind Machine.BitVector.ofBuilder

theorem Machine.history_eq (p : Prog) (l : List Bool) (h : p.spec = some l) (hr : p.ReserveAligned) (hl : l.length ≤ 2^63) :
    Machine.history p = some (Machine.BitVector.enc (BitVector.ofRange l)) := by
  obtain ⟨s, e, i⟩ := Builder.run_inv p l h hr
  obtain ⟨v, ev, hv⟩ := BitVector.ofBuilder_rep s l i
  have hs : s.size = l.length := i.size
  have hb : s.bits.length < 2^64 := by rw [i.len]; omega
  unfold Machine.history
  rw [Machine.Builder.run_eq p l h hr hl, e, Option.map_some, Option.bind_some,
    Machine.BitVector.ofBuilder_eq s (by omega) hb, ev, Option.map_some, BitVector.eq_ofRange hv]

/-- **C74**, the builder: every history of at most `2^63` bits produces exactly the specified bits. -/
theorem C74_builder (p : Prog) (l : List Bool) (h : p.spec = some l) (hr : p.ReserveAligned) (hl : l.length ≤ 2^63) :
    ∃ v, Machine.history p = some v ∧ v.size.toNat = l.length ∧ ∀ i : Word, v.access i = l[i.toNat]? := by
  obtain ⟨h1, h2⟩ := C02_range l
  refine ⟨_, Machine.history_eq p l h hr hl, ?_, fun i => ?_⟩
  · show (W (BitVector.ofRange l).size).toNat = _
    rw [Machine.W_toNat _ (by omega), h1]
  · rw [Machine.BitVector.access_eq _ (Machine.BitVector.Fits.of_rep (BitVector.ofRange_rep l) hl), h2]

/-- **C74**, `bit_vector`: the queries on a vector built by a history, for every 64-bit argument. -/
theorem C74_bit_vector (p : Prog) (l : List Bool) (h : p.spec = some l) (hr : p.ReserveAligned) (hl : l.length ≤ 2^63) :
    ∃ v, Machine.history p = some v ∧
      (∀ ov (pos len : Word), len.toNat ≤ 64 →
        (pos.toNat + len.toNat ≤ l.length → ∃ x, v.getBits ov pos len = some x ∧
          lowBits x len.toNat = (l.drop pos.toNat).take len.toNat ∧ x.toNat < 2^len.toNat) ∧
        (l.length < pos.toNat + len.toNat → v.getBits ov pos len = none)) ∧
      (∀ pos : Word, (pos.toNat < l.length → ∃ x, v.getWord pos = some x ∧
          wordBits x = (l.drop pos.toNat ++ List.replicate 64 false).take 64) ∧
        (l.length ≤ pos.toNat → v.getWord pos = none)) ∧
      (∀ b (pos : Word), pos.toNat < l.length →
        (∀ q, v.predecessor (!b) pos = some q ↔ IsPred b l pos.toNat q.toNat) ∧
        (∀ q : Word, IsSucc b l pos.toNat q.toNat → v.successor (!b) pos = some q) ∧
        (∀ q : Word, v.successor (!b) pos = some q → q.toNat < l.length → IsSucc b l pos.toNat q.toNat)) ∧
      (∀ b (pos : Word), l.length ≤ pos.toNat → v.predecessor b pos = none ∧ v.successor b pos = none) := by
  have hf := Machine.BitVector.Fits.of_rep (BitVector.ofRange_rep l) hl
  have hsz := (BitVector.ofRange_rep l).size
  refine ⟨_, Machine.history_eq p l h hr hl, fun ov pos len hlen => ⟨fun hp => ?_, fun hp => ?_⟩,
    fun pos => ⟨fun hp => ?_, fun hp => ?_⟩, fun b pos hp => ⟨fun q => ?_, fun q hq => ?_, fun q hq hql => ?_⟩, fun b pos hp => ⟨?_, ?_⟩⟩
  · rw [Machine.BitVector.getBits_eq ov _ hf pos len hlen]
    exact C03_get_bits ov l _ _ hlen hp
  · rw [Machine.BitVector.getBits_eq ov _ hf pos len hlen]
    exact C03_get_bits_pre ov l _ _ hp
  · rw [Machine.BitVector.getWord_eq _ hf pos]
    exact C04_get_word l _ hp
  · rw [Machine.BitVector.getWord_eq _ hf pos]
    unfold BitVector.getWord
    rw [assertP_none (by omega)]; rfl
  · rw [Machine.BitVector.predecessor_eq _ _ hf pos, ← BitVector.predecessorB_eq]
    obtain ⟨c1, _⟩ := C05_predecessor b l pos.toNat hp
    constructor
    · intro hq
      obtain ⟨r, hr1, hr2⟩ := Option.map_eq_some_iff.1 hq
      have hpr := (c1 r).1 hr1
      have hrl : r ≤ pos.toNat := hpr.1
      rw [← hr2, Machine.W_toNat _ (by omega)]; exact hpr
    · intro hq
      rw [(c1 _).2 hq, Option.map_some, Machine.W_of]
  · rw [Machine.BitVector.successor_eq _ _ hf pos, ← BitVector.successorB_eq, C06_successor b l _ _ hp hq, Option.map_some, Machine.W_of]
  · rw [Machine.BitVector.successor_eq _ _ hf pos, ← BitVector.successorB_eq] at hq
    obtain ⟨r, hr1, hr2⟩ := Option.map_eq_some_iff.1 hq
    have hrl : r ≤ l.length := by
      by_contra hc
      have hc' : ∀ r, pos.toNat ≤ r → l[r]? ≠ some b := by
        intro r' hr' hb
        have hr'l : r' < l.length := by
          by_contra hn
          rw [List.getElem?_eq_none (by omega)] at hb; simp at hb
        have := BitVector.successor_cases (!b) (BitVector.ofRange_rep l) pos.toNat hp
        rw [BitVector.successorB_eq] at hr1
        rw [hr1] at this
        have := this.2.2.2 r' hr' (by omega)
        rw [(xor_not_eq b l r' hr'l).mpr hb] at this
        exact absurd this (by decide)
      have habs := C06_successor_absent b l pos.toNat hp hc'
      rw [habs] at hr1
      split at hr1
      · obtain rfl := Option.some.inj hr1; omega
      · simp at hr1
    have hqr : q.toNat = r := by rw [← hr2, Machine.W_toNat _ (by omega)]
    rw [hqr] at hql ⊢
    exact C06_successor_sound b l _ _ hp hr1 hql
  · rw [Machine.BitVector.predecessor_eq _ _ hf pos]
    unfold BitVector.predecessor
    rw [assertP_none (by omega)]; rfl
  · rw [Machine.BitVector.successor_eq _ _ hf pos]
    unfold BitVector.successor
    rw [assertP_none (by omega)]; rfl

/-- **C74**, `rs_bit_vector`: construction and queries, for every 64-bit argument. -/
theorem C74_rs_bit_vector (p : Prog) (l : List Bool) (h : p.spec = some l) (hr : p.ReserveAligned) (hl : l.length ≤ 2^63)
    (a b : Bool) :
    ∃ bv v, Machine.history p = some bv ∧ Machine.RSBitVector.build bv a b = some v ∧
      v.numOnes.map BitVec.toNat = some (l.count true) ∧ v.numZeros.map BitVec.toNat = some (l.count false) ∧
      (∀ pos : Word, pos.toNat ≤ l.length → (v.rank pos).map BitVec.toNat = some (rank1 l pos.toNat) ∧
        (v.rank0 pos).map BitVec.toNat = some (rank0 l pos.toNat)) ∧
      (∀ pos : Word, l.length < pos.toNat → v.rank pos = none ∧ v.rank0 pos = none) ∧
      (∀ n : Word, n.toNat < l.count true → ∃ p, v.select n = some p ∧ IsSelect1 l n.toNat p.toNat) ∧
      (∀ n : Word, l.count true ≤ n.toNat → v.select n = none) ∧
      (∀ n : Word, n.toNat < l.count false → ∃ p, v.select0 n = some p ∧ IsSelect0 l n.toNat p.toNat) ∧
      (∀ n : Word, l.count false ≤ n.toNat → v.select0 n = none) := by
  obtain ⟨v, e, _, hi⟩ := RSBitVector.build_inv l a b
  obtain ⟨v1, e1, o1, o0, r1, r2⟩ := C14_rank l a b
  obtain ⟨v2, e2, s1, s2⟩ := C15_select l a b
  obtain ⟨v3, e3, z1, z2⟩ := C16_select0 l a b
  obtain rfl : v = v1 := Option.some.inj (e.symm.trans e1)
  obtain rfl : v = v2 := Option.some.inj (e.symm.trans e2)
  obtain rfl : v = v3 := Option.some.inj (e.symm.trans e3)
  have hcc := count_add_count l
  have hc := cnt_le (bitFn l) l.length
  have hce := count_eq_cnt l
  have hone : ∀ p b, l[p]? = some b → p < l.length := by
    intro p b hb
    by_contra hn
    rw [List.getElem?_eq_none (by omega)] at hb; simp at hb
  refine ⟨_, Machine.RSBitVector.enc v, Machine.history_eq p l h hr hl, ?_, ?_, ?_, fun pos hp => ⟨?_, ?_⟩, fun pos hp => ⟨?_, ?_⟩,
    fun n hn => ?_, fun n hn => ?_, fun n hn => ?_, fun n hn => ?_⟩
  · rw [Machine.RSBitVector.build_eq l hl, e]; rfl
  · rw [Machine.RSBitVector.numOnes_eq hi, Option.map_some, Machine.W_toNat _ (by omega), hce]
  · rw [Machine.RSBitVector.numZeros_eq hi, Option.map_some, Machine.W_toNat _ (by omega)]
    congr 1; omega
  · rw [Machine.RSBitVector.rank_eq hi hl, (r1 _ hp).1]
    have : rank1 l pos.toNat ≤ l.length := Nat.le_trans List.count_le_length (by rw [List.length_take]; omega)
    rw [Option.map_some, Option.map_some, Machine.W_toNat _ (by omega)]
  · rw [Machine.RSBitVector.rank0_eq hi hl, (r1 _ hp).2]
    have : rank0 l pos.toNat ≤ l.length := Nat.le_trans List.count_le_length (by rw [List.length_take]; omega)
    rw [Option.map_some, Option.map_some, Machine.W_toNat _ (by omega)]
  · rw [Machine.RSBitVector.rank_eq hi hl, r2 _ hp]; rfl
  · unfold Machine.RSBitVector.rank0
    rw [Machine.RSBitVector.rank_eq hi hl, r2 _ hp]; rfl
  · obtain ⟨q, q1, q2⟩ := s1 _ hn
    have := hone _ _ q2.1
    exact ⟨W q, by rw [Machine.RSBitVector.select_eq hi hl, q1]; rfl, by rw [Machine.W_toNat _ (by omega)]; exact q2⟩
  · rw [Machine.RSBitVector.select_eq hi hl, s2 _ hn]; rfl
  · obtain ⟨q, q1, q2⟩ := z1 _ hn
    have := hone _ _ q2.1
    exact ⟨W q, by rw [Machine.RSBitVector.select0_eq hi hl, q1]; rfl, by rw [Machine.W_toNat _ (by omega)]; exact q2⟩
  · rw [Machine.RSBitVector.select0_eq hi hl, z2 _ hn]; rfl

/-- a history with every kind of call, and the queries on it in 64-bit arithmetic -/
example : exampleProg.spec.map List.length = some 140 ∧ exampleProg.ReserveAligned ∧
    ((Machine.history exampleProg).map (·.size)) = some 140 ∧
    ((Machine.history exampleProg).bind fun v => v.getBits (fun _ _ => 77) 62 4) = some 5 ∧
    ((Machine.history exampleProg).bind fun v => v.getBits (fun _ _ => 77) (BitVec.allOnes 64) 4) = none ∧
    ((Machine.history exampleProg).bind fun v => v.access (BitVec.allOnes 64)) = none :=
  ⟨by decide +kernel, ⟨trivial, trivial⟩, by decide +kernel, by decide +kernel, by decide +kernel, by decide +kernel⟩

/-! ## calls that wrap unnoticed -/

/-- `bit_vector_builder(2^64 - 1)`: `words_for` wraps to 0, the vector is empty, and `&m_bits.back()` is taken of
the empty vector (`bit_vector.hpp:14-17,27-32`). -/
theorem C74_new_false : Machine.wordsFor (BitVec.allOnes 64) = 0 ∧ Machine.Builder.new (BitVec.allOnes 64) false = none := by
  decide +kernel

/-- `set_bits` checks `pos + len <= m_size` (`bit_vector.hpp:64`), which wraps: a position near `2^64` passes the
assertion and then addresses the vector out of bounds. -/
theorem C74_set_bits_false :
    ∃ (b : Machine.Builder) (pos len : Word), Machine.Builder.run (.new 8 true) = some b ∧
      b.size.toNat < pos.toNat + len.toNat ∧ pos + len ≤ b.size ∧
      Machine.at_ b.bits (pos / 64) = none ∧ b.setBits pos 0 len = none :=
  ⟨⟨[255], 8, some 0⟩, BitVec.allOnes 64, 8, by decide +kernel⟩

/-- `zero_extend` wraps `m_size` (`bit_vector.hpp:102`): extending a vector of two bits by `2^64 - 1` makes it one
bit shorter, and the vector with the surplus bit is accepted by `bit_vector`. -/
theorem C74_zero_extend_false :
    ∃ (b c : Machine.Builder) (v : Machine.BitVector), Machine.Builder.run (.new 2 true) = some b ∧ b.size = 2 ∧
      b.zeroExtend (BitVec.allOnes 64) = some c ∧ c.size = 1 ∧
      Machine.BitVector.ofBuilder c = some v ∧ v.getWord 0 = some 3 :=
  ⟨⟨[3], 2, some 0⟩, ⟨[3], 1, some 0⟩, ⟨1, [3]⟩, by decide +kernel⟩

end Succinct
