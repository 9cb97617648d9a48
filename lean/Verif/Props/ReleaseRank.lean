import Verif.Lemmas.ReleaseDarray64
import Verif.Lemmas.ReleaseEF
import Verif.Lemmas.ReleaseRSSelect
import Verif.Props.MachineEF

/-!
# C102: the queries of the bit vectors and of the sparse sequences when assertions are compiled out

`Verif/Model/ReleaseRank.lean` holds the code of a build with `NDEBUG`.  No answer is the outcome of undefined
behaviour: an access outside an array, a shift by 64 or more, or a loop that does not stop.

A call whose preconditions hold has the same answer as in a checked build.  The theorems below say what the other
calls do: on a `bit_vector` they treat the zeros that fill the last word as part of the sequence; on the other
structures an answer, where there is one, is still the right one.  The exceptions are the theorems ending in
`_false`.
-/
namespace Succinct
open Spec
open Machine (W)
open RSBitVector (bind_pure_some)

/-- **C102**: an answer of the checked code is the answer of the code without assertions, whatever the objects hold. -/
theorem C102_same_answers :
    (∀ (v : Machine.BitVector) (pos : Word),
      (∀ r, v.access pos = some r → Release.bvAccess v pos = some r) ∧
      (∀ r, v.getWord pos = some r → Release.bvGetWord v pos = some r) ∧
      (∀ ov len r, v.getBits ov pos len = some r → Release.bvGetBits ov v pos len = some r) ∧
      (∀ neg r, v.predecessor neg pos = some r → Release.bvPredecessor neg v pos = some r) ∧
      (∀ neg r, v.successor neg pos = some r → Release.bvSuccessor neg v pos = some r)) ∧
    (∀ (v : Machine.RSBitVector) (n : Word),
      (∀ r, v.rank n = some r → Release.rank v n = some r) ∧ (∀ r, v.rank0 n = some r → Release.rank0 v n = some r) ∧
      (∀ r, v.select n = some r → Release.rsSelect v n = some r) ∧ (∀ r, v.select0 n = some r → Release.rsSelect0 v n = some r)) ∧
    (∀ (neg : Bool) (d : Machine.Darray) (bv : Machine.BitVector) (i r : Word), d.select neg bv i = some r → Release.daSelect neg d bv i = some r) ∧
    (∀ (d : Machine.Darray64) (i r : Word), d.select i = some r → Release.da64Select d i = some r) ∧
    (∀ (ov : Word → Nat → Word) (ef : Machine.EliasFano) (n : Word),
      (∀ r, ef.select ov n = some r → Release.efSelect ov ef n = some r) ∧ (∀ r, ef.access ov n = some r → Release.efAccess ov ef n = some r) ∧
      (∀ r, ef.rank ov n = some r → Release.efRank ov ef n = some r) ∧ (∀ r, ef.delta ov n = some r → Release.efDelta ov ef n = some r) ∧
      (∀ r, ef.selectRange ov n = some r → Release.efSelectRange ov ef n = some r) ∧
      (∀ r, ef.predecessor1 ov n = some r → Release.efPredecessor1 ov ef n = some r) ∧
      (∀ r, ef.successor1 ov n = some r → Release.efSuccessor1 ov ef n = some r)) :=
  ⟨fun v pos => ⟨Release.bvAccess_below v pos, Release.bvGetWord_below v pos, fun ov len => Release.bvGetBits_below ov v pos len,
      fun neg => Release.bvPredecessor_below neg v pos, fun neg => Release.bvSuccessor_below neg v pos⟩,
    fun v n => ⟨Release.rank_below v n, Release.rank0_below v n, Release.rsSelect_below v n, Release.rsSelect0_below v n⟩,
    fun neg d bv i => Release.daSelect_below neg d bv i, fun d i => Release.da64Select_below d i,
    fun ov ef n => ⟨Release.efSelect_below ov ef n, Release.efAccess_below ov ef n, Release.efRank_below ov ef n, Release.efDelta_below ov ef n,
      Release.efSelectRange_below ov ef n, Release.efPredecessor1_below ov ef n, Release.efSuccessor1_below ov ef n⟩⟩

/-- **C102**, `bit_vector`: for every 64-bit argument the queries answer as if the vector held `padded l`. -/
theorem C102_bit_vector (p : Prog) (l : List Bool) (h : p.spec = some l) (hr : p.ReserveAligned) (hl : l.length ≤ 2^63) :
    ∃ v, Machine.history p = some v ∧
      (∀ pos : Word, Release.bvAccess v pos = (padded l)[pos.toNat]?) ∧
      (∀ ov (pos len : Word), 1 ≤ len.toNat → len.toNat ≤ 64 →
        (pos.toNat + len.toNat ≤ (padded l).length → ∃ x, Release.bvGetBits ov v pos len = some x ∧
          lowBits x len.toNat = ((padded l).drop pos.toNat).take len.toNat ∧ x.toNat < 2^len.toNat) ∧
        ((padded l).length < pos.toNat + len.toNat → Release.bvGetBits ov v pos len = none)) ∧
      (∀ ov (pos : Word), Release.bvGetBits ov v pos 0 = some 0) ∧
      (∀ pos : Word, (pos.toNat < (padded l).length → ∃ x, Release.bvGetWord v pos = some x ∧
          wordBits x = ((padded l).drop pos.toNat ++ List.replicate 64 false).take 64) ∧
        ((padded l).length ≤ pos.toNat → Release.bvGetWord v pos = none)) ∧
      (∀ b (pos q : Word), Release.bvPredecessor (!b) v pos = some q ↔ pos.toNat < (padded l).length ∧ IsPred b (padded l) pos.toNat q.toNat) ∧
      (∀ b (pos q : Word), Release.bvSuccessor (!b) v pos = some q ↔ IsSucc b (padded l) pos.toNat q.toNat) := by
  have hpl := Release.padded_length l
  have hlen := (BitVector.ofRange_rep l).len
  have hv : (Machine.BitVector.enc (BitVector.ofRange l)).bits.length ≤ 2^57 := by
    show (BitVector.ofRange l).bits.length ≤ _; omega
  have hs : (Prog.zeroExtend p ((64 - l.length % 64) % 64)).spec = some (padded l) := by
    rw [Prog.spec, h, bind_pure_some]; rfl
  have hr' : (Prog.zeroExtend p ((64 - l.length % 64) % 64)).ReserveAligned := hr
  have hl' : (padded l).length ≤ 2^63 := by omega
  obtain ⟨v1, e1, _, a⟩ := C74_builder _ _ hs hr' hl'
  obtain ⟨v2, e2, g, w, ps, _⟩ := C74_bit_vector _ _ hs hr' hl'
  rw [Machine.history_eq _ _ hs hr' hl', Release.enc_padded] at e1 e2
  obtain rfl := Option.some.inj e1
  obtain rfl := Option.some.inj e2
  have hf := Machine.BitVector.Fits.of_rep (BitVector.ofRange_rep (padded l)) hl'
  have hsz := (BitVector.ofRange_rep (padded l)).size
  refine ⟨_, Machine.history_eq p l h hr hl, fun pos => ?_, fun ov pos len h1 h2 => ?_, fun ov pos => by rw [Release.bvGetBits, if_pos rfl],
    fun pos => ?_, fun b pos q => ?_, fun b pos q => ?_⟩
  · rw [Release.bvAccess_whole _ hv, a]
  · rw [Release.bvGetBits_whole _ hv _ _ _ (by rintro rfl; exact absurd h1 (by decide)) h2]
    exact g ov pos len h2
  · rw [Release.bvGetWord_whole _ hv]
    exact w pos
  · rw [Release.bvPredecessor_whole _ hv]
    by_cases hp : pos.toNat < (padded l).length
    · rw [(ps b pos hp).1 q]
      exact ⟨fun hq => ⟨hp, hq⟩, fun hq => hq.2⟩
    · constructor
      · intro hq
        rw [← Release.enc_padded, Machine.BitVector.predecessor_eq _ _ hf] at hq
        unfold BitVector.predecessor at hq
        rw [assertP_none (by omega)] at hq
        cases hq
      · intro hq; omega
  · rw [Release.bvSuccessor_whole _ hv]
    by_cases hp : pos.toNat < (padded l).length
    · refine ⟨fun hq => ?_, (ps b pos hp).2.1 q⟩
      refine (ps b pos hp).2.2 q hq ?_
      rw [← Release.enc_padded, Machine.BitVector.successor_eq _ _ hf, ← BitVector.successorB_eq] at hq
      obtain ⟨r, hr1, hr2⟩ := Option.map_eq_some_iff.1 hq
      by_cases hc : ∀ r, pos.toNat ≤ r → (padded l)[r]? ≠ some b
      · rw [C06_successor_absent b _ _ hp hc, if_neg (by omega)] at hr1
        cases hr1
      · have : r < (padded l).length := by
          by_contra hn
          refine hc fun r' hr' hb => ?_
          obtain ⟨hr'l, _⟩ := List.getElem?_eq_some_iff.1 hb
          have := BitVector.successor_cases (!b) (BitVector.ofRange_rep (padded l)) pos.toNat hp
          rw [BitVector.successorB_eq] at hr1
          rw [hr1] at this
          have := this.2.2.2 r' hr' (by omega)
          rw [(xor_not_eq b _ r' hr'l).mpr hb] at this
          exact absurd this (by decide)
        rw [← hr2, Machine.W_toNat _ (by omega)]
        exact this
    · constructor
      · intro hq
        rw [← Release.enc_padded, Machine.BitVector.successor_eq _ _ hf] at hq
        unfold BitVector.successor at hq
        rw [assertP_none (by omega)] at hq
        cases hq
      · intro hq
        obtain ⟨q1, q2, _⟩ := hq
        obtain ⟨q3, _⟩ := List.getElem?_eq_some_iff.1 q2
        omega

/-- five bits, so the last word holds 59 more zeros: reading there is not noticed, reading the next word is undefined -/
example : (Machine.history (.new 5 true)).bind (fun v => Release.bvAccess v 5) = some false ∧
    (Machine.history (.new 5 true)).bind (fun v => Release.bvAccess v 64) = none ∧
    (Machine.history (.new 5 true)).bind (fun v => v.access 5) = none ∧
    (Machine.history (.new 5 true)).bind (fun v => Release.bvGetBits (fun _ _ => 0) v 3 10) = some 3 ∧
    (Machine.history (.new 5 true)).bind (fun v => Release.bvSuccessor true v 2) = some 5 ∧
    (Machine.history (.new 5 true)).bind (fun v => Release.bvPredecessor false v 63) = some 4 ∧
    (padded (List.replicate 5 true)).length = 64 := by
  decide +kernel

/-- **C102**, `rs_bit_vector`.  `rank` answers exactly where it reads inside its arrays, and the answer is the number
of ones below the position.  `select` answers exactly when there is such a one, for numbers below `2^56`.  `select0`
takes the zeros that fill the last word for zeros of the sequence. -/
theorem C102_rs_bit_vector (p : Prog) (l : List Bool) (h : p.spec = some l) (hr : p.ReserveAligned) (hl : l.length ≤ 2^63) (a b : Bool) :
    ∃ bv v, Machine.history p = some bv ∧ Machine.RSBitVector.build bv a b = some v ∧
      (∀ pos : Word, (Release.rank v pos).map BitVec.toNat =
        if pos.toNat / 512 ≤ ((l.length + 63) / 64 + 7) / 8 ∧ (pos.toNat % 64 = 0 ∨ pos.toNat / 64 < (l.length + 63) / 64)
        then some (rank1 l pos.toNat) else none) ∧
      (∀ pos : Word, (Release.rank0 v pos).map BitVec.toNat = (Release.rank v pos).map fun r => pos.toNat - r.toNat) ∧
      (∀ n q : Word, n.toNat < 2^56 → (Release.rsSelect v n = some q ↔ IsSelect1 l n.toNat q.toNat)) ∧
      (∀ n : Word, n.toNat < l.count true → ∃ q, Release.rsSelect v n = some q ∧ IsSelect1 l n.toNat q.toNat) ∧
      (∀ n q : Word, n.toNat < 2^56 → Release.rsSelect0 v n = some q → IsSelect0 (padded l) n.toNat q.toNat) ∧
      (∀ n : Word, n.toNat < l.count false → ∃ q, Release.rsSelect0 v n = some q ∧ IsSelect0 l n.toNat q.toNat) := by
  obtain ⟨v, e, _, hi⟩ := RSBitVector.build_inv l a b
  obtain ⟨bv, v', e1, e2, _, _, _, _, s1, _, s0, _⟩ := C74_rs_bit_vector p l h hr hl a b
  have e1' := e1
  rw [Machine.history_eq p l h hr hl] at e1'
  obtain rfl := Option.some.inj e1'
  have e2' := e2
  rw [Machine.RSBitVector.build_eq l hl, e] at e2'
  obtain rfl := Option.some.inj e2'
  change Machine.RSBitVector.build _ a b = some (Machine.RSBitVector.enc v) at e2
  replace s1 : ∀ n : Word, n.toNat < l.count true →
      ∃ p, Machine.RSBitVector.select (Machine.RSBitVector.enc v) n = some p ∧ IsSelect1 l n.toNat p.toNat := s1
  replace s0 : ∀ n : Word, n.toNat < l.count false →
      ∃ p, Machine.RSBitVector.select0 (Machine.RSBitVector.enc v) n = some p ∧ IsSelect0 l n.toNat p.toNat := s0
  have hrep := hi.rep
  have hlen := hrep.len
  have hpl := Release.padded_length l
  have hcnt : ∀ pos : Nat, (W (cnt (bitFn l) pos)).toNat = cnt (bitFn l) pos := by
    intro pos
    rw [← rank1_eq_cnt]
    have : rank1 l pos ≤ l.length := Nat.le_trans List.count_le_length (by rw [List.length_take]; omega)
    exact Machine.W_toNat _ (by omega)
  have hS1 : ∀ n : Word, n.toNat < l.count true → ∃ q, Release.rsSelect (Machine.RSBitVector.enc v) n = some q ∧ IsSelect1 l n.toNat q.toNat := by
    intro n hn
    obtain ⟨q, q1, q2⟩ := s1 n hn
    exact ⟨q, Release.rsSelect_below _ _ _ q1, q2⟩
  have hS0 : ∀ n : Word, n.toNat < l.count false → ∃ q, Release.rsSelect0 (Machine.RSBitVector.enc v) n = some q ∧ IsSelect0 l n.toNat q.toNat := by
    intro n hn
    obtain ⟨q, q1, q2⟩ := s0 n hn
    exact ⟨q, Release.rsSelect0_below _ _ _ q1, q2⟩
  have hone : ∀ n q : Nat, IsSelect1 l n q → n < l.count true := by
    intro n q hq
    obtain ⟨h1, h2⟩ := (isSelect1_iff _ _ _).1 hq
    obtain ⟨h3, _⟩ := List.getElem?_eq_some_iff.1 hq.1
    rw [count_eq_cnt]
    have h4 := cnt_succ (bitFn l) q
    rw [h1] at h4
    have h5 := cnt_mono (bitFn l) (show q + 1 ≤ l.length by omega)
    simp at h4
    omega
  have huniq : ∀ n q r : Nat, IsSelect1 l n q → IsSelect1 l n r → q = r := by
    intro n q r hq hr
    obtain ⟨h1, h2⟩ := (isSelect1_iff _ _ _).1 hq
    obtain ⟨h3, h4⟩ := (isSelect1_iff _ _ _).1 hr
    exact sel_unique h1 h3 (by omega)
  refine ⟨_, _, e1, e2, fun pos => ?_, fun pos => ?_, fun n q hn => ⟨fun hq => ?_, fun hq => ?_⟩, hS1, fun n q hn hq => ?_, hS0⟩
  · rw [Release.rank_release hi hl, hlen, rank1_eq_cnt]
    by_cases hc : Release.RankDefined ((l.length + 63) / 64) pos.toNat
    · rw [if_pos hc, if_pos (by exact hc), Option.map_some, hcnt]
    · rw [if_neg hc, if_neg (by exact hc)]; rfl
  · unfold Release.rank0
    rw [Release.rank_release hi hl]
    by_cases hc : Release.RankDefined v.bv.bits.length pos.toNat
    · rw [if_pos hc, bind_pure_some]
      have := cnt_le (bitFn l) pos.toNat
      rw [Option.pure_def, Option.map_some, Option.map_some, Machine.toNat_sub_le _ _ (by rw [hcnt]; omega)]
    · rw [if_neg hc]; rfl
  · by_cases hc : n.toNat < l.count true
    · obtain ⟨r, r1, r2⟩ := hS1 n hc
      rw [r1] at hq
      rw [← Option.some.inj hq]; exact r2
    · rw [Release.rsSelect_none hi hl n (by omega) hn] at hq
      cases hq
  · obtain ⟨r, r1, r2⟩ := hS1 n (hone _ _ hq)
    rw [r1, BitVec.eq_of_toNat_eq (huniq _ _ _ hq r2)]
  · rw [isSelect0_iff, Release.bitFn_padded]
    by_cases hc : n.toNat < l.count false
    · obtain ⟨r, r1, r2⟩ := hS0 n hc
      rw [r1] at hq
      rw [← Option.some.inj hq]
      obtain ⟨t1, t2, t3⟩ := (isSelect0_iff _ _ _).1 r2
      exact ⟨by omega, t2, t3⟩
    · obtain ⟨t1, t2, t3⟩ := Release.rsSelect0_sound hi hl n q (by omega) hn hq
      rw [cnt_not] at t3
      exact ⟨by omega, t2, t3⟩

/-- five ones: a position in the padding, a later boundary of blocks, and a zero that is padding -/
example :
    ((Machine.history (.new 5 true)).bind fun bv => (Machine.RSBitVector.build bv false true).bind fun v => Release.rank v 9) = some 5 ∧
    ((Machine.history (.new 5 true)).bind fun bv => (Machine.RSBitVector.build bv false true).bind fun v => Release.rank v 512) = some 5 ∧
    ((Machine.history (.new 5 true)).bind fun bv => (Machine.RSBitVector.build bv false true).bind fun v => Release.rank v 65) = none ∧
    ((Machine.history (.new 5 true)).bind fun bv => (Machine.RSBitVector.build bv false true).bind fun v => Release.rsSelect v 4) = some 4 ∧
    ((Machine.history (.new 5 true)).bind fun bv => (Machine.RSBitVector.build bv false true).bind fun v => Release.rsSelect v 5) = none ∧
    ((Machine.history (.new 5 true)).bind fun bv => (Machine.RSBitVector.build bv false true).bind fun v => v.select0 0) = none ∧
    ((Machine.history (.new 5 true)).bind fun bv => (Machine.RSBitVector.build bv false true).bind fun v => Release.rsSelect0 v 2) = some 7 := by
  decide +kernel

/-- `select(2^56)` of a vector with eight ones answers 0 when `assert(n < num_ones())` (`rs_bit_vector.hpp:73`) is
compiled out: `select_in_word` spreads the number over eight bytes with a multiplication, and its low byte is 0. -/
theorem C102_select_false :
    ∃ bv v, Machine.history (.new 8 true) = some bv ∧ Machine.RSBitVector.build bv false false = some v ∧
      v.numOnes = some 8 ∧ v.select (2^56) = none ∧ Release.rsSelect v (2^56) = some 0 ∧ Release.rsSelect v (2^56 + 3) = some 3 :=
  ⟨⟨8, [255]⟩, ⟨⟨8, [255]⟩, [0, 144397213884223496, 8, 0], [], []⟩, by decide +kernel⟩

/-- **C102**, `darray1` and `darray0`: no number of a missing one is answered; `darray0` takes the zeros that fill
the last word for zeros of the sequence. -/
theorem C102_darray (p : Prog) (l : List Bool) (h : p.spec = some l) (hr : p.ReserveAligned) (hl : l.length ≤ 2^63) :
    ∃ bv d1 d0, Machine.history p = some bv ∧ Machine.Darray.build false bv = some d1 ∧ Machine.Darray.build true bv = some d0 ∧
      (∀ i q : Word, Release.daSelect false d1 bv i = some q ↔ IsSelect1 l i.toNat q.toNat) ∧
      (∀ i q : Word, Release.daSelect true d0 bv i = some q → IsSelect0 (padded l) i.toNat q.toNat) ∧
      (∀ i : Word, i.toNat < l.count false → ∃ q, Release.daSelect true d0 bv i = some q ∧ IsSelect0 l i.toNat q.toNat) := by
  have hrep := BitVector.ofRange_rep l
  have hpl := Release.padded_length l
  have hlen := hrep.len
  obtain ⟨d1, e1, m1, _⟩ := Machine.EliasFano.darray_build false hrep hl
  obtain ⟨d0, e0, m0, _⟩ := Machine.EliasFano.darray_build true hrep hl
  obtain ⟨bv, f1, f0, a1, a2, a3, _, _, s1, _, s0, _⟩ := C75_darray p l h hr hl
  have a1' := a1
  rw [Machine.history_eq p l h hr hl] at a1'
  obtain rfl := Option.some.inj a1'
  obtain rfl := Option.some.inj (m1.symm.trans a2)
  obtain rfl := Option.some.inj (m0.symm.trans a3)
  refine ⟨_, _, _, a1, m1, m0, fun i q => ⟨fun hq => ?_, fun hq => ?_⟩, fun i q hq => ?_, fun i hi => ?_⟩
  · obtain ⟨t1, t2, t3⟩ := Release.daSelect_sound hrep hl false d1 e1 i q hq
    simp only [Bool.xor_false] at t2 t3
    exact (isSelect1_iff _ _ _).2 ⟨t2, t3⟩
  · obtain ⟨t1, t2⟩ := (isSelect1_iff _ _ _).1 hq
    have hi : i.toNat < l.count true := by
      obtain ⟨h3, _⟩ := List.getElem?_eq_some_iff.1 hq.1
      have h4 := cnt_succ (bitFn l) q.toNat
      rw [t1] at h4
      have h5 := cnt_mono (bitFn l) (show q.toNat + 1 ≤ l.length by omega)
      simp at h4
      rw [count_eq_cnt]; omega
    obtain ⟨r, r1, r2⟩ := s1 i hi
    obtain ⟨t3, t4⟩ := (isSelect1_iff _ _ _).1 r2
    rw [Release.daSelect_below _ _ _ _ _ r1, BitVec.eq_of_toNat_eq (sel_unique t3 t1 (by omega))]
  · obtain ⟨t1, t2, t3⟩ := Release.daSelect_sound hrep hl true d0 e0 i q hq
    simp only [Bool.xor_true] at t2 t3
    rw [cnt_not] at t3
    rw [isSelect0_iff, Release.bitFn_padded]
    exact ⟨by omega, by simpa using t2, t3⟩
  · obtain ⟨r, r1, r2⟩ := s0 i hi
    exact ⟨r, Release.daSelect_below _ _ _ _ _ r1, r2⟩

/-- a vector `11101`: one zero, and a second one that is padding -/
example :
    ((Machine.history (.appendBits (.new 3 true) 2 2)).bind fun bv => (Machine.Darray.build true bv).bind fun d => Release.daSelect true d bv 0) = some 3 ∧
    ((Machine.history (.appendBits (.new 3 true) 2 2)).bind fun bv => (Machine.Darray.build true bv).bind fun d => d.select true bv 1) = none ∧
    ((Machine.history (.appendBits (.new 3 true) 2 2)).bind fun bv => (Machine.Darray.build true bv).bind fun d => Release.daSelect true d bv 1) = some 5 ∧
    ((Machine.history (.appendBits (.new 3 true) 2 2)).bind fun bv => (Machine.Darray.build false bv).bind fun d => Release.daSelect false d bv 3) = some 4 ∧
    ((Machine.history (.appendBits (.new 3 true) 2 2)).bind fun bv => (Machine.Darray.build false bv).bind fun d => Release.daSelect false d bv 4) = none := by
  decide +kernel

/-- **C102**, `darray64`. -/
theorem C102_darray64 (ks : List Word) (hks : ∀ k ∈ ks, k.toNat ≤ 64) (hl : (unary (ks.map BitVec.toNat)).length ≤ 2^63) :
    ∃ b d, (Machine.Darray64.new.bind fun b0 => ks.foldlM Machine.Darray64.append1 b0) = some b ∧ Machine.Darray64.ofBuilder b = some d ∧
      ∀ i q : Word, Release.da64Select d i = some q ↔ IsSelect1 (unary (ks.map BitVec.toNat)) i.toNat q.toNat := by
  obtain ⟨b, e1, e2, g, hns, hblk, hsub⟩ := Release.da64_build ks hks hl
  refine ⟨_, _, e1, e2, fun i q => ?_⟩
  rw [Release.da64Select_eq b _ g hns hl hblk hsub]
  have hlt : ∀ j, j < (ks.map BitVec.toNat).length → (W (onePos (ks.map BitVec.toNat) j)).toNat = onePos (ks.map BitVec.toNat) j := by
    intro j hj
    obtain ⟨hq, _⟩ := List.getElem?_eq_some_iff.1 (isSelect1_onePos _ _ hj).1
    exact Machine.W_toNat _ (by omega)
  constructor
  · intro hq
    by_cases hi : i.toNat < (ks.map BitVec.toNat).length
    · rw [if_pos hi] at hq
      rw [← Option.some.inj hq, hlt _ hi]
      exact isSelect1_onePos _ _ hi
    · rw [if_neg hi] at hq; cases hq
  · intro hq
    have hone : (unary (ks.map BitVec.toNat)).count true = (ks.map BitVec.toNat).length := unary_count _
    obtain ⟨t1, t2⟩ := (isSelect1_iff _ _ _).1 hq
    have hi : i.toNat < (ks.map BitVec.toNat).length := by
      obtain ⟨h3, _⟩ := List.getElem?_eq_some_iff.1 hq.1
      have h4 := cnt_succ (bitFn (unary (ks.map BitVec.toNat))) q.toNat
      rw [t1] at h4
      have h5 := cnt_mono (bitFn (unary (ks.map BitVec.toNat))) (show q.toNat + 1 ≤ (unary (ks.map BitVec.toNat)).length by omega)
      simp at h4
      rw [← hone, count_eq_cnt]; omega
    rw [if_pos hi]
    obtain ⟨t3, t4⟩ := (isSelect1_iff _ _ _).1 (isSelect1_onePos _ _ hi)
    rw [sel_unique t3 t1 (by omega), Machine.W_of]

example : ((Machine.Darray64.new.bind fun b0 => [3, 0, 64, 5].foldlM Machine.Darray64.append1 b0).bind Machine.Darray64.ofBuilder).bind
      (fun d => Release.da64Select d 2) = some 69 ∧
    ((Machine.Darray64.new.bind fun b0 => [3, 0, 64, 5].foldlM Machine.Darray64.append1 b0).bind Machine.Darray64.ofBuilder).bind
      (fun d => Release.da64Select d 4) = none := by decide +kernel

/-- **C102**, `elias_fano`: `select`, `delta` and `select_range` answer exactly the numbers of stored values;
`rank` and `access` may answer beyond the universe, and then the answer is that of the sequence. -/
theorem C102_elias_fano (n : Word) (m : Nat) (xs : List Word) (h : Storable n m xs) (hm : m ≤ 2^61) (h0 : m = 0 → n.toNat + 2 ≤ 2^63) :
    ∃ ef, Machine.EliasFano.ofSeq n (W m) xs true = some ef ∧ ∀ ov,
      (∀ k : Word, Release.efSelect ov ef k = xs[k.toNat]?) ∧
      (∀ pos, pos < n → (Release.efRank ov ef pos).map BitVec.toNat = some (xs.countP (· < pos)) ∧
        Release.efAccess ov ef pos = some (decide (pos ∈ xs))) ∧
      (Release.efRank ov ef n).map BitVec.toNat = some xs.length ∧
      (∀ pos r, n < pos → Release.efRank ov ef pos = some r → r.toNat = xs.countP (· < pos)) ∧
      (∀ pos r, Release.efAccess ov ef pos = some r → r = decide (pos ∈ xs)) ∧
      (∀ x, xs[0]? = some x → Release.efDelta ov ef 0 = some x) ∧
      (∀ (k : Word) x y, xs[k.toNat]? = some x → xs[k.toNat + 1]? = some y →
        Release.efDelta ov ef (k + 1) = some (y - x) ∧ Release.efSelectRange ov ef k = some (x, y)) ∧
      (∀ k : Word, xs.length ≤ k.toNat → Release.efDelta ov ef k = none) ∧
      (∀ k : Word, xs.length ≤ k.toNat + 1 → Release.efSelectRange ov ef k = none) := by
  obtain ⟨ef, hb, e, g, r, em, s⟩ := Machine.EliasFano.ofSeq_eq n m xs h hm h0 true
  have b := Release.ofSeq_built e
  have hx := Machine.EliasFano.xs_le s g
  obtain ⟨ef', e', _, _, q⟩ := C75_elias_fano n m xs h hm h0
  obtain rfl := Option.some.inj (em.symm.trans e')
  refine ⟨_, em, fun ov => ?_⟩
  obtain ⟨_, c2, c3, _, _, c4, c5, _, _⟩ := q ov
  have up : ∀ (x y : Option Word) k, Release.Below x y → x.map BitVec.toNat = some k → y.map BitVec.toNat = some k := by
    intro x y k hxy hk
    obtain ⟨z, z1, z2⟩ := Option.map_eq_some_iff.1 hk
    rw [hxy z z1, Option.map_some, z2]
  refine ⟨Release.efSelect_word ov s g b, fun pos hp => ⟨?_, ?_⟩, ?_, fun pos r hp hr => ?_, fun pos r hr => ?_, fun x hx => ?_,
    fun k x y hkx hky => ?_, fun k hk => Release.efDelta_none ov s g b.d1 k hk, fun k hk => Release.efSelectRange_none ov s g b.d1 k hk⟩
  · exact up _ _ _ (Release.efRank_below ov _ _) (c2 pos hp).1
  · exact Release.efAccess_below ov _ _ _ (c2 pos hp).2
  · exact up _ _ _ (Release.efRank_below ov _ _) c3
  · have hc := List.countP_le_length (l := xs) (p := fun x => decide (x < pos))
    rw [Release.efRank_sound ov s g b pos r (by rintro rfl; exact absurd (BitVec.lt_def.1 hp) (by omega)) hr, Machine.W_toNat _ (by omega)]
  · exact Release.efAccess_sound ov s g b pos r hr
  · exact Release.efDelta_below ov _ _ _ (c4 x hx)
  · exact ⟨Release.efDelta_below ov _ _ _ (c5 k x y hkx hky).1, Release.efSelectRange_below ov _ _ _ (c5 k x y hkx hky).2.2⟩

/-- **C102**, `predecessor1` and `successor1` of `elias_fano`, for values below the universe. -/
theorem C102_pred_succ (n : Word) (m : Nat) (xs : List Word) (h : Storable n m xs) (hm : m ≤ 2^61) (h0 : m = 0 → n.toNat + 2 ≤ 2^63)
    (hlt : ∀ x ∈ xs, x < n) :
    ∃ ef, Machine.EliasFano.ofSeq n (W m) xs true = some ef ∧ ∀ ov pos,
      (∀ y, Release.efSuccessor1 ov ef pos = some y ↔ y ∈ xs ∧ pos ≤ y ∧ ∀ x ∈ xs, pos ≤ x → y ≤ x) ∧
      (∀ y, Release.efPredecessor1 ov ef pos = some y → y ∈ xs ∧ y ≤ pos ∧ ∀ x ∈ xs, x ≤ pos → x ≤ y) ∧
      (pos < n → (∃ x ∈ xs, x ≤ pos) → ∃ y, Release.efPredecessor1 ov ef pos = some y) := by
  obtain ⟨ef, hb, e, g, r, em, s⟩ := Machine.EliasFano.ofSeq_eq n m xs h hm h0 true
  have b := Release.ofSeq_built e
  obtain ⟨ef', e', q⟩ := C75_pred_succ n m xs h hm h0 hlt
  obtain rfl := Option.some.inj (em.symm.trans e')
  refine ⟨_, em, fun ov pos => ?_⟩
  obtain ⟨q1, _, q2, _⟩ := q ov pos
  refine ⟨fun y => ⟨Release.efSuccessor1_sound ov s g b pos y, fun ⟨y1, y2, y3⟩ => ?_⟩, Release.efPredecessor1_sound ov s g b hlt pos, fun hp hex => ?_⟩
  · have hyn := hlt y y1
    obtain ⟨z, z1, z2, z3, z4⟩ := q2 (BitVec.lt_def.2 (by have := BitVec.lt_def.1 hyn; have := BitVec.le_def.1 y2; omega)) ⟨y, y1, y2⟩
    rw [Release.efSuccessor1_below ov _ _ _ z1]
    congr 1
    have a1 := BitVec.le_def.1 (z4 y y1 y2)
    have a2 := BitVec.le_def.1 (y3 z z2 z3)
    exact BitVec.eq_of_toNat_eq (by omega)
  · obtain ⟨y, y1, _⟩ := q1 hp hex
    exact ⟨y, Release.efPredecessor1_below ov _ _ _ y1⟩

/-- beyond the universe 31: `rank(40)` and `access(40)` are answered, `rank(4000)` reads outside an array -/
example : (Machine.EliasFano.ofSeq 31 6 [5, 5, 17, 29, 29, 30] true).bind (fun ef => Release.efRank (fun _ _ => 0) ef 40) = some 6 ∧
    (Machine.EliasFano.ofSeq 31 6 [5, 5, 17, 29, 29, 30] true).bind (fun ef => ef.rank (fun _ _ => 0) 40) = none ∧
    (Machine.EliasFano.ofSeq 31 6 [5, 5, 17, 29, 29, 30] true).bind (fun ef => Release.efAccess (fun _ _ => 0) ef 40) = some false ∧
    (Machine.EliasFano.ofSeq 31 6 [5, 5, 17, 29, 29, 30] true).bind (fun ef => Release.efRank (fun _ _ => 0) ef 4000) = none ∧
    (Machine.EliasFano.ofSeq 31 6 [5, 5, 17, 29, 29, 30] true).bind (fun ef => Release.efSelect (fun _ _ => 0) ef 6) = none ∧
    (Machine.EliasFano.ofSeq 31 6 [5, 5, 17, 29, 29, 30] true).bind (fun ef => Release.efPredecessor1 (fun _ _ => 0) ef 4) = none ∧
    (Machine.EliasFano.ofSeq 31 6 [5, 5, 17, 29, 29, 30] true).bind (fun ef => Release.efPredecessor1 (fun _ _ => 0) ef 50) = some 30 := by
  decide +kernel

end Succinct
