import Verif.Props.RSBitVector
import Verif.Props.Darray
import Verif.Props.EliasFano
import Verif.Props.Gamma

/-!
# C63: rank and select invert each other, and the structures that answer the same queries agree
-/
namespace Succinct
open Spec
open RSBitVector (bind_pure_some)

theorem isSelect1_lt {l : List Bool} {n p : Nat} (h : IsSelect1 l n p) : p < l.length ∧ n < l.count true := by
  have h1 := (List.getElem?_eq_some_iff.1 h.1)
  obtain ⟨h2, h3⟩ := h1
  refine ⟨h2, ?_⟩
  have e : l = l.take p ++ l[p] :: l.drop (p+1) := by rw [List.getElem_cons_drop, List.take_append_drop]
  rw [e, List.count_append, h3, List.count_cons_self]
  have := h.2; unfold rank1 at this; omega

theorem isSelect0_lt {l : List Bool} {n p : Nat} (h : IsSelect0 l n p) : p < l.length ∧ n < l.count false := by
  have h1 := (List.getElem?_eq_some_iff.1 h.1)
  obtain ⟨h2, h3⟩ := h1
  refine ⟨h2, ?_⟩
  have e : l = l.take p ++ l[p] :: l.drop (p+1) := by rw [List.getElem_cons_drop, List.take_append_drop]
  rw [e, List.count_append, h3, List.count_cons_self]
  have := h.2; unfold rank0 at this; omega

theorem le_sum_of_mem : ∀ {l : List Nat} {x : Nat}, x ∈ l → x ≤ l.sum
  | y :: l, x, h => by
    rw [List.sum_cons]
    rcases List.mem_cons.1 h with e | e
    · omega
    · have := le_sum_of_mem e; omega

theorem rank_succ {l : List Bool} {p : Nat} {b : Bool} (h : l[p]? = some b) :
    rank1 l (p+1) = rank1 l p + (if b then 1 else 0) ∧ rank0 l (p+1) = rank0 l p + (if b then 0 else 1) := by
  unfold rank1 rank0
  rw [List.take_add_one, h]
  cases b <;> simp

/-- **C63**, one structure: `select` and `rank` invert each other in both directions, for ones and zeros, and the
two ranks add up to the position. -/
theorem C63_inverse (l : List Bool) (a b : Bool) :
    ∃ v, RSBitVector.build (BitVector.ofRange l) a b = some v ∧
      (∀ n p, v.select n = some p → v.rank p = some n ∧ v.rank (p+1) = some (n+1) ∧ v.bv.access p = some true) ∧
      (∀ n p, v.select0 n = some p → v.rank0 p = some n ∧ v.rank0 (p+1) = some (n+1) ∧ v.bv.access p = some false) ∧
      (∀ p, v.bv.access p = some true → (v.rank p).bind v.select = some p) ∧
      (∀ p, v.bv.access p = some false → (v.rank0 p).bind v.select0 = some p) ∧
      (∀ p, p ≤ l.length → ∃ r r0, v.rank p = some r ∧ v.rank0 p = some r0 ∧ r + r0 = p) := by
  obtain ⟨v, e, h1, h2, h3, h4⟩ := C14_rank l a b
  obtain ⟨v', e', s1, s2⟩ := C15_select l a b
  obtain ⟨v'', e'', z1, z2⟩ := C16_select0 l a b
  obtain ⟨w, ew, eb, _⟩ := RSBitVector.build_inv l a b
  rw [e] at e' e'' ew
  cases e'; cases e''; cases ew
  have acc : ∀ p, p < l.length → v.bv.access p = some (bitFn l p) := fun p hp => by
    rw [eb]; exact BitVector.access_eq (BitVector.ofRange_rep l) p hp
  have accn : ∀ p c, v.bv.access p = some c → l[p]? = some c := by
    intro p c hc
    by_cases hp : p < l.length
    · rw [acc p hp] at hc
      cases hc
      unfold bitFn; rw [List.getD_eq_getElem?_getD, List.getElem?_eq_getElem hp]; rfl
    · rw [eb, BitVector.access_none (BitVector.ofRange_rep l) p (by omega)] at hc
      cases hc
  have sel : ∀ n p, v.select n = some p → IsSelect1 l n p := by
    intro n p hp
    rcases Nat.lt_or_ge n (l.count true) with hn | hn
    · obtain ⟨q, q1, q2⟩ := s1 n hn
      rw [hp] at q1; cases q1; exact q2
    · rw [s2 n hn] at hp; cases hp
  have sel0 : ∀ n p, v.select0 n = some p → IsSelect0 l n p := by
    intro n p hp
    rcases Nat.lt_or_ge n (l.count false) with hn | hn
    · obtain ⟨q, q1, q2⟩ := z1 n hn
      rw [hp] at q1; cases q1; exact q2
    · rw [z2 n hn] at hp; cases hp
  refine ⟨v, e, fun n p hp => ?_, fun n p hp => ?_, fun p hp => ?_, fun p hp => ?_, fun p hp => ?_⟩
  · have hs := sel n p hp
    have hlt := (isSelect1_lt hs).1
    refine ⟨by rw [(h3 p (by omega)).1, hs.2], by rw [(h3 (p+1) (by omega)).1, (rank_succ hs.1).1, hs.2]; rfl, ?_⟩
    rw [acc p hlt, (bitFn_eq_true l p).2 hs.1]
  · have hs := sel0 n p hp
    have hlt := (isSelect0_lt hs).1
    refine ⟨by rw [(h3 p (by omega)).2, hs.2], by rw [(h3 (p+1) (by omega)).2, (rank_succ hs.1).2, hs.2]; rfl, ?_⟩
    rw [acc p hlt]
    unfold bitFn; rw [List.getD_eq_getElem?_getD, hs.1]; rfl
  · have hb := accn p true hp
    have hlt := (List.getElem?_eq_some_iff.1 hb).1
    rw [(h3 p (by omega)).1, Option.bind_some]
    obtain ⟨q, q1, q2⟩ := s1 _ (isSelect1_lt (n := rank1 l p) ⟨hb, rfl⟩).2
    rw [q1, isSelect1_unique q2 ⟨hb, rfl⟩]
  · have hb := accn p false hp
    have hlt := (List.getElem?_eq_some_iff.1 hb).1
    rw [(h3 p (by omega)).2, Option.bind_some]
    obtain ⟨q, q1, q2⟩ := z1 _ (isSelect0_lt (n := rank0 l p) ⟨hb, rfl⟩).2
    rw [q1, isSelect0_unique q2 ⟨hb, rfl⟩]
  · refine ⟨_, _, (h3 p hp).1, (h3 p hp).2, ?_⟩
    have := count_add_count (l.take p)
    rw [List.length_take, Nat.min_eq_left hp] at this
    unfold rank1 rank0; omega

/-- **C63**, `darray1`/`darray0` against `rs_bit_vector`: the same answer for every index, in and out of range. -/
theorem C63_darray (l : List Bool) (a b : Bool) :
    ∃ v d1 d0, RSBitVector.build (BitVector.ofRange l) a b = some v ∧
      Darray.build false (BitVector.ofRange l) = some d1 ∧ Darray.build true (BitVector.ofRange l) = some d0 ∧
      (∀ n, d1.select false (BitVector.ofRange l) n = v.select n) ∧ (∀ n, d0.select true (BitVector.ofRange l) n = v.select0 n) ∧
      v.numOnes = some d1.positions ∧ v.numZeros = some d0.positions := by
  obtain ⟨v, e, h1, h2, _⟩ := C14_rank l a b
  obtain ⟨v', e', s1, s2⟩ := C15_select l a b
  obtain ⟨v'', e'', z1, z2⟩ := C16_select0 l a b
  rw [e] at e' e''
  cases e'; cases e''
  obtain ⟨d1, ed1, n1, g1, g2⟩ := C18_darray1 l
  obtain ⟨d0, ed0, n0, f1, f2⟩ := C18_darray0 l
  refine ⟨v, d1, d0, e, ed1, ed0, fun n => ?_, fun n => ?_, by rw [h1, n1], by rw [h2, n0]⟩
  · rcases Nat.lt_or_ge n (l.count true) with hn | hn
    · obtain ⟨p, p1, p2⟩ := g1 n hn
      obtain ⟨q, q1, q2⟩ := s1 n hn
      rw [p1, q1, isSelect1_unique p2 q2]
    · rw [g2 n hn, s2 n hn]
  · rcases Nat.lt_or_ge n (l.count false) with hn | hn
    · obtain ⟨p, p1, p2⟩ := f1 n hn
      obtain ⟨q, q1, q2⟩ := z1 n hn
      rw [p1, q1, isSelect0_unique p2 q2]
    · rw [f2 n hn, z2 n hn]

/-- **C63**, `elias_fano` against `rs_bit_vector`: for every bitmap and builder history, the same ranks, selects and bits. -/
theorem C63_elias_fano (p : Prog) (l : List Bool) (hp : p.spec = some l) (hr : p.ReserveAligned) (hl : l.length < 2^62) (a b : Bool) :
    ∃ v ef, RSBitVector.build (BitVector.ofRange l) a b = some v ∧ (Builder.run p).bind (fun b => EliasFano.ofBitmap b true) = some ef ∧
      v.numOnes = some ef.numOnes ∧ ∀ ov,
      (∀ i, i < l.length → ef.access ov (BitVec.ofNat 64 i) = v.bv.access i) ∧
      (∀ i, i ≤ l.length → ef.rank ov (BitVec.ofNat 64 i) = v.rank i) ∧
      (∀ k, k < l.count true → (ef.select ov k).map BitVec.toNat = v.select k) := by
  obtain ⟨v, e, h1, _, h3, _⟩ := C14_rank l a b
  obtain ⟨v', e', s1, s2⟩ := C15_select l a b
  obtain ⟨w, ew, eb, _⟩ := RSBitVector.build_inv l a b
  rw [e] at e' ew
  cases e'; cases ew
  obtain ⟨ef, ee, g1, g2, g3⟩ := C25_bitmap p l hp hr hl
  refine ⟨v, ef, e, ee, by rw [h1, g2], fun ov => ?_⟩
  obtain ⟨k1, k2, k3, _, _⟩ := g3 ov
  refine ⟨fun i hi => ?_, fun i hi => by rw [k2 i hi, (h3 i hi).1], fun k hk => ?_⟩
  · rw [k1 i hi, eb, BitVector.access_eq (BitVector.ofRange_rep l) i hi]
    unfold bitFn; rw [List.getD_eq_getElem?_getD, List.getElem?_eq_getElem hi]; rfl
  · obtain ⟨x, x1, x2⟩ := k3 k hk
    obtain ⟨q, q1, q2⟩ := s1 k hk
    rw [x1, q1, ← isSelect1_unique x2 q2]; rfl

/-- **C63**, the four containers of integers: built from the same list, within the limits of all four, they hold the same values. -/
theorem C63_lists (v : List Word) (hs : (v.map BitVec.toNat).sum < 2^64 - 2) (hl : v.length < 2^57) :
    ∃ e c g h, EFList.build v = some e ∧ EFCompressedList.build v = some c ∧ GammaVector.build v = some g ∧ GammaBitVector.build v = some h ∧
      c.size = some e.size ∧ g.size = some e.size ∧ h.size = some e.size ∧
      ∀ ov i, i < e.size → ∃ x, e.get ov i = some x ∧ c.get ov i = some x ∧ GammaVector.get ov g i = some x ∧ GammaBitVector.get ov h i = some x := by
  have hx : ∀ x ∈ v, x.toNat < 2^64 - 2 := fun x hx => Nat.lt_of_le_of_lt (le_sum_of_mem (List.mem_map_of_mem hx)) hs
  have hx' : ∀ x ∈ v, x ≠ BitVec.allOnes 64 := by
    rintro x hm rfl
    have := hx _ hm
    rw [BitVec.toNat_allOnes] at this; omega
  obtain ⟨e, e1, e2, _, e3⟩ := C26_list v (by omega) (by omega)
  obtain ⟨c, c1, c2, c3⟩ := C27_compressed_list v hx' hl
  obtain ⟨g, g1, g2, g3⟩ := C28_gamma_vector v hx'
  obtain ⟨h, h1, h2, h3⟩ := C29_gamma_bit_vector v hx
  refine ⟨e, c, g, h, e1, c1, g1, h1, by rw [c2, e2], by rw [g2, e2], by rw [h2, e2], fun ov i hi => ?_⟩
  rw [e2] at hi
  exact ⟨v[i], by rw [e3 ov i hi, List.getElem?_eq_getElem hi], by rw [c3 ov i hi, List.getElem?_eq_getElem hi],
    by rw [g3 ov i hi, List.getElem?_eq_getElem hi], by rw [h3 ov i hi, List.getElem?_eq_getElem hi]⟩

/-- a list meeting the hypotheses of `C63_lists`, and a bitmap with both kinds of bits -/
example : ((([5, 0, 1000000, 3] : List Word)).map BitVec.toNat).sum < 2^64 - 2 := by decide
example : ((RSBitVector.build (BitVector.ofRange [true, false, false, true]) true true).bind fun v => (v.select 1).bind v.rank) = some 1 := by decide +kernel

end Succinct
