import Verif.Spec.UnaryActual
import Verif.Lemmas.Enumerator

/-! `unary_enumerator` for every history. -/
namespace Succinct
open Spec Broadword
namespace UEnum
variable {bits : List Word} {l : List Bool}

theorem nextLoop_exists (fuel : Nat) : ∀ (position : Nat) (buf : Word) r, nextLoop bits fuel position buf = some r →
    ∃ i, seen false bits (position/64) buf i = true := by
  induction fuel with
  | zero =>
    intro position buf r h
    unfold nextLoop at h
    cases hb : lsb buf with
    | none => rw [hb] at h; cases h
    | some x =>
      obtain ⟨h1, h2, _⟩ := (lsb_some _ _).1 hb
      exact ⟨x, by unfold seen; rw [if_pos h1]; exact h2⟩
  | succ fuel ih =>
    intro position buf r h
    unfold nextLoop at h
    cases hb : lsb buf with
    | none =>
      rw [hb] at h
      simp only [] at h
      by_cases hW : position/64 + 1 < bits.length
      · rw [show (position + 64)/64 = position/64 + 1 by omega, rd_eq _ _ hW] at h
        obtain ⟨i, hi⟩ := ih _ _ _ h
        rw [show (position + 64)/64 = position/64 + 1 by omega] at hi
        have := seen_next (bits := bits) false (position/64) buf i hW
        simp only [Bool.false_eq_true, if_false] at this
        exact ⟨64 + i, by rw [← this]; exact hi⟩
      · unfold rd at h
        rw [show (position + 64)/64 = position/64 + 1 by omega, List.getElem?_eq_none (by omega)] at h
        cases h
    | some x =>
      obtain ⟨h1, h2, _⟩ := (lsb_some _ _).1 hb
      exact ⟨x, by unfold seen; rw [if_pos h1]; exact h2⟩

theorem skipLoop_exists (neg : Bool) (k : Nat) (fuel : Nat) : ∀ (position skipped : Nat) (buf : Word) r,
    skipLoop neg bits k fuel position skipped buf = some r → position/64 < bits.length →
    ∃ n, k < skipped + cnt (seen neg bits (position/64) buf) n ∧ 64 * (position/64) + n ≤ 64 * bits.length := by
  induction fuel with
  | zero =>
    intro position skipped buf r h hp
    unfold skipLoop at h
    simp only [] at h
    split at h
    · cases h
    · rename_i hc
      exact ⟨64, by rw [cnt_seen64, ← popcount_eq]; omega, by omega⟩
  | succ fuel ih =>
    intro position skipped buf r h hp
    unfold skipLoop at h
    simp only [] at h
    split at h
    · by_cases hW : position/64 + 1 < bits.length
      · rw [show (position + 64)/64 = position/64 + 1 by omega, rd_eq _ _ hW] at h
        obtain ⟨n, h1, h2⟩ := ih _ _ _ _ h (by omega)
        rw [show (position + 64)/64 = position/64 + 1 by omega] at h1 h2
        refine ⟨64 + n, ?_, by omega⟩
        rw [cnt_add, cnt_seen64, ← popcount_eq]
        have e : cnt (fun i => seen neg bits (position/64) buf (64 + i)) n =
            cnt (seen neg bits (position/64+1) (if neg = true then ~~~bits[position/64+1] else bits[position/64+1])) n :=
          cnt_congr fun i _ => (seen_next (bits := bits) neg (position/64) buf i hW).symm
        rw [e]; omega
      · unfold rd at h
        rw [show (position + 64)/64 = position/64 + 1 by omega, List.getElem?_eq_none (by omega)] at h
        cases h
    · rename_i hc
      exact ⟨64, by rw [cnt_seen64, ← popcount_eq]; omega, by omega⟩

theorem set_bit (l : List Bool) (p i : Nat) : bitFn (l.set p false) i = (bitFn l i && decide (i ≠ p)) := by
  unfold bitFn
  rw [List.getD_eq_getElem?_getD, List.getD_eq_getElem?_getD, List.getElem?_set]
  by_cases hi : p = i
  · rw [if_pos hi]; subst hi; simp; split <;> rfl
  · rw [if_neg hi]; have : i ≠ p := fun h => hi h.symm
    simp [this]

/-- standing at `p`; `t` tells whether the one there is consumed -/
structure St (bits : List Word) (l : List Bool) (e : UEnum) (p : Nat) (t : Bool) : Prop where
  pos : e.position = p
  lt : p < l.length
  good : Good l e (p + t.toNat)

/-- the list in which `skip0` looks for zeros -/
def view (l : List Bool) (p : Nat) (t : Bool) : List Bool := if t then l.set p false else l

theorem view_length (l : List Bool) (p : Nat) (t : Bool) : (view l p t).length = l.length := by
  unfold view; split <;> simp

theorem view_bit (l : List Bool) (p : Nat) (t : Bool) (i : Nat) : bitFn (view l p t) i = (bitFn l i && !(t && decide (i = p))) := by
  unfold view
  cases t with
  | false => simp
  | true => rw [if_pos rfl, set_bit]; simp

theorem view_good {e : UEnum} {p : Nat} {t : Bool} (h : St bits l e p t) : Good (view l p t) e p := by
  have hp := h.pos
  refine ⟨by omega, by omega, fun i hi => ?_⟩
  rw [h.good.buf i hi, view_bit]
  cases t with
  | false => simp
  | true =>
    simp only [Bool.toNat_true]
    by_cases h1 : p + 1 ≤ 64*(e.position/64) + i
    · have h2 : p ≤ 64*(e.position/64) + i := by omega
      have h3 : 64*(e.position/64) + i ≠ p := by omega
      simp [h1, h2, h3]
    · by_cases h3 : 64*(e.position/64) + i = p
      · simp [h3]
      · have h2 : ¬ p ≤ 64*(e.position/64) + i := by omega
        simp [h1, h2]

theorem good_of_view {e : UEnum} {p q : Nat} {t : Bool} (hq : e.position = q) (hpq : p ≤ q) (h : Good (view l p t) e q) :
    Good l e (q + (t && q == p).toNat) := by
  cases ht : (t && q == p) with
  | false =>
    refine ⟨h.lo, h.hi, fun i hi => ?_⟩
    rw [h.buf i hi, view_bit]
    simp only [Bool.toNat_false, Nat.add_zero]
    by_cases h1 : q ≤ 64*(e.position/64) + i
    · have : (t && decide (64*(e.position/64) + i = p)) = false := by
        cases t with
        | false => rfl
        | true =>
          have : q ≠ p := by simpa using ht
          have : 64*(e.position/64) + i ≠ p := by omega
          simp [this]
      rw [this]; simp
    · simp [h1]
  | true =>
    simp only [Bool.and_eq_true, beq_iff_eq] at ht
    obtain ⟨rfl, rfl⟩ := ht
    refine ⟨by omega, by simp only [Bool.toNat_true]; omega, fun i hi => ?_⟩
    rw [h.buf i hi, view_bit]
    simp only [Bool.toNat_true]
    by_cases h1 : q + 1 ≤ 64*(e.position/64) + i
    · have h2 : q ≤ 64*(e.position/64) + i := by omega
      have h3 : 64*(e.position/64) + i ≠ q := by omega
      simp [h1, h2, h3]
    · by_cases h3 : 64*(e.position/64) + i = q
      · simp [h3]
      · have h2 : ¬ q ≤ 64*(e.position/64) + i := by omega
        simp [h1, h2]

theorem rank0_view (l : List Bool) (p : Nat) (t : Bool) (hp : p < l.length) : rank0 (view l p t) p = rank0 l p := by
  rw [rank0_eq_cnt _ _ (by rw [view_length]; omega), rank0_eq_cnt _ _ (by omega)]
  apply cnt_congr; intro i hi; rw [view_bit]; have : i ≠ p := by omega
  simp [this]

variable (hr : Repr bits l) (hl : l.length = 64 * bits.length)
include hr

theorem next_succ {e : UEnum} {p : Nat} {t : Bool} (h : St bits l e p t) (r) (hn : next bits e = some r) : ∃ q, IsSucc true l (p + t.toNat) q := by
  have hp := h.pos
  unfold next at hn
  simp only [Option.bind_eq_bind, Option.bind_eq_some_iff] at hn
  obtain ⟨x, hx, _⟩ := hn
  obtain ⟨i, hi⟩ := nextLoop_exists _ _ _ _ hx
  rw [seen_good hr h.good, Bool.and_eq_true, decide_eq_true_eq] at hi
  have hc : 0 < cnt (fun j => bitFn l (p + t.toNat + j)) (64*(e.position/64)+i - (p + t.toNat) + 1) := by
    refine Nat.lt_of_le_of_lt (Nat.zero_le _) (cnt_lt_of_true (a := 64*(e.position/64)+i - (p + t.toNat)) (by omega) ?_)
    rw [show p + t.toNat + (64*(e.position/64)+i - (p + t.toNat)) = 64*(e.position/64)+i by omega]; exact hi.2
  obtain ⟨q, _, q2, q3⟩ := sel_exists hc
  refine ⟨p + t.toNat + q, by omega, (bitFn_eq_true _ _).1 q2, fun s h1 h2 hs => ?_⟩
  have := cnt_lt_of_true (f := fun j => bitFn l (p + t.toNat + j)) (a := s - (p + t.toNat)) (b := q) (by omega) (by
    rw [show p + t.toNat + (s - (p + t.toNat)) = s by omega]; exact (bitFn_eq_true _ _).2 hs)
  omega

include hl

theorem skip_sel {e : UEnum} {p k : Nat} {t : Bool} (h : St bits l e p t) (r) (hn : skipLoop false bits k bits.length e.position 0 e.buf = some r) :
    ∃ q, p + t.toNat ≤ q ∧ IsSelect1 l (rank1 l (p + t.toNat) + k) q := by
  have hp := h.pos
  have hlt := h.lt
  obtain ⟨n, h1, h2⟩ := skipLoop_exists _ _ _ _ _ _ _ hn (by omega)
  obtain ⟨i, i1, i2, i3⟩ := sel_exists (show k < cnt (seen false bits (e.position/64) e.buf) n by omega)
  have hseen : seen false bits (e.position/64) e.buf = fun i => (decide (p + t.toNat ≤ 64*(e.position/64)+i) && bitFn l (64*(e.position/64)+i)) := by
    funext i; exact seen_good hr h.good i
  rw [hseen] at i2 i3
  simp only [Bool.and_eq_true, decide_eq_true_eq] at i2
  have := cnt_from (bitFn l) (64*(e.position/64)) (p + t.toNat) i h.good.lo i2.1
  refine ⟨64*(e.position/64)+i, i2.1, ?_⟩
  rw [isSelect1_iff, rank1_eq_cnt]
  exact ⟨i2.2, by omega⟩

theorem skip0_sel {e : UEnum} {p k : Nat} {t : Bool} (h : St bits l e p t) (r) (hn : skip0 bits e k = some r) :
    ∃ q, p ≤ q ∧ IsSelect0 (view l p t) (rank0 l p + k) q := by
  have hp := h.pos
  have hlt := h.lt
  have hg := view_good h
  unfold skip0 at hn
  simp only [Option.bind_eq_bind, Option.bind_eq_some_iff] at hn
  obtain ⟨m, hm, x, hx, _⟩ := hn
  rw [shl_eq _ _ (by omega)] at hm
  obtain rfl := Option.some.inj hm
  obtain ⟨n, h1, h2⟩ := skipLoop_exists _ _ _ _ _ _ _ hx (by omega)
  obtain ⟨i, i1, i2, i3⟩ := sel_exists (show k < cnt (seen true bits (e.position/64) (~~~e.buf &&& BitVec.allOnes 64 <<< (e.position%64))) n by omega)
  subst hp
  have hseen : seen true bits (e.position/64) (~~~e.buf &&& BitVec.allOnes 64 <<< (e.position%64)) =
      fun i => (decide (e.position ≤ 64*(e.position/64)+i) && (fun p => !bitFn (view l e.position t) p) (64*(e.position/64)+i)) := by
    funext i
    unfold seen
    by_cases hi : i < 64
    · rw [if_pos hi, BitVec.getLsbD_and, BitVec.getLsbD_not, allOnes_shl_bit _ _ hi, hg.buf i hi]
      by_cases h1 : e.position ≤ 64*(e.position/64)+i
      · have a1 : e.position % 64 ≤ i := by omega
        simp [hi, h1, a1]
      · have a1 : ¬ e.position % 64 ≤ i := by omega
        simp [h1, a1]
    · have a1 : e.position ≤ 64*(e.position/64)+i := by omega
      have a2 : 64*(e.position/64)+i ≠ e.position := by omega
      rw [if_neg hi, hr.bit]; simp [view_bit, a1, a2]
  rw [hseen] at i2 i3
  simp only [Bool.and_eq_true, decide_eq_true_eq] at i2
  have := cnt_from (fun p => !bitFn (view l e.position t) p) (64*(e.position/64)) e.position i (by omega) i2.1
  have i4 : 64*(e.position/64)+i < (view l e.position t).length := by rw [view_length]; omega
  refine ⟨64*(e.position/64)+i, i2.1, ?_⟩
  rw [isSelect0_iff, ← rank0_view l e.position t hlt, rank0_eq_cnt _ _ (by omega), ← cnt_not]
  refine ⟨i4, by simpa using i2.2, ?_⟩
  simp only [] at this i3
  omega

theorem step_some {e : UEnum} {p : Nat} {t : Bool} (h : St bits l e p t) (op : UnaryOp) (o : Option Nat) (p' : Nat) (t' : Bool)
    (hs : UnaryAct l p t op o p' t') : ∃ e', step bits e op = some (o, e') ∧ St bits l e' p' t' := by
  cases hs with
  | next hq =>
    obtain ⟨e', k1, k2, k3⟩ := next_good' hr e _ _ h.good hq
    exact ⟨e', by simp only [step, k1]; rfl, k3, bitFn_lt l _ ((bitFn_eq_true _ _).2 hq.2.1), k2⟩
  | skip hc hq =>
    obtain ⟨e', k1, k2, k3⟩ := skip_good hr e _ _ _ h.good hc hq
    exact ⟨e', by simp only [step, k1]; rfl, k3, bitFn_lt l _ ((bitFn_eq_true _ _).2 hq.1), k2⟩
  | skipNoMove hc hq =>
    exact ⟨e, by simp only [step, skipNoMove_good hr e _ _ _ h.good hc hq]; rfl, h⟩
  | @skip0 k _ hc hq =>
    have hp := h.pos
    have hq' : IsSelect0 (view l p t) (rank0 (view l p t) p + k) p' := by rw [rank0_view l p t h.lt]; exact hq
    obtain ⟨e', k1, k2, k3⟩ := skip0_gen (bits := bits) (l := view l p t) (by rw [view_length]; omega) e p k p' (fun i hi => by
      have : i ≠ p := by omega
      rw [hr.bit, view_bit]; simp [this]) (view_good h) h.pos hc hq'
    have hlt := ((isSelect0_iff _ _ _).1 hq').1
    rw [view_length] at hlt
    exact ⟨e', by simp only [step, k1]; rfl, k3, hlt, good_of_view k3 hc k2⟩

theorem step_none {e : UEnum} {p : Nat} {t : Bool} (h : St bits l e p t) (op : UnaryOp) (r) (hs : step bits e op = some r) :
    ∃ o p' t', UnaryAct l p t op o p' t' := by
  cases op with
  | next =>
    unfold step at hs
    simp only [Option.bind_eq_bind, Option.bind_eq_some_iff] at hs
    obtain ⟨x, hx, _⟩ := hs
    obtain ⟨q, hq⟩ := next_succ hr h _ hx
    exact ⟨_, _, _, .next hq⟩
  | skip k =>
    unfold step skip at hs
    simp only [Option.bind_eq_bind, Option.bind_eq_some_iff] at hs
    obtain ⟨_, ⟨y, hy, _⟩, _⟩ := hs
    obtain ⟨q, hq, hq'⟩ := skip_sel hr hl h _ hy
    exact ⟨_, _, _, .skip hq hq'⟩
  | skipNoMove k =>
    unfold step skipNoMove at hs
    simp only [Option.bind_eq_bind, Option.bind_eq_some_iff] at hs
    obtain ⟨_, ⟨y, hy, _⟩, _⟩ := hs
    obtain ⟨q, hq, hq'⟩ := skip_sel hr hl h _ hy
    exact ⟨_, _, _, .skipNoMove hq hq'⟩
  | skip0 k =>
    unfold step at hs
    simp only [Option.bind_eq_bind, Option.bind_eq_some_iff] at hs
    obtain ⟨y, hy, _⟩ := hs
    obtain ⟨q, hq, hq'⟩ := skip0_sel hr hl h _ hy
    exact ⟨_, _, _, .skip0 hq hq'⟩

theorem runPos_act (ops : List UnaryOp) : ∀ {e : UEnum} {p : Nat} {t : Bool}, St bits l e p t → ∀ outs,
    (runPos bits e ops = some outs ↔ UnaryActRun l p t ops outs) := by
  induction ops with
  | nil =>
    intro e p t h outs
    constructor
    · intro h; obtain rfl := Option.some.inj h; exact .nil
    · intro h; cases h; rfl
  | cons op ops ih =>
    intro e p t h outs
    constructor
    · intro hrun
      unfold runPos at hrun
      simp only [Option.bind_eq_bind, Option.bind_eq_some_iff] at hrun
      obtain ⟨⟨o, e1⟩, h1, os, h2, h3⟩ := hrun
      obtain rfl := Option.some.inj h3
      obtain ⟨o', p', t', ha⟩ := step_none hr hl h op _ h1
      obtain ⟨e2, k1, k2⟩ := step_some hr hl h op o' p' t' ha
      obtain ⟨rfl, rfl⟩ := Prod.mk.inj (Option.some.inj (h1.symm.trans k1))
      have := (ih k2 os).1 h2
      rw [show e1.position = p' from k2.pos]
      exact .cons ha this
    · intro hrun
      cases hrun with
      | cons ha hrest =>
        obtain ⟨e2, k1, k2⟩ := step_some hr hl h op _ _ _ ha
        unfold runPos
        rw [k1]
        simp only [Option.bind_eq_bind, Option.bind_some]
        rw [(ih k2 _).2 hrest, k2.pos]; rfl

end UEnum

theorem padded_repr {bits : List Word} {l : List Bool} (hr : Repr bits l) : Repr bits (padded l) ∧ (padded l).length = 64 * bits.length := by
  have hl := hr.len
  rw [wordsFor_eq] at hl
  have hp : (padded l).length = 64 * bits.length := by
    unfold padded; rw [List.length_append, List.length_replicate]; omega
  refine ⟨⟨by rw [wordsFor_eq, hp]; omega, fun p => ?_⟩, hp⟩
  rw [hr.bit]
  unfold padded
  rw [bitFn_append]
  split
  · rfl
  · rename_i h
    rw [bitFn_of_ge _ _ (by omega)]
    unfold bitFn
    rw [List.getD_eq_getElem?_getD, List.getElem?_replicate]
    split <;> rfl

end Succinct
