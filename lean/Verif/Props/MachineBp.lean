import Verif.Lemmas.MachineCart
import Verif.Props.Machine
import Verif.Props.BpVector
import Verif.Props.CartesianTree

/-!
# C85: `bp_vector` and `cartesian_tree` in 64-bit arithmetic

`Verif/Model/MachineBp.lean` runs the code with wrapping 64-bit words for positions, block numbers and tree nodes, and with the
conversions to `int32_t` that the code makes.  Construction and all queries then have the results the specification asks for, and positions
out of range are rejected, also where the computation with them wraps.
-/
namespace Succinct
open Spec
open Machine (W)
open RSBitVector (bind_pure_some)

/-- the answers of a `bp_vector` over `l`, with 64-bit words for positions -/
structure Machine.BpVector.Answers (ov : Word → Nat → Word) (v : Machine.BpVector) (l : List Bool) : Prop where
  close : ∀ i : Word, l[i.toNat]? = some true → ∃ j, v.findClose ov i = some j ∧ Matching l i.toNat j.toNat
  opened : ∀ j : Word, l[j.toNat]? = some false → ∃ i, v.findOpen ov j = some i ∧ Matching l i.toNat j.toNat
  enclose : ∀ i j : Word, Matching l i.toNat j.toNat → (∃ p q, Matching l p q ∧ p < i.toNat ∧ i.toNat < q) →
    ∃ p, v.enclose ov i = some p ∧ IsEnclose l i.toNat j.toNat p.toNat
  excess : ∀ p : Word, p.toNat ≤ l.length → v.excess p = some (Spec.excess l p.toNat)
  rmq : ∀ a b : Word, a.toNat ≤ b.toNat → b.toNat ≤ l.length →
    ∃ p, v.excessRmq a b = some (p, Spec.excess l p.toNat) ∧ IsExcessRmq l a.toNat b.toNat p.toNat
  /-- what is rejected: positions beyond the end, and for `find_close` and `enclose` positions of closing parentheses -/
  close_pre : ∀ i : Word, l[i.toNat]? ≠ some true → v.findClose ov i = none ∧ v.enclose ov i = none
  excess_pre : ∀ p : Word, l.length < p.toNat → v.excess p = none ∧ ∀ b, v.excessRmq p b = none
  rmq_pre : ∀ a b : Word, b.toNat < a.toNat → v.excessRmq a b = none

theorem machine_bp_answers (ov : Word → Nat → Word) (l : List Bool) (hints hints0 : Bool) (hl : Bal l) (hlen : l.length ≤ 2^63)
    (hexc : ∀ p, p ≤ l.length → Spec.excess l p < 2^31 - 64) (w : Succinct.BpVector)
    (hw : BpVector.build (BitVector.ofRange l) hints hints0 = some w) :
    ∃ v, Machine.BpVector.build (Machine.BitVector.enc (BitVector.ofRange l)) hints hints0 = some v ∧ v.Answers ov l := by
  obtain ⟨e, hs⟩ := Machine.BpVector.build_sim hlen hints hints0 hw
  obtain ⟨q1, q2, q3, q4⟩ := (C50_any_length_partial ov l hints hints0 hl (by omega) hexc).2 w hw
  have hd := Bal.dyck hl
  have hfit : Machine.BitVector.Fits w.rs.bv := Machine.BitVector.Fits.of_rep hs.rs.rep hlen
  have hacc : ∀ i : Word, Machine.BitVector.access (Machine.BpVector.enc w).rs.bv i = l[i.toNat]? := by
    intro i
    rw [show (Machine.BpVector.enc w).rs.bv = Machine.BitVector.enc w.rs.bv from rfl, Machine.BitVector.access_eq _ hfit,
      BitVector.eq_ofRange hs.rs.rep]
    exact (C02_range l).2 _
  have hrank : ∀ p : Word, l.length < p.toNat → (Machine.BpVector.enc w).excess p = none := by
    intro p hp
    unfold Machine.BpVector.excess
    rw [show (Machine.BpVector.enc w).rs = Machine.RSBitVector.enc w.rs from rfl, Machine.RSBitVector.rank_eq hs.rs hlen]
    unfold RSBitVector.rank
    rw [hs.rs.rep.size, assertP_none (by omega)]; rfl
  refine ⟨_, e, ⟨fun i hi => ?_, fun j hj => ?_, fun i j hm hin => ?_, fun p hp => ?_, fun a b hab hb => ?_, fun i hi => ?_, fun p hp => ?_,
    fun a b hab => ?_⟩⟩
  · obtain ⟨j, hj⟩ := exists_close hd _ hi
    have hjl : j < l.length := (List.getElem?_eq_some_iff.1 hj.2.2.1).1
    have := Machine.BpVector.findClose_sim ov hs (q1 _ _ hj).1
    rw [Machine.W_of] at this
    exact ⟨_, this, by rw [Machine.W_toNat _ (by omega)]; exact hj⟩
  · obtain ⟨i, hi⟩ := exists_open hd _ hj
    have hjl : j.toNat < l.length := (List.getElem?_eq_some_iff.1 hj).1
    have hlt := hi.1
    have := Machine.BpVector.findOpen_sim ov hs (by omega) (q1 _ _ hi).2
    rw [Machine.W_of] at this
    exact ⟨_, this, by rw [Machine.W_toNat _ (by omega)]; exact hi⟩
  · obtain ⟨p, h1, h2⟩ := q2 _ _ hm hin
    have hil : i.toNat < l.length := (List.getElem?_eq_some_iff.1 hm.2.1).1
    have := Machine.BpVector.enclose_sim ov hs h1
    rw [Machine.W_of] at this
    have hpl : p < l.length := by
      obtain ⟨q, hq, _⟩ := h2
      exact (List.getElem?_eq_some_iff.1 hq.2.1).1
    exact ⟨_, this, by rw [Machine.W_toNat _ (by omega)]; exact h2⟩
  · have := Machine.BpVector.excess_sim hs (q3 _ hp)
    rw [Machine.W_of] at this
    exact this
  · obtain ⟨p, h1, h2⟩ := q4 _ _ hab hb
    have := Machine.BpVector.excessRmq_sim hs hb h1
    rw [Machine.W_of, Machine.W_of] at this
    have hpb : p ≤ b.toNat := h2.2.1
    exact ⟨W p, by rw [this, Machine.W_toNat _ (by omega)]; rfl, by rw [Machine.W_toNat _ (by omega)]; exact h2⟩
  · constructor
    · unfold Machine.BpVector.findClose
      rw [hacc]
      match h : l[i.toNat]? with
      | none => rfl
      | some true => exact absurd h hi
      | some false => rfl
    · unfold Machine.BpVector.enclose
      rw [hacc]
      match h : l[i.toNat]? with
      | none => rfl
      | some true => exact absurd h hi
      | some false => rfl
  · refine ⟨hrank p hp, fun b => ?_⟩
    unfold Machine.BpVector.excessRmq
    rw [hrank p hp]
    cases assertP (p ≤ b) <;> rfl
  · unfold Machine.BpVector.excessRmq
    rw [assertP_none (by rw [BitVec.le_def]; omega)]; rfl

/-- **C85**, `bp_vector`: built from the bits of any history, of fewer than `2^31` balanced bits -/
theorem C85_bp_vector (ov : Word → Nat → Word) (p : Prog) (l : List Bool) (h : p.spec = some l) (hr : p.ReserveAligned) (hl : Bal l)
    (hlen : l.length < 2^31) (hints hints0 : Bool) :
    ∃ bv v, Machine.history p = some bv ∧ Machine.BpVector.build bv hints hints0 = some v ∧ v.Answers ov l := by
  obtain ⟨w, hw, _⟩ := C31_find_close ov l hints hints0 hl hlen
  have hd := Bal.dyck hl
  obtain ⟨v, e, ha⟩ := machine_bp_answers ov l hints hints0 hl (by omega) (fun q hq => by
    rw [spec_excess_eq l q hq]; exact (hd.good hlen).small q hq) w hw
  exact ⟨_, v, Machine.history_eq p l h hr (by omega), e, ha⟩

/-- **C85**, `bp_vector` of up to `2^63` bits.  The hypothesis about the superblocks is the condition for construction to succeed
(`C50_any_length_partial`); it can fail from `2^31` bits on. -/
theorem C85_bp_vector_any_length (ov : Word → Nat → Word) (p : Prog) (l : List Bool) (h : p.spec = some l) (hr : p.ReserveAligned) (hl : Bal l)
    (hlen : l.length ≤ 2^63) (hexc : ∀ q, q ≤ l.length → Spec.excess l q < 2^31 - 64) (hints hints0 : Bool)
    (hsuper : ∀ s, 8192*s < l.length → ∃ q, 8192*s ≤ q ∧ q ≤ 8192*(s+1) ∧ q ≤ l.length ∧ Spec.excess l q < Int.bmod l.length (2^32)) :
    ∃ bv v, Machine.history p = some bv ∧ Machine.BpVector.build bv hints hints0 = some v ∧ v.Answers ov l := by
  obtain ⟨w, hw⟩ := (C50_any_length_partial ov l hints hints0 hl (by omega) hexc).1.2 hsuper
  obtain ⟨v, e, ha⟩ := machine_bp_answers ov l hints hints0 hl hlen hexc w hw
  exact ⟨_, v, Machine.history_eq p l h hr hlen, e, ha⟩

/-- **C85**, `cartesian_tree`: `size` and `rmq` in 64-bit arithmetic.  A range that ends beyond the last value is rejected, also where the
subtractions wrap, unless it consists of a single position: then that position is returned unchecked. -/
theorem C85_rmq {α : Type} (comp : α → α → Bool) (ho : StrictWeak comp) (v : List α) (hv : v.length < 2^30 - 1) :
    ∃ t, Machine.CartesianTree.build comp v = some t ∧ t.size.toNat = v.length ∧
      (∀ a b : Word, a.toNat ≤ b.toNat → b.toNat < v.length → ∃ m, t.rmq a b = some m ∧ IsLeftmostMin comp v a.toNat b.toNat m.toNat) ∧
      (∀ a b : Word, a.toNat ≠ b.toNat → v.length ≤ b.toNat ∨ b.toNat < a.toNat → t.rmq a b = none) ∧
      (∀ a : Word, t.rmq a a = some a) := by
  have hlen := Cart.fin_length comp v
  obtain ⟨t, e, em, hb, hi, hs⟩ := Machine.CartesianTree.build_sim comp v hv
  obtain ⟨t', e', hq⟩ := C36_rmq comp ho v hv
  rw [e] at e'
  obtain rfl := Option.some.inj e'
  have hg := (Cart.fin_dyck comp v).good (by omega)
  have hsz : (Machine.CartesianTree.enc t).size = W v.length := by
    show W t.bp.rs.bv.size / 2 - 1 = _
    rw [show t.bp.rs.bv.size = 2 * v.length + 2 by rw [hs.rs.rep.size, hlen]]
    apply BitVec.eq_of_toNat_eq
    simp only [bitvec_to_nat, Nat.reducePow, Nat.reduceMod]; omega
  have hexc : ∀ x y w e, y ≤ (Cart.fin comp v).length → t.bp.excessRmq x y = some (w, e) → w ≤ (Cart.fin comp v).length ∧ -2^62 < e := by
    intro x y w e hy hr
    have hxy : x ≤ y := by
      unfold BpVector.excessRmq at hr
      simp only [Option.bind_eq_bind, Option.bind_eq_some_iff] at hr
      obtain ⟨_, h1, _⟩ := hr
      exact Machine.assert_of h1
    obtain ⟨i, m, h1, h2, h3, h4, _⟩ := BpVector.excessRmq_spec hi hg x y hxy hy
    rw [h1] at hr
    simp only [Option.some.injEq, Prod.mk.injEq] at hr
    obtain ⟨rfl, rfl⟩ := hr
    have := hg.nonneg i (by omega)
    exact ⟨by omega, by omega⟩
  have hz : cnt (bitFn (Cart.fin comp v)) (Cart.fin comp v).length = v.length + 1 := by
    have := (Cart.fin_dyck comp v).zero
    simp only [BpVector.exc, excF, hlen] at this
    rw [hlen]; omega
  have hsel : ∀ n : Word, v.length < n.toNat → Machine.RSBitVector.select0 (Machine.CartesianTree.enc t).bp.rs n = none := by
    intro n hn
    rw [show (Machine.CartesianTree.enc t).bp.rs = Machine.RSBitVector.enc t.bp.rs from rfl, Machine.RSBitVector.select0_eq hs.rs hs.len]
    unfold RSBitVector.select0
    rw [RSBitVector.numZeros_eq hs.rs, bind_pure_some, assertP_none (by rw [hlen, ← hlen, hz]; omega)]; rfl
  refine ⟨_, em, by rw [hsz, Machine.W_toNat _ (by omega)], fun a b hab hbv => ?_, fun a b hne hout => ?_, fun a => ?_⟩
  · obtain ⟨m, h1, h2⟩ := hq _ _ hab hbv
    have hm := (leftmost_strict ho hbv h2)
    have := Machine.CartesianTree.rmq_sim hs (by omega) (by omega) (by omega) h1 hexc
    rw [Machine.W_of, Machine.W_of] at this
    exact ⟨_, this, by rw [Machine.W_toNat _ (by omega)]; exact h2⟩
  · unfold Machine.CartesianTree.rmq
    by_cases hab : a ≤ b
    · rw [Machine.assert_yes hab, bind_pure_some, if_neg (fun c => hne (by rw [c]))]
      rw [BitVec.le_def] at hab
      have hbv : v.length ≤ b.toNat := by omega
      rw [hsz]
      by_cases hbn : b.toNat = v.length
      · simp only []
        rw [hsel _ (by
          simp only [bitvec_to_nat, Nat.reducePow, Nat.reduceMod]; omega)]
        rfl
      · have hx := hsel (W v.length - b) (by simp only [bitvec_to_nat, Nat.reducePow, Nat.reduceMod]; omega)
        simp only [hx]
        cases Machine.RSBitVector.select0 (Machine.CartesianTree.enc t).bp.rs (W v.length - b - 1) with
        | none => rfl
        | some tp =>
          rw [bind_pure_some]
          generalize Machine.s32 (tp - 2 * (W v.length - b - 1)) = x
          cases i32 (x - 1) with
          | none => rfl
          | some y =>
            rw [bind_pure_some]
            cases (Machine.CartesianTree.enc t).bp.excess (tp + 1) with
            | none => rfl
            | some z =>
              rw [bind_pure_some]
              cases assertP (y = z) <;> rfl
    · rw [assertP_none hab]; rfl
  · unfold Machine.CartesianTree.rmq
    rw [Machine.assert_yes (by rw [BitVec.le_def]), bind_pure_some, if_pos rfl]; rfl

/-! ## concrete cases -/

example : ∃ v, Machine.BpVector.build (Machine.BitVector.enc (BitVector.ofRange [true, true, false, true, false, false, true, false])) true false =
      some v ∧
    v.findClose (fun _ _ => 0) 0 = some 5 ∧ v.findOpen (fun _ _ => 0) 5 = some 0 ∧ v.enclose (fun _ _ => 0) 3 = some 0 ∧
    v.excess 2 = some 2 ∧ v.excessRmq 1 5 = some (1, 1) ∧ v.findClose (fun _ _ => 0) (BitVec.allOnes 64) = none := by
  exact ⟨_, rfl, by decide +kernel, by decide +kernel, by decide +kernel, by decide +kernel, by decide +kernel, by decide +kernel⟩

/-- the history `push_back` of the bits of `bal_example` meets the hypotheses of `C85_bp_vector` -/
example : ((((((((Prog.new 0 false).pushBack true).pushBack true).pushBack false).pushBack true).pushBack false).pushBack false).pushBack
      true |>.pushBack false).spec = some [true, true, false, true, false, false, true, false] := by decide +kernel

example : (Machine.CartesianTree.build (fun a b : Nat => decide (a < b)) [3, 1, 4, 1, 5, 9, 2, 6] >>= fun t => t.rmq 2 6) = some 3 := by
  decide +kernel
example : (Machine.CartesianTree.build (fun a b : Nat => decide (a < b)) [3, 1, 4, 1, 5, 9, 2, 6] >>= fun t => t.rmq 2 (BitVec.allOnes 64)) =
    none := by decide +kernel

end Succinct
