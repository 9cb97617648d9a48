import Verif.Lemmas.Release
import Verif.Lemmas.MachineBpBuild

/-! The backward search for a parenthesis that does not exist, without assertions. -/
namespace Succinct
open Broadword Bp
open RSBitVector (bind_pure_some)

namespace BpVector
variable {v : BpVector} {l : List Bool} {bits : List Word} {E : Nat → Int}

/-- where no position has an excess as low as the target, `find_open_in_block` finds nothing and violates no assertion -/
theorem openLoop_nothing (hE : E = excF (wbit bits)) (T : Int) (bo : Nat) :
    ∀ (k : Nat) (e : Int), bo + k ≤ bits.length → e = E (64*(bo+k)) - T → (∀ q, q ≤ 64*(bo+k) → T < E q) →
      e + 64*k < 2147483584 → openLoop bits bo k e = some none := by
  intro k
  induction k with
  | zero => intro e _ _ _ _; rfl
  | succ k ih =>
    intro e hl he hq hb
    have hol : bo + k < bits.length := by omega
    have hw : bits[bo+k]? = some bits[bo+k] := List.getElem?_eq_getElem hol
    have hx := word_exc hw
    rw [← hE] at hx
    have hpos := hq (64*(bo+(k+1))) (by omega)
    unfold openLoop
    rw [assertP_eq _ (show e > 0 by omega), bind_pure_some]
    simp only []
    rw [rd, hw, bind_pure_some]
    have hx64 := hx 64 (by omega)
    rw [show 64*(bo+k)+64 = 64*(bo+(k+1)) by omega] at hx64
    have hrest : (do
        let excess ← i32 (e - toI32 (2 * ((bytesSum (byteCounts bits[bo+k])).toNat : Int) - 64))
        openLoop bits bo k excess) = some none := by
      have hb64 := bytesSum_eq bits[bo+k]
      have r1 := excF_le (bits[bo+k]).getLsbD 64
      have r2 := excF_ge (bits[bo+k]).getLsbD 64
      have hq1 := hq (64*(bo+k)) (by omega)
      rw [show 2 * ((bytesSum (byteCounts bits[bo+k])).toNat : Int) - 64 = excF (bits[bo+k]).getLsbD 64 by omega,
        toI32_eq _ (by omega) (by omega), i32_eq _ (by omega) (by omega), bind_pure_some,
        ih _ (by omega) (by omega) (fun q h2 => hq q (by omega)) (by omega)]
    unfold openWord
    by_cases he64 : e ≤ 64
    · rw [if_pos he64]
      rcases findOpenInWord_spec bits[bo+k] e (by omega) he64 with ⟨hf, hno⟩ | ⟨r, hf, hr, hr1, hr2⟩
      · rw [hf, bind_pure_some]
        exact hrest
      · exfalso
        rw [hx64, hx _ (by omega)] at hr1
        have := hq (64*(bo+k)+r) (by omega)
        omega
    · rw [if_neg he64, bind_pure_some]
      exact hrest

theorem findOpenInBlock_nothing (hE : E = excF (wbit bits)) (T : Int)
    (bo start : Nat) (e : Int) (hs : start ≤ 4) (hl : bo + start ≤ bits.length) (he : e = E (64*(bo+start)) - T)
    (hq : ∀ q, q ≤ 64*(bo+start) → T < E q) : findOpenInBlock bits bo e start = some none := by
  have hpos := hq (64*(bo+start)) (by omega)
  unfold findOpenInBlock
  rw [toI32_eq _ (by omega) (by omega)]
  by_cases h : e > (start * 64 : Nat)
  · rw [if_pos h]
  · rw [if_neg h, assertP_eq _ (show e ≥ 0 by omega), bind_pure_some,
      openLoop_nothing hE T bo start e hl he hq (by omega)]

theorem mem_wr {α : Type} {t t' : List α} {i : Nat} {x y : α} (h : wr t i x = some t') (hy : y ∈ t') : y ∈ t ∨ y = x := by
  unfold wr at h
  split at h
  · cases h
    exact List.mem_or_eq_of_mem_set hy
  · simp at h

theorem treeLoop_nonneg : ∀ (k : Nat) {t t' : List Int}, treeLoop k t = some t' → (∀ x ∈ t, 0 ≤ x) → ∀ x ∈ t', 0 ≤ x := by
  intro k
  induction k with
  | zero => intro t t' h ht; cases h; exact ht
  | succ k ih =>
    intro t t' h ht
    unfold treeLoop at h
    simp only [Option.bind_eq_bind, Option.bind_eq_some_iff] at h
    obtain ⟨a, ha, b, hb, t1, h1, h2⟩ := h
    refine ih h2 fun x hx => ?_
    rcases mem_wr h1 hx with h | h
    · exact ht x h
    · have := ht a (List.mem_of_getElem? ha)
      have := ht b (List.mem_of_getElem? hb)
      omega

theorem leavesLoop_nonneg {rs : RSBitVector} {mins : List Int} {nb : Nat} : ∀ (k s : Nat) {a t : List Int},
    leavesLoop rs mins nb k s a = some t → (∀ x ∈ a, 0 ≤ x) → ∀ x ∈ t, 0 ≤ x := by
  intro k
  induction k with
  | zero => intro s a t h ha; cases h; exact ha
  | succ k ih =>
    intro s a t h ha
    unfold leavesLoop at h
    simp only [Option.bind_eq_bind, Option.bind_eq_some_iff] at h
    obtain ⟨x, hx, h2⟩ := h
    refine ih _ h2 fun y hy => ?_
    rw [List.mem_append] at hy
    rcases hy with hy | hy
    · exact ha y hy
    · rw [List.mem_singleton] at hy
      unfold leafMin at hx
      simp only [Option.bind_eq_bind, Option.bind_eq_some_iff] at hx
      obtain ⟨_, _, c, _, _, h3, h4⟩ := hx
      cases h4
      have := assertP_some h3
      omega

/-- no node of the tree holds a negative number -/
theorem build_nonneg {bv : BitVector} {a b : Bool} {v : BpVector} (h : build bv a b = some v) (hs : bv.size < 2^31) :
    ∀ x ∈ v.superMin, 0 ≤ x := by
  unfold build at h
  simp only [Option.bind_eq_bind, Option.bind_eq_some_iff] at h
  obtain ⟨rs, hr, h⟩ := h
  have hrs : rs.bv = bv := by
    unfold RSBitVector.build at hr
    rw [Option.bind_eq_bind, Option.bind_eq_some_iff] at hr
    obtain ⟨nb, _, hr⟩ := hr
    generalize RSBitVector.buildHints (RSBitVector.blockRank (RSBitVector.buildPairs bv.bits)) nb = o1 at hr
    generalize RSBitVector.buildHints (RSBitVector.blockRank0 (RSBitVector.buildPairs bv.bits)) nb = o2 at hr
    cases a <;> cases b <;> cases o1 <;> cases o2 <;> cases hr <;> rfl
  unfold buildMinTree at h
  split at h
  · cases h; simp
  · simp only [Option.bind_eq_bind, Option.bind_eq_some_iff] at h
    obtain ⟨mins, _, _, _, int, _, lv, h1, t, h2, h3⟩ := h
    cases h3
    refine treeLoop_nonneg _ h2 fun x hx => ?_
    rw [List.mem_append] at hx
    rcases hx with hx | hx
    · rw [(List.mem_replicate.1 hx).2, toI32_eq _ (by omega) (by rw [hrs]; omega)]; omega
    · exact leavesLoop_nonneg _ _ h1 (by simp) x hx

end BpVector

namespace Release
open Outcome
open Machine (at_ s32 vlen W W_toNat W_sub W_add W_mul at_W)
open Machine.BpVector (searchFwd searchBwd minW otherNode dir enc Small)

/-- without its assertion the ascent of the backward search does not end: at node 0 it stays there -/
theorem treeUp_running (v : Machine.BpVector) (e : Int) (he : e < 0) (hv : ∀ x ∈ v.superMin, 0 ≤ x) :
    ∀ (fuel : Nat) (n : Word), n.toNat < v.superMin.length → treeUp v false e fuel n = .running := by
  intro fuel
  induction fuel with
  | zero => intro n _; rfl
  | succ fuel ih =>
    intro n hn
    have hh : siblingHit v false n e = some none := by
      unfold siblingHit
      by_cases hc : n &&& 1 = dir false
      · rw [if_pos hc]
      · rw [if_neg hc]
        have h0 : n.toNat ≠ 0 := by
          intro h
          apply hc
          rw [show n = 0 from BitVec.eq_of_toNat_eq (by simpa using h)]; rfl
        have hlt : (n - 1).toNat < v.superMin.length := by
          have : (n - 1).toNat = n.toNat - 1 := by
            have := n.isLt
            have h1 : (1 : Word).toNat = 1 := rfl
            rw [BitVec.toNat_sub, h1]
            omega
          omega
        have := hv _ (List.getElem_mem hlt)
        unfold inNodeRange at_ rd otherNode
        simp only [Bool.false_eq_true, if_false]
        rw [List.getElem?_eq_getElem hlt]
        show some (if decide (e ≥ _) = true then _ else _) = _
        rw [if_neg (by rw [decide_eq_true_iff]; omega)]
    unfold treeUp
    rw [hh, of_some, done_bind]
    refine ih _ ?_
    rw [BitVec.toNat_udiv]
    have : (2 : Word).toNat = 2 := rfl
    rw [this]
    omega

/-! more time does not change an answer -/

theorem treeUp_mono {v : Machine.BpVector} {fwd : Bool} {e : Int} : ∀ {fuel fuel' : Nat} {n r : Word}, fuel ≤ fuel' →
    treeUp v fwd e fuel n = .done r → treeUp v fwd e fuel' n = .done r := by
  intro fuel
  induction fuel with
  | zero => intro fuel' n r _ h; simp [treeUp] at h
  | succ fuel ih =>
    intro fuel' n r hf h
    obtain ⟨f, rfl⟩ : ∃ f, fuel' = f + 1 := ⟨fuel' - 1, by omega⟩
    unfold treeUp at h ⊢
    cases hx : siblingHit v fwd n e with
    | none => rw [hx] at h; cases h
    | some x =>
      rw [hx, of_some, done_bind] at h
      rw [of_some, done_bind]
      cases x with
      | some x => exact h
      | none => exact ih (by omega) h

theorem treeDown_mono {v : Machine.BpVector} {fwd : Bool} {e : Int} : ∀ {fuel fuel' : Nat} {n r : Word}, fuel ≤ fuel' →
    treeDown v fwd e fuel n = .done r → treeDown v fwd e fuel' n = .done r := by
  intro fuel
  induction fuel with
  | zero =>
    intro fuel' n r _ h
    unfold treeDown at h ⊢
    by_cases hc : n < v.internalNodes
    · rw [if_pos hc] at h; cases h
    · rw [if_neg hc] at h ⊢; exact h
  | succ fuel ih =>
    intro fuel' n r hf h
    obtain ⟨f, rfl⟩ : ∃ f, fuel' = f + 1 := ⟨fuel' - 1, by omega⟩
    unfold treeDown at h ⊢
    by_cases hc : n < v.internalNodes
    · rw [if_pos hc] at h ⊢
      simp only [] at h ⊢
      cases hx : inNodeRange v (n * 2 + (1 - dir fwd)) e with
      | none => rw [hx] at h; cases h
      | some b =>
        rw [hx, of_some, done_bind] at h
        rw [of_some, done_bind]
        exact ih (by omega) h
    · rw [if_neg hc] at h ⊢; exact h

theorem bind_done {α β : Type} {x : Outcome α} {f : α → Outcome β} {r : β} (h : (x >>= f) = .done r) : ∃ a, x = .done a ∧ f a = .done r := by
  cases x with
  | done a => exact ⟨a, rfl, h⟩
  | undefined => cases h
  | running => cases h

theorem searchMinTree_mono {v : Machine.BpVector} {fwd : Bool} {fuel fuel' : Nat} (hf : fuel ≤ fuel') {b : Word} {e : Int} {r : Word}
    (h : searchMinTree v fwd fuel b e = .done r) : searchMinTree v fwd fuel' b e = .done r := by
  unfold searchMinTree at h ⊢
  obtain ⟨x, h1, h⟩ := bind_done h
  rw [h1, done_bind]
  cases x with
  | some x => exact h
  | none =>
    simp only [] at h ⊢
    obtain ⟨t, h2, h⟩ := bind_done h
    obtain ⟨lf, h3, h⟩ := bind_done h
    rw [treeUp_mono hf h2, done_bind, treeDown_mono hf h3, done_bind]
    exact h

theorem closeFar_mono {v : Machine.BpVector} {fuel fuel' : Nat} (hf : fuel ≤ fuel') {pos b r : Word}
    (h : closeFar v fuel pos b = .done r) : closeFar v fuel' pos b = .done r := by
  unfold closeFar at h ⊢
  obtain ⟨x, h1, h⟩ := bind_done h
  obtain ⟨y, h2, h⟩ := bind_done h
  rw [h1, done_bind, searchMinTree_mono hf h2, done_bind]
  exact h

theorem closeRest_mono {v : Machine.BpVector} {fuel fuel' : Nat} (hf : fuel ≤ fuel') {pos b r : Word}
    (h : closeRest v fuel pos b = .done r) : closeRest v fuel' pos b = .done r := by
  unfold closeRest at h ⊢
  simp only [] at h ⊢
  obtain ⟨x, h1, h⟩ := bind_done h
  obtain ⟨y, h2, h⟩ := bind_done h
  rw [h1, done_bind, h2, done_bind]
  cases y with
  | some y => exact h
  | none => exact closeFar_mono hf h

theorem findClose_mono (ov : Word → Nat → Word) {v : Machine.BpVector} {fuel fuel' : Nat} (hf : fuel ≤ fuel') {pos r : Word}
    (h : findClose ov v fuel pos = .done r) : findClose ov v fuel' pos = .done r := by
  unfold findClose at h ⊢
  simp only [] at h ⊢
  obtain ⟨x, h1, h⟩ := bind_done h
  rw [h1, done_bind]
  obtain ⟨y, h2, h⟩ := bind_done h
  rw [h2, done_bind]
  cases y with
  | some y => exact h
  | none => exact closeRest_mono hf h

variable {w : BpVector} {l : List Bool}

/-- `find_open` at a position of excess 0 gets as far as the search in the tree -/
theorem findOpen_far (ov : Word → Nat → Word) (hi : BpVector.Inv w l) (hg : BpVector.Good l) (hs : Small w l) (pos : Nat) (hpl : pos < l.length)
    (hE : BpVector.exc l pos = 0) (fuel : Nat) : findOpen ov (enc w) fuel (W pos) = openFar (enc w) fuel (W pos) (W (pos / 64 / 4)) := by
  have hl := hs.len
  have hlen := hi.rs.rep.len
  have hbits := hi.excBits
  have hE' := hbits.symm
  have hbl := Machine.BpVector.bits_len hs.rs hs.len
  have e2 : W pos / 64 = W (pos / 64) := by wn
  have e3 : W pos % 64 = W (pos % 64) := by wn
  unfold findOpen
  simp only [e2, e3]
  unfold openRest
  simp only [e2, e3]
  have hwb : pos / 64 < w.rs.bv.bits.length := by omega
  have hw : rd w.rs.bv.bits (pos / 64) = some w.rs.bv.bits[pos / 64] := List.getElem?_eq_getElem hwb
  generalize w.rs.bv.bits[pos / 64] = x at hw
  have hwx := word_exc (bits := w.rs.bv.bits) (w := x) (o := pos/64) hw
  rw [hbits] at hwx
  have hpad := shiftedOpen_bit ov x (pos%64) (by omega)
  have hwp : pos / 64 < 2^57 + 1 := by omega
  have e5 : ((64 : Word) - W (pos % 64)).toNat = 64 - pos % 64 := by
    rw [show (64 : Word) = W 64 from rfl, ← W_sub _ _ (by omega), W_toNat _ (by omega)]
  rw [show (enc w).rs.bv.bits = w.rs.bv.bits from rfl, at_W (by omega) hw, of_some, done_bind]
  simp only [e5, Machine.BpVector.negBool_W _ (show pos % 64 < 64 by omega)]
  generalize (negBool (pos%64 ≠ 0) &&& shlOv ov x (64 - pos%64)) = pw at hpad ⊢
  generalize hsd : pos%64 = sh at *
  generalize hwd : pos/64 = wp at *
  have hpos : pos = 64*wp + sh := by omega
  have hsh : sh < 64 := by omega
  have hlo : ∀ i, i ≤ 64 - sh → excF pw.getLsbD i = -i := by
    intro i hii
    have := excF_false (f := pw.getLsbD) (Nat.zero_le i) (fun t ht1 ht2 => by rw [hpad t (by omega)]; simp; omega)
    rw [excF_zero] at this; omega
  have hin : ∀ i, i ≤ sh → excF pw.getLsbD (64 - sh + i) = -((64 - sh : Nat) : Int) + (BpVector.exc l (64*wp+i) - BpVector.exc l (64*wp)) := by
    intro i hii
    rw [excF_add, hlo _ (Nat.le_refl _), ← hwx i (by omega),
      excF_congr (f := fun t => pw.getLsbD (64-sh+t)) (g := x.getLsbD) (fun t ht => by rw [hpad _ (by omega), Nat.add_sub_cancel_left]; simp)]
  have h64 := hin sh (by omega)
  rw [show 64 - sh + sh = 64 by omega, ← hpos] at h64
  rcases findOpenInWord_spec pw 1 (by omega) (by omega) with ⟨e1, _⟩ | ⟨r0, e1, r1, r2, r3⟩
  · have hbs := bytesSum_eq pw
    generalize byteCounts pw = bc at e1 hbs ⊢
    have e1' := findOpenInWord_of (Machine.Bp.findOpenInWord_sim e1)
    rw [e1', of_some, done_bind]
    simp only [Option.map_none]
    have hd := excF_diff (bitFn l) (show 64*wp ≤ pos by omega)
    have hd' : BpVector.exc l (64*wp) - sh ≤ BpVector.exc l pos ∧ BpVector.exc l pos ≤ BpVector.exc l (64*wp) + sh := by
      constructor
      · have := hd.2; simp only [BpVector.exc]; omega
      · have := hd.1; simp only [BpVector.exc]; omega
    clear hd
    have d1 : W wp / 4 = W (wp / 4) := by wn
    have d2 : W (wp / 4) * 4 = W (wp / 4 * 4) := (W_mul _ _).symm
    have d3 : W wp % 4 = W (wp % 4) := by wn
    have hnone : BpVector.findOpenInBlock w.rs.bv.bits (wp/4*4) (BpVector.exc l (64*wp) + 1) (wp%4) = some none := by
      refine BpVector.findOpenInBlock_nothing hE' (-1) _ _ _ (by omega) (by omega) ?_ fun q hq => ?_
      · rw [show wp/4*4 + wp%4 = wp by omega]; omega
      · have := hg.nonneg q (by omega); omega
    have hblk := findOpenInBlock_of (Machine.BpVector.findOpenInBlock_sim hbl (by omega) hnone)
    rw [Machine.BpVector.s32_len, toI32_eq _ (by omega) (by omega), i32_eq _ (by omega) (by omega), of_some, done_bind, i32_eq _ (by omega) (by omega),
      of_some, done_bind, d1, d2, d3, show -(2 * ((bytesSum bc).toNat : Int) - sh) + 1 = BpVector.exc l (64*wp) + 1 by omega, hblk, of_some, done_bind]
    rfl
  · exfalso
    have hr' : 64 - sh ≤ r0 := by
      by_contra hh
      have h1 := hlo r0 (by omega)
      have h2 := hlo (64-sh) (by omega)
      have h3 := r3 (64-sh) (by omega) (by omega)
      omega
    have h1 := hin (r0-(64-sh)) (by omega)
    rw [show 64-sh+(r0-(64-sh)) = r0 by omega] at h1
    have := hg.nonneg (64*wp+(r0-(64-sh))) (by omega)
    omega

theorem findOpen_running (ov : Word → Nat → Word) (hi : BpVector.Inv w l) (hg : BpVector.Good l) (hs : Small w l)
    (hv : ∀ x ∈ w.superMin, 0 ≤ x) (pos : Nat) (hpl : pos < l.length)
    (hE : BpVector.exc l pos = 0) (h256 : 256 ≤ pos) (fuel : Nat) : findOpen ov (enc w) fuel (W pos) = .running := by
  rw [findOpen_far ov hi hg hs pos hpl hE]
  unfold openFar
  have hx := excess_of (Machine.BpVector.excess_sim hs (BpVector.excess_eq hi.toInv0 hg.toMild pos (by omega)))
  rw [hx, of_some, done_bind, hE, i32_eq _ (by omega) (by omega), of_some, done_bind]
  have hl := hs.len
  have d : W (pos / 64 / 4) - 1 = W (pos / 64 / 4 - 1) := by wn
  rw [d]
  generalize hb : pos / 64 / 4 - 1 = b
  have hbl : b < (l.length + 255) / 256 := by omega
  obtain ⟨H, hN, ht⟩ := hi.tree (by omega)
  have hint := hs.internal
  rcases BpVector.searchBlock_bwd hi.toInv0 hg.toMild (by omega) (0-1) b hbl with ⟨h1, _⟩ | ⟨c, _, _, _, ⟨p, _, _, p3, p4⟩, _⟩
  · have h2 := searchBlock_of (Machine.BpVector.searchBlock_sim hs (by omega) h1)
    unfold searchMinTree
    rw [h2, of_some, done_bind]
    simp only [Option.map_none]
    have e1 : (enc w).internalNodes + W b / 32 = W (w.internalNodes + b / 32) := by
      show W w.internalNodes + W b / 32 = _
      have : W b / 32 = W (b / 32) := by wn
      rw [this, W_add]
    rw [e1, treeUp_running (enc w) (0-1) (by omega) hv fuel _ (by
      rw [W_toNat _ (by omega)]
      show _ < w.superMin.length
      rw [ht.lenEq, hN]; omega), running_bind, running_bind]
  · have := hg.nonneg p p3
    omega

theorem findOpen_undefined (ov : Word → Nat → Word) (hi : BpVector.Inv w l) (hg : BpVector.Good l) (hs : Small w l)
    (pos : Nat) (hpl : pos < l.length)
    (hE : BpVector.exc l pos = 0) (h256 : pos < 256) (fuel : Nat) : findOpen ov (enc w) fuel (W pos) = .undefined := by
  rw [findOpen_far ov hi hg hs pos hpl hE]
  unfold openFar
  have hx := excess_of (Machine.BpVector.excess_sim hs (BpVector.excess_eq hi.toInv0 hg.toMild pos (by omega)))
  rw [hx, of_some, done_bind, hE, i32_eq _ (by omega) (by omega), of_some, done_bind]
  have hnb := Machine.RSBitVector.nblocks_le hs.rs.rep hs.len
  have hp : ((enc w).rs.pairs).length = 2 * RSBitVector.nblocks w.rs.bv.bits + 2 := by
    show (w.rs.pairs.map W).length = _
    rw [List.length_map, hs.rs.tab.len]
  rw [show pos / 64 / 4 = 0 by omega]
  have : searchBlockInSuperblock (enc w) false (W 0 - 1) (0-1) = none := by
    unfold searchBlockInSuperblock blockExcess Machine.RSBitVector.subBlockRank Machine.RSBitVector.blockRank at_ rd
    simp only []
    rw [List.getElem?_eq_none (by
      rw [hp, show ((W 0 - 1) / 32 * 32 * 4 / 8 * 2 : Word).toNat = 4611686018427387872 from by decide +kernel]
      omega)]
    rfl
  unfold searchMinTree
  rw [this]
  rfl

end Release
end Succinct
