import Verif.Lemmas.ReleaseBpTree

/-! `find_close` and `find_open` on a tree that is constant, with assertions compiled out. -/
namespace Succinct
namespace Release
open Broadword Bp
open Machine (W W_add W_mul W_sub W_lt W_toNat at_ at_W s32 vlen)
open Machine.BpVector (Small enc dir)
open Outcome (of_some done_bind)
open Succinct.RSBitVector (bind_pure_some)

variable {w : BpVector} {l : List Bool}

/-- `find_close` answers when the other parenthesis is in the same block and goes on to the tree otherwise -/
theorem findClose_split (ov : Word → Nat → Word) (hi : BpVector.Inv0 w l) (hs : Small w l) (pos j : Nat)
    (hpj : pos < j) (hj : j < l.length) (hb : bitFn l pos = true) (hE : BpVector.exc l (j+1) = BpVector.exc l pos)
    (hq : ∀ q, pos < q → q ≤ j → BpVector.exc l pos < BpVector.exc l q) (fuel : Nat) :
    findClose ov (enc w) fuel (W pos) =
      if j < 256 * ((pos + 1) / 256 + 1) then .done (W j) else closeFar (enc w) fuel (W pos) (W ((pos + 1) / 64 / 4)) := by
  have hl := hs.len
  have hlen := hi.rs.rep.len
  have hbits := hi.excBits
  have hE' := hbits.symm
  have hbl := Machine.BpVector.bits_len hs.rs hs.len
  have hE1 : BpVector.exc l (pos+1) = BpVector.exc l pos + 1 := by
    have := excF_succ (bitFn l) pos; rw [hb] at this; simpa [BpVector.exc] using this
  have e1 : W pos + 1 = W (pos + 1) := (W_add _ _).symm
  have e2 : W (pos + 1) / 64 = W ((pos + 1) / 64) := by wn
  have e3 : W (pos + 1) % 64 = W ((pos + 1) % 64) := by wn
  have e4 : (W ((pos + 1) % 64)).toNat = (pos + 1) % 64 := W_toNat _ (by omega)
  have e5 : ((64 : Word) - W ((pos + 1) % 64)).toNat = 64 - (pos + 1) % 64 := by
    rw [show (64 : Word) = W 64 from rfl, ← W_sub _ _ (by omega), W_toNat _ (by omega)]
  have hwb : (pos + 1) / 64 < w.rs.bv.bits.length := by omega
  have hw : rd w.rs.bv.bits ((pos + 1) / 64) = some w.rs.bv.bits[(pos + 1) / 64] := List.getElem?_eq_getElem hwb
  generalize w.rs.bv.bits[(pos + 1) / 64] = x at hw
  have hwx := word_exc (bits := w.rs.bv.bits) (w := x) (o := (pos+1)/64) hw
  rw [hbits] at hwx
  have hpad := paddedClose_bit ov x ((pos+1)%64) (by omega)
  have hblk : j < 256 * ((pos + 1) / 256 + 1) ↔ j < 64*((pos+1)/64/4*4+4) := by omega
  unfold findClose
  simp only [e1, e2, e3]
  rw [show (enc w).rs.bv.bits = w.rs.bv.bits from rfl, at_W (by omega) hw, of_some, done_bind]
  simp only [e4, e5, Machine.BpVector.negBool_W _ (show (pos + 1) % 64 < 64 by omega)]
  unfold closeRest
  simp only [e1, e2, e3, hblk]
  have hs5 := @Machine.BpVector.s32_local
  generalize (x >>> ((pos+1)%64)) ||| (negBool ((pos+1)%64 ≠ 0) &&& shlOv ov (BitVec.allOnes 64) (64 - (pos+1)%64)) = pw at hpad ⊢
  generalize hsd : (pos+1)%64 = sh at *
  generalize hwd : (pos+1)/64 = wp at *
  have hpos : pos + 1 = 64*wp + sh := by omega
  have hsh : sh < 64 := by omega
  have hin : ∀ i, i ≤ 64 - sh → excF pw.getLsbD i = BpVector.exc l (pos+1+i) - BpVector.exc l (pos+1) := by
    intro i hii
    rw [excF_congr (g := fun t => x.getLsbD (sh+t)) (fun t ht => by rw [hpad t (by omega), if_pos (by omega)])]
    have e1 := excF_add x.getLsbD sh i
    have e2 := hwx (sh+i) (by omega)
    have e3 := hwx sh (by omega)
    rw [hpos, show 64*wp+sh+i = 64*wp+(sh+i) by omega]
    omega
  have hout : ∀ i, 64 - sh ≤ i → i ≤ 64 → excF pw.getLsbD i = excF pw.getLsbD (64-sh) + (i - (64 - sh)) := by
    intro i h1 h2
    have := excF_true (f := pw.getLsbD) h1 (fun t ht1 ht2 => by rw [hpad t (by omega), if_neg (by omega)])
    omega
  have hend : BpVector.exc l (pos+1+(64-sh)) = BpVector.exc l (64*(wp+1)) := by congr 1; omega
  rcases findCloseInWord_spec pw 1 (by omega) (by omega) with ⟨f1, f2⟩ | ⟨r, f1, r1, r2, r3⟩
  · have hjw : 64*(wp+1) ≤ j := by
      by_contra hh
      have h1 := hin (j+1-(pos+1)) (by omega)
      have h2 := f2 (j+1-(pos+1)) (by omega)
      rw [show pos+1+(j+1-(pos+1)) = j+1 by omega] at h1
      omega
    have hbs := bytesSum_eq pw
    have h64 := hout 64 (by omega) (by omega)
    have hi64 := hin (64-sh) (by omega)
    have hd := excF_diff (bitFn l) (show pos+1 ≤ pos+1+(64-sh) by omega)
    have hd' : BpVector.exc l (pos+1) - (64 - sh) ≤ BpVector.exc l (pos+1+(64-sh)) ∧
        BpVector.exc l (pos+1+(64-sh)) ≤ BpVector.exc l (pos+1) + (64-sh) := by
      constructor
      · have := hd.2; simp only [BpVector.exc]; push_cast [show sh ≤ 64 by omega] at this; omega
      · have := hd.1; simp only [BpVector.exc]; push_cast [show sh ≤ 64 by omega] at this; omega
    clear hd
    have hq64 := hq (64*(wp+1)) (by omega) (by omega)
    have hfb := findCloseInBlock_of (Machine.BpVector.findCloseInBlock_sim hbl
      (BpVector.findCloseInBlock_spec hE' (BpVector.exc l pos) j hE (by omega) (wp/4*4) (wp%4+1) _ (by omega) rfl (by omega)
        (by intro q q1 q2; exact hq q (by omega) q2)))
    rw [show wp/4*4+(wp%4+1) = wp+1 by omega] at hfb
    generalize byteCounts pw = bc at f1 hbs ⊢
    have f1' := findCloseInWord_of (Machine.Bp.findCloseInWord_sim f1)
    have hsub := subU_eq (bytesSum bc).toNat sh (by omega)
    have d1 : W wp / 4 = W (wp / 4) := by wn
    have d2 : W (wp / 4) * 4 = W (wp / 4 * 4) := (W_mul _ _).symm
    have d3 : W wp % 4 + 1 = W (wp % 4 + 1) := by wn
    rw [f1', of_some, done_bind]
    simp only [Option.map_none]
    rw [hs5 hsub hsh, toI32_eq _ (by omega) (by omega), i32_eq _ (by omega) (by omega), of_some, done_bind, d1, d2, d3]
    rw [show (2 * (((bytesSum bc).toNat - sh : Nat) : Int) - (64 - sh : Nat)) + 1 = BpVector.exc l (64*(wp+1)) - BpVector.exc l pos by omega,
      show (enc w).rs.bv.bits = w.rs.bv.bits from rfl, hfb,
      of_some, done_bind]
    by_cases hc : j < 64 * (wp / 4 * 4 + 4)
    · rw [if_pos hc, if_pos hc]; rfl
    · rw [if_neg hc, if_neg hc]; rfl
  · generalize byteCounts pw = bc at f1 ⊢
    have f1' := findCloseInWord_of (Machine.Bp.findCloseInWord_sim f1)
    rw [f1', of_some, done_bind]
    have hr : r + 1 ≤ 64 - sh := by
      by_contra hh
      have h1 := hout (r+1) (by omega) (by omega)
      have h2 := r3 (64-sh) (by omega)
      omega
    have h1 := hin (r+1) hr
    have : j = pos + 1 + r := by
      rcases Nat.lt_trichotomy j (pos+1+r) with hh | hh | hh
      · have h2 := r3 (j-pos) (by omega)
        have h3 := hin (j-pos) (by omega)
        rw [show pos+1+(j-pos) = j+1 by omega] at h3
        omega
      · exact hh
      · have h2 := hq (pos+1+(r+1)) (by omega) (by omega)
        omega
    rw [if_pos (by omega)]
    simp only [Option.map_some]
    rw [← W_add, this, Nat.add_comm r]
    rfl

/-- `find_open` answers when the other parenthesis is in the same block and goes on to the tree otherwise -/
theorem findOpen_split (ov : Word → Nat → Word) (hi : BpVector.Inv0 w l) (hs : Small w l) (pos j : Nat)
    (hpj : j < pos) (hpl : pos < l.length) (hE : BpVector.exc l j = BpVector.exc l pos - 1)
    (hq : ∀ q, j < q → q ≤ pos → BpVector.exc l pos - 1 < BpVector.exc l q) (fuel : Nat) :
    findOpen ov (enc w) fuel (W pos) =
      if 256 * (pos / 256) ≤ j then .done (W j) else openFar (enc w) fuel (W pos) (W (pos / 64 / 4)) := by
  have hl := hs.len
  have hlen := hi.rs.rep.len
  have hbits := hi.excBits
  have hE' := hbits.symm
  have hbl := Machine.BpVector.bits_len hs.rs hs.len
  have e2 : W pos / 64 = W (pos / 64) := by wn
  have e3 : W pos % 64 = W (pos % 64) := by wn
  have hblk : 256 * (pos / 256) ≤ j ↔ 64*(pos/64/4*4) ≤ j := by omega
  unfold findOpen
  simp only [e2, e3]
  unfold openRest
  simp only [e2, e3, hblk]
  have hwb : pos / 64 < w.rs.bv.bits.length := by omega
  have hw : rd w.rs.bv.bits (pos / 64) = some w.rs.bv.bits[pos / 64] := List.getElem?_eq_getElem hwb
  generalize w.rs.bv.bits[pos / 64] = x at hw
  have hwx := word_exc (bits := w.rs.bv.bits) (w := x) (o := pos/64) hw
  rw [hbits] at hwx
  have hpad := shiftedOpen_bit ov x (pos%64) (by omega)
  have e5 : ((64 : Word) - W (pos % 64)).toNat = 64 - pos % 64 := by
    rw [show (64 : Word) = W 64 from rfl, ← W_sub _ _ (by omega), W_toNat _ (by omega)]
  rw [show (enc w).rs.bv.bits = w.rs.bv.bits from rfl, at_W (by omega) hw, of_some, done_bind]
  simp only [e5, Machine.BpVector.negBool_W _ (show pos % 64 < 64 by omega)]
  generalize (negBool (pos%64 ≠ 0) &&& shlOv ov x (64 - pos%64)) = pw at hpad ⊢
  generalize hsd : pos%64 = sh at *
  generalize hwd : pos/64 = wp at *
  have hpos : pos = 64*wp + sh := by omega
  have hsh : sh < 64 := by omega
  have hlo : ∀ i, i ≤ 64 - sh → excF pw.getLsbD i = -i := by
    intro i hii
    have := excF_false (f := pw.getLsbD) (Nat.zero_le i) (fun t ht1 ht2 => by rw [hpad t (by omega)]; simp; omega)
    rw [excF_zero] at this; omega
  have hin : ∀ i, i ≤ sh → excF pw.getLsbD (64 - sh + i) = -((64 - sh : Nat) : Int) + (BpVector.exc l (64*wp+i) - BpVector.exc l (64*wp)) := by
    intro i hii
    rw [excF_add, hlo _ (Nat.le_refl _), ← hwx i (by omega),
      excF_congr (f := fun t => pw.getLsbD (64-sh+t)) (g := x.getLsbD) (fun t ht => by rw [hpad _ (by omega), Nat.add_sub_cancel_left]; simp)]
  have h64 := hin sh (by omega)
  rw [show 64 - sh + sh = 64 by omega, ← hpos] at h64
  rcases findOpenInWord_spec pw 1 (by omega) (by omega) with ⟨f1, f2⟩ | ⟨r, f1, r1, r2, r3⟩
  · have hjw : j < 64*wp := by
      by_contra hh
      have h1 := hin (j - 64*wp) (by omega)
      have h2 := f2 (64-sh+(j - 64*wp)) (by omega)
      rw [show 64*wp+(j-64*wp) = j by omega] at h1
      omega
    have hbs := bytesSum_eq pw
    generalize byteCounts pw = bc at f1 hbs ⊢
    have f1' := findOpenInWord_of (Machine.Bp.findOpenInWord_sim f1)
    rw [f1', of_some, done_bind]
    simp only [Option.map_none]
    have hd := excF_diff (bitFn l) (show 64*wp ≤ pos by omega)
    have hd' : BpVector.exc l (64*wp) - sh ≤ BpVector.exc l pos ∧ BpVector.exc l pos ≤ BpVector.exc l (64*wp) + sh := by
      constructor
      · have := hd.2; simp only [BpVector.exc]; omega
      · have := hd.1; simp only [BpVector.exc]; omega
    clear hd
    have d1 : W wp / 4 = W (wp / 4) := by wn
    have d2 : W (wp / 4) * 4 = W (wp / 4 * 4) := (W_mul _ _).symm
    have d3 : W wp % 4 = W (wp % 4) := by wn
    have hfb := findOpenInBlock_of (Machine.BpVector.findOpenInBlock_sim hbl (by omega)
      (BpVector.findOpenInBlock_spec hE' (BpVector.exc l pos - 1) j hE (wp/4*4) (wp%4) _ (by omega) (by omega) rfl (by omega)
        (by intro q q1 q2; exact hq q q1 (by omega))))
    rw [show wp/4*4+wp%4 = wp by omega] at hfb
    rw [Machine.BpVector.s32_len, toI32_eq _ (by omega) (by omega), i32_eq _ (by omega) (by omega), of_some, done_bind, i32_eq _ (by omega) (by omega),
      of_some, done_bind, d1, d2, d3, show -(2 * ((bytesSum bc).toNat : Int) - sh) + 1 = BpVector.exc l (64*wp) - (BpVector.exc l pos - 1) by omega,
      hfb,
      of_some, done_bind]
    by_cases hc : 64 * (wp / 4 * 4) ≤ j
    · rw [if_pos hc, if_pos hc]; rfl
    · rw [if_neg hc, if_neg hc]; rfl
  · generalize byteCounts pw = bc at f1 ⊢
    have f1' := findOpenInWord_of (Machine.Bp.findOpenInWord_sim f1)
    rw [f1', of_some, done_bind]
    have hr : 64 - sh ≤ r := by
      by_contra hh
      have h1 := hlo r (by omega)
      have h2 := hlo (64-sh) (by omega)
      have h3 := r3 (64-sh) (by omega) (by omega)
      omega
    have h1 := hin (r-(64-sh)) (by omega)
    rw [show 64-sh+(r-(64-sh)) = r by omega] at h1
    have : j + 64 = r + pos := by
      rcases Nat.lt_trichotomy (j+64) (r+pos) with hh | hh | hh
      · have h2 := hq (64*wp+(r-(64-sh))) (by omega) (by omega)
        omega
      · exact hh
      · have h2 := r3 (64-sh+(j - 64*wp)) (by omega) (by omega)
        have h3 := hin (j-64*wp) (by omega)
        rw [show 64*wp+(j-64*wp) = j by omega] at h3
        omega
    rw [if_pos (by omega)]
    simp only [Option.map_some]
    have e6 : W r + (W pos - 64) = W j := by
      have : W j + 64 = W r + W pos := by rw [← W_add, ← this, W_add]; rfl
      bv_omega
    rw [e6]
    rfl

/-- reading the rank table at a place that a 32-bit all-ones value leads to -/
theorem blockExcess_beyond (hs : Small w l) (hl : l.length < 2^32) (b : Word) (hb : b = 0xFFFFFFFF ∨ b = 0x100000000) :
    blockExcess (enc w).rs b = none := by
  have hnb := Machine.RSBitVector.nblocks_le hs.rs.rep hs.len
  have hlen := hs.rs.rep.len
  have hp : ((enc w).rs.pairs).length = 2 * RSBitVector.nblocks w.rs.bv.bits + 2 := by
    show (w.rs.pairs.map W).length = _
    rw [List.length_map, hs.rs.tab.len]
  have hn : RSBitVector.nblocks w.rs.bv.bits ≤ 2^26 := by
    unfold RSBitVector.nblocks
    omega
  unfold blockExcess Machine.RSBitVector.subBlockRank Machine.RSBitVector.blockRank at_ rd
  simp only []
  rw [List.getElem?_eq_none (by
    rw [hp]
    rcases hb with rfl | rfl
    · rw [show ((0xFFFFFFFF : Word) * 4 / 8 * 2).toNat = 4294967294 from by decide +kernel]; omega
    · rw [show ((0x100000000 : Word) * 4 / 8 * 2).toNat = 4294967296 from by decide +kernel]; omega)]
  rfl

/-- `find_close` on a constant tree -/
theorem findClose_const (ov : Word → Nat → Word) {S : Int} {H : Nat} (hi : BpVector.Inv0 w l) (hg : BpVector.Mild l) (ht : BpVector.ConstTree w l S H)
    (hs : Small w l) (h32 : toI32 l.length < 0) (hS : S ≤ 0) (hl32 : l.length < 2^32) (pos j : Nat)
    (hpj : pos < j) (hj : j < l.length) (hb : bitFn l pos = true) (hE : BpVector.exc l (j+1) = BpVector.exc l pos)
    (hq : ∀ q, pos < q → q ≤ j → BpVector.exc l pos < BpVector.exc l q) (fuel : Nat) (hf : 2^52 < fuel) :
    findClose ov (enc w) fuel (W pos) = if j / 8192 ≤ ((pos + 1) / 256 + 1) / 32 + 1 then .done (W j) else .undefined := by
  rw [findClose_split ov hi hs pos j hpj hj hb hE hq]
  by_cases hn : j < 256 * ((pos + 1) / 256 + 1)
  · rw [if_pos hn, if_pos (by omega)]
  rw [if_neg hn]
  have hbl := Machine.BpVector.bits_len hs.rs hs.len
  have hlen := hi.rs.rep.len
  have n1 := hg.nonneg pos (by omega)
  have n2 := hg.small pos (by omega)
  have n3 := hg.nonneg (256*(j/256)) (by omega)
  have n4 := hg.small (256*(j/256)) (by omega)
  have hx := excess_of (Machine.BpVector.excess_sim hs (BpVector.excess_eq hi hg pos (by omega)))
  have d : W ((pos+1) / 64 / 4) + 1 = W ((pos+1)/256 + 1) := by rw [Nat.div_div_eq_div_mul]; exact (W_add _ _).symm
  have ht' := searchMinTree_next hi hg ht hs h32 hS (BpVector.exc l pos) n1 ((pos+1)/256+1) (j/256) fuel hf (by omega) (by omega)
    ⟨j+1, by omega, by omega, by omega, by omega⟩ (fun c c1 c2 ⟨p, p1, p2, p3, p4⟩ => by have := hq p (by omega) (by omega); omega)
  unfold closeFar
  rw [hx, of_some, done_bind, d, ht', done_bind]
  by_cases hc : j / 256 / 32 ≤ ((pos+1)/256+1)/32 + 1
  · rw [if_pos hc, if_pos (by omega)]
    have h1 := BpVector.blockExcess_eq hi.rs hg.nonneg hg.small (j/256) (by omega)
    have h2 := BpVector.findCloseInBlock_spec hi.excBits.symm (BpVector.exc l pos) j hE (by omega) (j/256*4) 0 _ (by omega) rfl (by omega)
      (by intro q q1 q2; exact hq q (by omega) q2)
    rw [if_pos (by omega), show 64*(j/256*4+0) = 256*(j/256) by omega] at h2
    have h2' := findCloseInBlock_of (Machine.BpVector.findCloseInBlock_sim hbl h2)
    have d5 : W (j/256) * 4 = W (j/256 * 4) := (W_mul _ _).symm
    rw [show blockExcess (enc w).rs (W (j/256)) = _ from blockExcess_of (Machine.BpVector.blockExcess_sim hs.rs hs.len h1).1, of_some, done_bind,
      i32_eq _ (by omega) (by omega), of_some, done_bind, d5, show (enc w).rs.bv.bits = w.rs.bv.bits from rfl, show (0 : Word) = W 0 from rfl, h2',
      of_some, done_bind]
    rfl
  · rw [if_neg hc, if_neg (by omega), blockExcess_beyond hs hl32 notFound (Or.inl rfl)]
    rfl

/-- `find_open` on a constant tree -/
theorem findOpen_const (ov : Word → Nat → Word) {S : Int} {H : Nat} (hi : BpVector.Inv0 w l) (hg : BpVector.Mild l) (ht : BpVector.ConstTree w l S H)
    (hs : Small w l) (h32 : toI32 l.length < 0) (hS : S ≤ 0) (hl32 : l.length < 2^32) (pos j : Nat)
    (hpj : j < pos) (hpl : pos < l.length) (hE : BpVector.exc l j = BpVector.exc l pos - 1)
    (hq : ∀ q, j < q → q ≤ pos → BpVector.exc l pos - 1 < BpVector.exc l q) (fuel : Nat) (hf : 2^52 < fuel) :
    findOpen ov (enc w) fuel (W pos) = if (pos / 256 - 1) / 32 ≤ j / 8192 + 1 then .done (W j) else .undefined := by
  rw [findOpen_split ov hi hs pos j hpj hpl hE hq]
  by_cases hn : 256 * (pos / 256) ≤ j
  · rw [if_pos hn, if_pos (by omega)]
  rw [if_neg hn]
  have hbl := Machine.BpVector.bits_len hs.rs hs.len
  have hlen := hi.rs.rep.len
  have n0 := hg.nonneg j (by omega)
  have n1 := hg.nonneg pos (by omega)
  have n2 := hg.small pos (by omega)
  have n3 := hg.nonneg (256*(j/256+1)) (by omega)
  have n4 := hg.small (256*(j/256+1)) (by omega)
  have hx := excess_of (Machine.BpVector.excess_sim hs (BpVector.excess_eq hi hg pos (by omega)))
  have d : W (pos / 64 / 4) - 1 = W (pos/256 - 1) := by rw [Nat.div_div_eq_div_mul]; exact (W_sub _ 1 (by omega)).symm
  have ht' := searchMinTree_prev hi hg ht hs h32 hS (BpVector.exc l pos - 1) (by omega) (pos/256-1) (j/256) fuel hf (by omega) (by omega)
    ⟨j, by omega, by omega, by omega, by omega⟩ (fun c c1 c2 ⟨p, p1, p2, p3, p4⟩ => by have := hq p (by omega) (by omega); omega)
  unfold openFar
  rw [hx, of_some, done_bind, i32_eq _ (by omega) (by omega), of_some, done_bind, d, ht', done_bind]
  by_cases hc : (pos/256-1)/32 ≤ j / 256 / 32 + 1
  · rw [if_pos hc, if_pos (by omega)]
    have h1 := BpVector.blockExcess_eq hi.rs hg.nonneg hg.small (j/256+1) (by omega)
    have h2 := BpVector.findOpenInBlock_spec hi.excBits.symm (BpVector.exc l pos - 1) j hE (j/256*4) 4 _ (by omega) (by omega) rfl (by omega)
      (by intro q q1 q2; exact hq q q1 (by omega))
    rw [if_pos (by omega), show 64*(j/256*4+4) = 256*(j/256+1) by omega] at h2
    have h2' := findOpenInBlock_of (Machine.BpVector.findOpenInBlock_sim hbl (by omega) h2)
    have d5 : W (j/256) * 4 = W (j/256 * 4) := (W_mul _ _).symm
    have d6 : W (j/256) + 1 = W (j/256 + 1) := (W_add _ _).symm
    rw [d6, show blockExcess (enc w).rs (W (j/256+1)) = _ from blockExcess_of (Machine.BpVector.blockExcess_sim hs.rs hs.len h1).1, of_some, done_bind,
      i32_eq _ (by omega) (by omega), of_some, done_bind, d5, show (enc w).rs.bv.bits = w.rs.bv.bits from rfl, show (4 : Word) = W 4 from rfl, h2',
      of_some, done_bind]
    rfl
  · rw [if_neg hc, if_neg (by omega), blockExcess_beyond hs hl32 (notFound + 1) (Or.inr (by decide))]
    rfl

end Release
end Succinct
