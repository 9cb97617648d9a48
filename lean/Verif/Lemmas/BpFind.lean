import Verif.Lemmas.BpSearch

/-! `find_close`, `find_open` and `enclose` of `bp_vector`. -/
namespace Succinct
open Broadword Bp
open RSBitVector (bind_pure_some)

theorem paddedClose_bit (ov : Word → Nat → Word) (w : Word) (s : Nat) (hs : s < 64) (i : Nat) (hi : i < 64) :
    ((w >>> s) ||| (negBool (s ≠ 0) &&& shlOv ov (BitVec.allOnes 64) (64 - s))).getLsbD i =
      if i < 64 - s then w.getLsbD (s+i) else true := by
  rw [BitVec.getLsbD_or, BitVec.getLsbD_ushiftRight, BitVec.getLsbD_and]
  unfold negBool shlOv
  by_cases h0 : s = 0
  · subst h0
    simp [hi]
  · rw [if_pos (by simpa using h0), if_pos (by omega)]
    by_cases h : i < 64 - s
    · simp [h, hi]
    · rw [if_neg h, BitVec.getLsbD_allOnes, BitVec.getLsbD_shiftLeft, BitVec.getLsbD_allOnes]
      simp [h, hi, show i - (64 - s) < 64 by omega]

theorem shiftedOpen_bit (ov : Word → Nat → Word) (w : Word) (s : Nat) (hs : s < 64) (i : Nat) (hi : i < 64) :
    (negBool (s ≠ 0) &&& shlOv ov w (64 - s)).getLsbD i = (decide (64 - s ≤ i) && w.getLsbD (i - (64 - s))) := by
  rw [BitVec.getLsbD_and]
  unfold negBool shlOv
  by_cases h0 : s = 0
  · subst h0
    simp [show ¬ 64 ≤ i by omega]
  · rw [if_pos (by simpa using h0), if_pos (by omega)]
    by_cases h : i < 64 - s
    · simp [hi, h, show ¬ 64 - s ≤ i by omega]
    · rw [BitVec.getLsbD_allOnes, BitVec.getLsbD_shiftLeft]
      simp [hi, h, show 64 - s ≤ i by omega]

theorem excF_true {f : Nat → Bool} {a b : Nat} (hab : a ≤ b) (h : ∀ i, a ≤ i → i < b → f i = true) :
    excF f b = excF f a + (b - a) := by
  obtain ⟨c, rfl⟩ := Nat.exists_eq_add_of_le hab
  rw [excF_add]
  unfold excF
  rw [cnt_true (f := fun i => f (a+i)) (n := c) (fun i hi => h _ (by omega) (by omega))]
  push_cast; omega

theorem excF_false {f : Nat → Bool} {a b : Nat} (hab : a ≤ b) (h : ∀ i, a ≤ i → i < b → f i = false) :
    excF f b = excF f a - (b - a) := by
  obtain ⟨c, rfl⟩ := Nat.exists_eq_add_of_le hab
  rw [excF_add]
  unfold excF
  rw [cnt_false (f := fun i => f (a+i)) (n := c) (fun i hi => h _ (by omega) (by omega))]
  push_cast; omega

namespace BpVector

variable {v : BpVector} {l : List Bool}

theorem Inv0.excBits (hi : Inv0 v l) : excF (wbit v.rs.bv.bits) = exc l := by
  have : wbit v.rs.bv.bits = bitFn l := funext hi.rs.rep.repr.bit
  rw [this]
  first | done | rfl

theorem excess_eq (hi : Inv0 v l) (hg : Mild l) (p : Nat) (hp : p ≤ l.length) : excess v p = some (exc l p) := by
  unfold excess
  rw [RSBitVector.rank_eq hi.rs p hp, bind_pure_some]
  have h1 := hg.nonneg p hp
  have h2 := hg.small p hp
  have hl := hg.len
  unfold exc excF at h1 h2
  rw [toI32_eq _ (by omega) (by omega)]
  rfl

theorem findClose_spec (ov : Word → Nat → Word) (hi : Inv v l) (hg : Good l) (pos j : Nat) (hpj : pos < j) (hj : j < l.length)
    (hb : bitFn l pos = true) (hE : exc l (j+1) = exc l pos) (hq : ∀ q, pos < q → q ≤ j → exc l pos < exc l q) :
    findClose ov v pos = some j := by
  have hl := hg.len
  have hlen := hi.rs.rep.len
  have hbits := hi.excBits
  have hE' := hbits.symm
  have hE1 : exc l (pos+1) = exc l pos + 1 := by
    have := excF_succ (bitFn l) pos; rw [hb] at this; simpa [exc] using this
  unfold findClose
  rw [BitVector.access_eq hi.rs.rep pos (by omega), bind_pure_some, hb, assertP_eq _ rfl, bind_pure_some]
  simp only []
  rw [rd_eq _ _ (show (pos+1)/64 < v.rs.bv.bits.length by omega), bind_pure_some]
  have hw : v.rs.bv.bits[(pos+1)/64]? = some (v.rs.bv.bits[(pos+1)/64]'(by omega)) := List.getElem?_eq_getElem _
  generalize v.rs.bv.bits[(pos+1)/64]'(by omega) = w at hw ⊢
  have hwx := word_exc hw
  rw [hbits] at hwx
  have hpad := paddedClose_bit ov w ((pos+1)%64) (by omega)
  generalize (w >>> ((pos+1)%64)) ||| (negBool ((pos+1)%64 ≠ 0) &&& shlOv ov (BitVec.allOnes 64) (64 - (pos+1)%64)) = pw at hpad ⊢
  generalize hsd : (pos+1)%64 = sh at *
  generalize hwd : (pos+1)/64 = wp at *
  have hpos : pos + 1 = 64*wp + sh := by omega
  have hsh : sh < 64 := by omega
  have hin : ∀ i, i ≤ 64 - sh → excF pw.getLsbD i = exc l (pos+1+i) - exc l (pos+1) := by
    intro i hii
    rw [excF_congr (g := fun t => w.getLsbD (sh+t)) (fun t ht => by rw [hpad t (by omega), if_pos (by omega)])]
    have e1 := excF_add w.getLsbD sh i
    have e2 := hwx (sh+i) (by omega)
    have e3 := hwx sh (by omega)
    rw [hpos, show 64*wp+sh+i = 64*wp+(sh+i) by omega]
    omega
  have hout : ∀ i, 64 - sh ≤ i → i ≤ 64 → excF pw.getLsbD i = excF pw.getLsbD (64-sh) + (i - (64 - sh)) := by
    intro i h1 h2
    have := excF_true (f := pw.getLsbD) h1 (fun t ht1 ht2 => by rw [hpad t (by omega), if_neg (by omega)])
    omega
  have hend : exc l (pos+1+(64-sh)) = exc l (64*(wp+1)) := by congr 1; omega
  rcases findCloseInWord_spec pw 1 (by omega) (by omega) with ⟨e1, e2⟩ | ⟨r, e1, r1, r2, r3⟩
  · rw [e1, bind_pure_some]
    simp only []
    have hjw : 64*(wp+1) ≤ j := by
      by_contra hh
      have h1 := hin (j+1-(pos+1)) (by omega)
      have h2 := e2 (j+1-(pos+1)) (by omega)
      rw [show pos+1+(j+1-(pos+1)) = j+1 by omega] at h1
      omega
    have hbs := bytesSum_eq pw
    have h64 := hout 64 (by omega) (by omega)
    have hi64 := hin (64-sh) (by omega)
    have hd := excF_diff (bitFn l) (show pos+1 ≤ pos+1+(64-sh) by omega)
    have hd' : exc l (pos+1) - (64 - sh) ≤ exc l (pos+1+(64-sh)) ∧ exc l (pos+1+(64-sh)) ≤ exc l (pos+1) + (64-sh) := by
      constructor
      · have := hd.2; simp only [exc]; push_cast [show sh ≤ 64 by omega] at this; omega
      · have := hd.1; simp only [exc]; push_cast [show sh ≤ 64 by omega] at this; omega
    clear hd
    rw [subU_eq _ _ (by omega), bind_pure_some]
    have hq64 := hq (64*(wp+1)) (by omega) (by omega)
    rw [toI32_eq _ (by omega) (by omega), i32_eq _ (by omega) (by omega), bind_pure_some]
    rw [findCloseInBlock_spec hE' (exc l pos) j hE (by omega) (wp/4*4) (wp%4+1) _ (by omega) (by
      rw [show wp/4*4+(wp%4+1) = wp+1 by omega]; omega) (by omega) (by intro q q1 q2; exact hq q (by omega) q2), bind_pure_some]
    by_cases hblk : j < 64*(wp/4*4+4)
    · rw [if_pos hblk]
      rfl
    · rw [if_neg hblk]
      simp only []
      obtain ⟨c, ec, c1, c2, c3, c4⟩ := searchMinTree_fwd hi hg (by omega) (exc l pos) (wp/4+1) (j/256) (by omega) (by omega)
        ⟨j+1, by omega, by omega, by omega, by omega⟩
      have hcj : c = j/256 := by
        obtain ⟨p, p1, p2, p3, p4⟩ := c3
        have : ¬ p ≤ j := fun hh => by have := hq p (by omega) hh; omega
        have : ¬ j/256 < c := fun hh => c4 (j/256) (by omega) hh ⟨j+1, by omega, by omega, by omega, by omega⟩
        omega
      subst hcj
      have n1 := hg.nonneg pos (by omega)
      have n2 := hg.small pos (by omega)
      have n3 := hg.nonneg (256*(j/256)) (by omega)
      have n4 := hg.small (256*(j/256)) (by omega)
      rw [excess_eq hi.toInv0 hg.toMild pos (by omega), bind_pure_some, ec, bind_pure_some, blockExcess_eq hi.rs hg.nonneg hg.small _ (by omega), bind_pure_some,
        i32_eq _ (by omega) (by omega), bind_pure_some,
        findCloseInBlock_spec hE' (exc l pos) j hE (by omega) (j/256*4) 0 _ (by omega) (by
          rw [show 64*(j/256*4+0) = 256*(j/256) by omega]) (by omega) (by intro q q1 q2; exact hq q (by omega) q2), bind_pure_some, if_pos (by omega)]
  · rw [e1, bind_pure_some]
    have hr : r + 1 ≤ 64 - sh := by
      by_contra hh
      have h1 := hout (r+1) (by omega) (by omega)
      have h2 := r3 (64-sh) (by omega)
      omega
    have h1 := hin (r+1) hr
    have : j = pos + 1 + r := by
      rcases Nat.lt_trichotomy j (pos+1+r) with hh | hh | hh
      · have h2 := r3 (j-pos) (by omega)
        have h3 := hin (j-pos) (by omega)
        rw [show pos+1+(j-pos) = j+1 by omega] at h3
        omega
      · exact hh
      · have h2 := hq (pos+1+(r+1)) (by omega) (by omega)
        omega
    subst this
    exact congrArg some (by omega)

theorem findOpen_spec (ov : Word → Nat → Word) (hi : Inv v l) (hg : Good l) (pos j : Nat) (hpj : j < pos) (hpl : pos < l.length)
    (hE : exc l j = exc l pos - 1) (hq : ∀ q, j < q → q ≤ pos → exc l pos - 1 < exc l q) :
    findOpen ov v pos = some j := by
  have hl := hg.len
  have hlen := hi.rs.rep.len
  have hbits := hi.excBits
  have hE' := hbits.symm
  unfold findOpen
  rw [assertP_eq _ (show pos ≠ 0 by omega), bind_pure_some]
  simp only []
  rw [rd_eq _ _ (show pos/64 < v.rs.bv.bits.length by omega), bind_pure_some]
  have hw : v.rs.bv.bits[pos/64]? = some (v.rs.bv.bits[pos/64]'(by omega)) := List.getElem?_eq_getElem _
  generalize v.rs.bv.bits[pos/64]'(by omega) = w at hw ⊢
  have hwx := word_exc hw
  rw [hbits] at hwx
  have hpad := shiftedOpen_bit ov w (pos%64) (by omega)
  generalize (negBool (pos%64 ≠ 0) &&& shlOv ov w (64 - pos%64)) = pw at hpad ⊢
  generalize hsd : pos%64 = sh at *
  generalize hwd : pos/64 = wp at *
  have hpos : pos = 64*wp + sh := by omega
  have hsh : sh < 64 := by omega
  have hlo : ∀ i, i ≤ 64 - sh → excF pw.getLsbD i = -i := by
    intro i hii
    have := excF_false (f := pw.getLsbD) (Nat.zero_le i) (fun t ht1 ht2 => by rw [hpad t (by omega)]; simp; omega)
    rw [excF_zero] at this; omega
  have hin : ∀ i, i ≤ sh → excF pw.getLsbD (64 - sh + i) = -((64 - sh : Nat) : Int) + (exc l (64*wp+i) - exc l (64*wp)) := by
    intro i hii
    rw [excF_add, hlo _ (Nat.le_refl _), ← hwx i (by omega),
      excF_congr (f := fun t => pw.getLsbD (64-sh+t)) (g := w.getLsbD) (fun t ht => by rw [hpad _ (by omega), Nat.add_sub_cancel_left]; simp)]
  have h64 := hin sh (by omega)
  rw [show 64 - sh + sh = 64 by omega, ← hpos] at h64
  rcases findOpenInWord_spec pw 1 (by omega) (by omega) with ⟨e1, e2⟩ | ⟨r, e1, r1, r2, r3⟩
  · rw [e1, bind_pure_some]
    simp only []
    have hjw : j < 64*wp := by
      by_contra hh
      have h1 := hin (j - 64*wp) (by omega)
      have h2 := e2 (64-sh+(j - 64*wp)) (by omega)
      rw [show 64*wp+(j-64*wp) = j by omega] at h1
      omega
    have hbs := bytesSum_eq pw
    have hd := excF_diff (bitFn l) (show 64*wp ≤ pos by omega)
    have hd' : exc l (64*wp) - sh ≤ exc l pos ∧ exc l pos ≤ exc l (64*wp) + sh := by
      constructor
      · have := hd.2; simp only [exc]; omega
      · have := hd.1; simp only [exc]; omega
    clear hd
    rw [toI32_eq _ (by omega) (by omega), i32_eq _ (by omega) (by omega), bind_pure_some, i32_eq _ (by omega) (by omega), bind_pure_some]
    have hwl : wp/4*4 + wp%4 = wp := by omega
    rw [findOpenInBlock_spec hE' (exc l pos - 1) j hE (wp/4*4) (wp%4) _ (by omega) (by omega) (by
      rw [hwl]; omega) (by omega) (by intro q q1 q2; exact hq q q1 (by omega)), bind_pure_some]
    by_cases hblk : 64*(wp/4*4) ≤ j
    · rw [if_pos hblk]
      rfl
    · rw [if_neg hblk]
      simp only []
      have n1 := hg.nonneg pos (by omega)
      have n2 := hg.small pos (by omega)
      obtain ⟨c, ec, c1, c3, c4⟩ := searchMinTree_bwd hi hg (by omega) (exc l pos - 1) (wp/4-1) (j/256) (by omega) (by omega)
        ⟨j, by omega, by omega, by omega, by omega⟩
      have hcj : c = j/256 := by
        obtain ⟨p, p1, p2, p3, p4⟩ := c3
        have : ¬ j < p := fun hh => by have := hq p hh (by omega); omega
        have : ¬ c < j/256 := fun hh => c4 (j/256) hh (by omega) ⟨j, by omega, by omega, by omega, by omega⟩
        omega
      subst hcj
      have n3 := hg.nonneg (256*(j/256+1)) (by omega)
      have n4 := hg.small (256*(j/256+1)) (by omega)
      rw [excess_eq hi.toInv0 hg.toMild pos (by omega), bind_pure_some, i32_eq _ (by omega) (by omega), bind_pure_some,
        subU_eq _ _ (by omega), bind_pure_some, ec, bind_pure_some, blockExcess_eq hi.rs hg.nonneg hg.small _ (by omega), bind_pure_some,
        i32_eq _ (by omega) (by omega), bind_pure_some,
        findOpenInBlock_spec hE' (exc l pos - 1) j hE (j/256*4) 4 _ (by omega) (by omega) (by
          rw [show 64*(j/256*4+4) = 256*(j/256+1) by omega]) (by omega) (by intro q q1 q2; exact hq q q1 (by omega)), bind_pure_some, if_pos (by omega)]
  · rw [e1, bind_pure_some]
    have hr : 64 - sh ≤ r := by
      by_contra hh
      have h1 := hlo r (by omega)
      have h2 := hlo (64-sh) (by omega)
      have h3 := r3 (64-sh) (by omega) (by omega)
      omega
    have h1 := hin (r-(64-sh)) (by omega)
    rw [show 64-sh+(r-(64-sh)) = r by omega] at h1
    have : j + 64 = r + pos := by
      rcases Nat.lt_trichotomy (j+64) (r+pos) with hh | hh | hh
      · have h2 := hq (64*wp+(r-(64-sh))) (by omega) (by omega)
        omega
      · exact hh
      · have h2 := r3 (64-sh+(j - 64*wp)) (by omega) (by omega)
        have h3 := hin (j-64*wp) (by omega)
        rw [show 64*wp+(j-64*wp) = j by omega] at h3
        omega
    simp only []
    rw [subU_eq _ _ (by omega)]
    exact congrArg some (by omega)

theorem enclose_spec (ov : Word → Nat → Word) (hi : Inv v l) (hg : Good l) (pos j : Nat) (hpj : j < pos) (hpl : pos < l.length)
    (hb : bitFn l pos = true)
    (hE : exc l j = exc l pos - 1) (hq : ∀ q, j < q → q ≤ pos → exc l pos - 1 < exc l q) :
    enclose ov v pos = some j := by
  unfold enclose
  rw [BitVector.access_eq hi.rs.rep pos hpl, bind_pure_some, hb, assertP_eq _ rfl, bind_pure_some]
  exact findOpen_spec ov hi hg pos j hpj hpl hE hq

end BpVector
end Succinct
