import Verif.Lemmas.BpFind
import Verif.Spec.Parens

/-! Balanced sequences and the excess function. -/
namespace Succinct
open Spec
open BpVector (exc Good)

theorem spec_excess_eq (l : List Bool) (p : Nat) (hp : p ≤ l.length) : Spec.excess l p = exc l p := by
  unfold Spec.excess exc excF
  have h := count_add_count (l.take p)
  rw [List.length_take, Nat.min_eq_left hp] at h
  rw [← count_take_eq_cnt]
  omega

theorem exc_append_left (a b : List Bool) (p : Nat) (hp : p ≤ a.length) : exc (a ++ b) p = exc a p :=
  excF_congr (fun i hi => by rw [bitFn_append, if_pos (by omega)])

theorem exc_append_right (a b : List Bool) (p : Nat) : exc (a ++ b) (a.length + p) = exc a a.length + exc b p := by
  rw [← exc_append_left a b a.length (Nat.le_refl _)]
  unfold exc
  rw [excF_add]
  congr 1
  exact excF_congr (fun i hi => by rw [bitFn_append, if_neg (by omega), Nat.add_sub_cancel_left])

theorem exc_sub (l : List Bool) (a n p : Nat) (hp : p ≤ n) : exc ((l.drop a).take n) p = exc l (a+p) - exc l a := by
  unfold exc
  rw [excF_add]
  have : excF (bitFn ((l.drop a).take n)) p = excF (fun i => bitFn l (a+i)) p := by
    apply excF_congr
    intro i hi
    unfold bitFn
    rw [List.getD_eq_getElem?_getD, List.getD_eq_getElem?_getD, List.getElem?_take, if_pos (by omega), List.getElem?_drop]
  rw [this]; omega

/-- the counting characterisation of balance -/
structure Dyck (l : List Bool) : Prop where
  nonneg : ∀ p, p ≤ l.length → 0 ≤ exc l p
  zero : exc l l.length = 0

theorem Bal.dyck {l : List Bool} (h : Bal l) : Dyck l := by
  induction h with
  | nil => exact ⟨fun p hp => by simp at hp; subst hp; simp [exc, excF_zero], by simp [exc, excF_zero]⟩
  | node ha hb iha ihb =>
    rename_i a b
    have e1 : true :: a ++ false :: b = ([true] ++ a) ++ ([false] ++ b) := by simp
    have h1 : ∀ p, p ≤ a.length → exc ([true] ++ a) (1+p) = 1 + exc a p := by
      intro p hp
      have := exc_append_right [true] a p
      simpa [exc, excF, cnt_succ, bitFn] using this
    have h2 : ∀ p, exc ([false] ++ b) (1+p) = -1 + exc b p := by
      intro p
      have := exc_append_right [false] b p
      simpa [exc, excF, cnt_succ, bitFn] using this
    have hl : ([true] ++ a).length = 1 + a.length := by simp; omega
    have hlb : ([false] ++ b).length = 1 + b.length := by simp; omega
    have hla := h1 a.length (Nat.le_refl _)
    rw [iha.zero] at hla
    rw [e1]
    constructor
    · intro p hp
      rw [List.length_append, hl, hlb] at hp
      rcases Nat.lt_or_ge p (1 + a.length + 1) with hh | hh
      · rw [exc_append_left _ _ _ (by omega)]
        rcases Nat.eq_zero_or_pos p with h0 | h0
        · subst h0; simp [exc, excF_zero]
        · have := h1 (p-1) (by omega)
          rw [show 1+(p-1) = p by omega] at this
          have := iha.nonneg (p-1) (by omega)
          omega
      · have e := exc_append_right ([true] ++ a) ([false] ++ b) (p - (1+a.length))
        rw [hl, show 1+a.length+(p-(1+a.length)) = p by omega] at e
        have := h2 (p-(1+a.length)-1)
        rw [show 1+(p-(1+a.length)-1) = p-(1+a.length) by omega] at this
        have := ihb.nonneg (p-(1+a.length)-1) (by omega)
        omega
    · rw [List.length_append, exc_append_right, hl, hla, hlb, h2, ihb.zero]
      omega

theorem first_le {l : List Bool} (i : Nat) (hb : bitFn l i = true) (hend : ∃ q, i < q ∧ q ≤ l.length ∧ exc l q ≤ exc l i) :
    ∃ j, i < j ∧ j < l.length ∧ exc l (j+1) = exc l i ∧ ∀ q, i < q → q ≤ j → exc l i < exc l q := by
  classical
  obtain ⟨h1, h2, h3⟩ := Nat.find_spec hend
  have hmin := fun m (hm : m < Nat.find hend) => Nat.find_min hend hm
  generalize Nat.find hend = q at h1 h2 h3 hmin
  have hs : exc l (i+1) = exc l i + 1 := by
    have := excF_succ (bitFn l) i; rw [hb] at this; simpa [exc] using this
  have hq : i + 1 < q := by
    rcases Nat.lt_or_ge (i+1) q with hh | hh
    · exact hh
    · rw [show q = i+1 by omega] at h3; omega
  have hall : ∀ p, i < p → p < q → exc l i < exc l p := by
    intro p p1 p2
    by_contra hc
    exact hmin p p2 ⟨p1, by omega, by omega⟩
  have := hall (q-1) (by omega) (by omega)
  have hd := (excF_diff (bitFn l) (show q-1 ≤ q by omega)).2
  refine ⟨q-1, by omega, by omega, ?_, fun p p1 p2 => hall p p1 (by omega)⟩
  rw [show q-1+1 = q by omega]
  simp only [exc] at *
  omega

theorem dyck_bal : ∀ (n : Nat) (l : List Bool), l.length ≤ n → Dyck l → Bal l := by
  intro n
  induction n with
  | zero =>
    intro l hl _
    rw [List.eq_nil_of_length_eq_zero (l := l) (by omega)]; exact Bal.nil
  | succ n ih =>
    intro l hl hd
    rcases Nat.eq_zero_or_pos l.length with h0 | h0
    · rw [List.eq_nil_of_length_eq_zero h0]; exact Bal.nil
    · have hE0 : exc l 0 = 0 := excF_zero _
      have hb : bitFn l 0 = true := by
        have h1 := hd.nonneg 1 (by omega)
        have h2 := excF_succ (bitFn l) 0
        by_contra hc
        rw [if_neg hc, excF_zero] at h2
        simp only [exc] at h1; rw [Nat.zero_add] at h2; omega
      obtain ⟨j, j1, j2, j3, j4⟩ := first_le 0 hb ⟨l.length, h0, Nat.le_refl _, by rw [hd.zero, hE0]⟩
      have hbj : bitFn l j = false := by
        by_contra hc
        have h2 := excF_succ (bitFn l) j
        rw [if_pos (by simpa using hc)] at h2
        have := j4 j j1 (Nat.le_refl _)
        simp only [exc] at *; omega
      have hEj : exc l j = 1 := by
        have h2 := excF_succ (bitFn l) j
        rw [hbj] at h2; simp at h2; simp only [exc] at *; omega
      have hE1 : exc l 1 = 1 := by
        have h2 := excF_succ (bitFn l) 0
        rw [hb, excF_zero] at h2; simpa [exc] using h2
      have hsplit : l = true :: ((l.drop 1).take (j-1)) ++ false :: ((l.drop (j+1)).take (l.length - (j+1))) := by
        apply List.ext_getElem?
        intro i
        have e0 := bitFn_getElem? l 0 h0
        have ej := bitFn_getElem? l j j2
        rw [hb] at e0
        rw [hbj] at ej
        rcases Nat.eq_zero_or_pos i with hi | hi
        · subst hi; simpa using e0
        · rcases Nat.lt_trichotomy i j with hh | hh | hh
          · rw [List.getElem?_append_left (by simp; omega), show i = (i-1)+1 by omega, List.getElem?_cons_succ, List.getElem?_take, if_pos (by omega), List.getElem?_drop]
            congr 1; omega
          · subst hh
            rw [List.getElem?_append_right (by simp; omega)]
            rw [show i - (true :: ((l.drop 1).take (i-1))).length = 0 by simp; omega]
            simpa using ej
          · rw [List.getElem?_append_right (by simp; omega)]
            rw [show i - (true :: ((l.drop 1).take (j-1))).length = (i-j-1)+1 by simp; omega, List.getElem?_cons_succ, List.take_of_length_le (by simp), List.getElem?_drop]
            congr 1; omega
      rw [hsplit]
      have hl1 : ((l.drop 1).take (j-1)).length = j-1 := by simp; omega
      have hl2 : ((l.drop (j+1)).take (l.length - (j+1))).length = l.length-(j+1) := by simp
      refine Bal.node (ih _ (by omega) ⟨fun p hp => ?_, ?_⟩) (ih _ (by omega) ⟨fun p hp => ?_, ?_⟩)
      · rw [exc_sub _ _ _ _ (by omega), hE1]
        have := j4 (1+p) (by omega) (by omega); omega
      · rw [hl1, exc_sub _ _ _ _ (Nat.le_refl _), show 1+(j-1) = j by omega]; omega
      · rw [exc_sub _ _ _ _ (by omega)]
        have := hd.nonneg (j+1+p) (by omega); omega
      · rw [hl2, exc_sub _ _ _ _ (Nat.le_refl _), show j+1+(l.length-(j+1)) = l.length by omega, hd.zero]; omega

theorem bal_iff (l : List Bool) : Bal l ↔ Dyck l := ⟨Bal.dyck, dyck_bal _ l (Nat.le_refl _)⟩

theorem Dyck.good {l : List Bool} (h : Dyck l) (hl : l.length < 2^31) : Good l := by
  refine ⟨⟨h.nonneg, fun p hp => ?_, by omega⟩, BpVector.wide_of_lt (by omega)⟩
  have h1 := excF_le (bitFn l) p
  have h2 := (excF_diff (bitFn l) hp).2
  have h3 := h.zero
  simp only [exc] at *
  omega

theorem matching_iff (l : List Bool) (i j : Nat) :
    Matching l i j ↔ i < j ∧ j < l.length ∧ bitFn l i = true ∧ exc l (j+1) = exc l i ∧ ∀ q, i < q → q ≤ j → exc l i < exc l q := by
  unfold Matching between
  constructor
  · rintro ⟨h1, h2, h3, h4⟩
    have hj : j < l.length := by
      by_contra hc; rw [List.getElem?_eq_none (by omega)] at h3; simp at h3
    rw [List.drop_take] at h4
    have hd := Bal.dyck h4
    have hl1 : ((l.drop (i+1)).take (j-(i+1))).length = j-(i+1) := by simp; omega
    have hbi := (bitFn_eq_true l i).2 h2
    have hbj : bitFn l j = false := by
      have := bitFn_getElem? l j hj; rw [h3] at this; simpa using this.symm
    have hEi : exc l (i+1) = exc l i + 1 := by
      have := excF_succ (bitFn l) i; rw [hbi] at this; simpa [exc] using this
    have hEj : exc l (j+1) = exc l j - 1 := by
      have := excF_succ (bitFn l) j; rw [hbj] at this; simp at this; simp only [exc]; omega
    have hz := hd.zero
    rw [hl1, exc_sub _ _ _ _ (Nat.le_refl _), show i+1+(j-(i+1)) = j by omega] at hz
    refine ⟨h1, hj, hbi, by omega, fun q q1 q2 => ?_⟩
    have := hd.nonneg (q-(i+1)) (by omega)
    rw [exc_sub _ _ _ _ (by omega), show i+1+(q-(i+1)) = q by omega] at this
    omega
  · rintro ⟨h1, h2, h3, h4, h5⟩
    have hEi : exc l (i+1) = exc l i + 1 := by
      have := excF_succ (bitFn l) i; rw [h3] at this; simpa [exc] using this
    have hbj : bitFn l j = false := by
      by_contra hc
      have h6 := excF_succ (bitFn l) j
      rw [if_pos (by simpa using hc)] at h6
      have := h5 j h1 (Nat.le_refl _)
      simp only [exc] at *; omega
    have hEj : exc l (j+1) = exc l j - 1 := by
      have := excF_succ (bitFn l) j; rw [hbj] at this; simp at this; simp only [exc]; omega
    have hl1 : ((l.drop (i+1)).take (j-(i+1))).length = j-(i+1) := by simp; omega
    refine ⟨h1, (bitFn_eq_true l i).1 h3, by rw [bitFn_getElem? l j h2, hbj], ?_⟩
    rw [List.drop_take, bal_iff]
    refine ⟨fun p hp => ?_, ?_⟩
    · rw [exc_sub _ _ _ _ (by omega)]
      have := h5 (i+1+p) (by omega) (by omega); omega
    · rw [hl1, exc_sub _ _ _ _ (Nat.le_refl _), show i+1+(j-(i+1)) = j by omega]; omega

theorem exists_close {l : List Bool} (h : Dyck l) (i : Nat) (hi : l[i]? = some true) : ∃ j, Matching l i j := by
  have hb := (bitFn_eq_true l i).2 hi
  have hil := bitFn_lt l i hb
  obtain ⟨j, h1, h2, h3, h4⟩ := first_le i hb ⟨l.length, hil, Nat.le_refl _, by rw [h.zero]; exact h.nonneg i (by omega)⟩
  exact ⟨j, (matching_iff l i j).2 ⟨h1, h2, hb, h3, h4⟩⟩

/-- the nearest earlier position of smaller excess -/
theorem exists_prev {l : List Bool} (i p : Nat) (hp : p < i) (hE : exc l p < exc l i) :
    ∃ j, j < i ∧ p ≤ j ∧ exc l j = exc l i - 1 ∧ (∀ q, j < q → q ≤ i → exc l i - 1 < exc l q) ∧ bitFn l j = true := by
  classical
  have hex : ∃ d, d < i ∧ exc l (i - 1 - d) < exc l i := ⟨i-1-p, by omega, by rw [show i-1-(i-1-p) = p by omega]; exact hE⟩
  obtain ⟨d1, d2⟩ := Nat.find_spec hex
  have dmin := fun x (hx : x < Nat.find hex) => Nat.find_min hex hx
  have hdp : Nat.find hex ≤ i-1-p := Nat.find_min' hex ⟨by omega, by rw [show i-1-(i-1-p) = p by omega]; exact hE⟩
  generalize Nat.find hex = d at d1 d2 dmin hdp
  have hab : ∀ q, i-1-d < q → q ≤ i → exc l i ≤ exc l q := by
    intro q q1 q2
    rcases Nat.lt_or_ge q i with hh | hh
    · by_contra hc
      exact dmin (i-1-q) (by omega) ⟨by omega, by rw [show i-1-(i-1-q) = q by omega]; omega⟩
    · rw [show q = i by omega]
  have h1 := hab (i-1-d+1) (by omega) (by omega)
  have h2 := (excF_diff (bitFn l) (show i-1-d ≤ i-1-d+1 by omega)).1
  have h3 := excF_succ (bitFn l) (i-1-d)
  refine ⟨i-1-d, by omega, by omega, by simp only [exc] at *; omega, fun q q1 q2 => by have := hab q q1 q2; omega, ?_⟩
  by_contra hc
  rw [if_neg hc] at h3
  simp only [exc] at *; omega

theorem exists_open {l : List Bool} (h : Dyck l) (j : Nat) (hj : l[j]? = some false) : ∃ i, Matching l i j := by
  have hjl : j < l.length := by
    by_contra hc; rw [List.getElem?_eq_none (by omega)] at hj; simp at hj
  have hbj : bitFn l j = false := by
    have := bitFn_getElem? l j hjl; rw [hj] at this; simpa using this.symm
  have hEj : exc l (j+1) = exc l j - 1 := by
    have := excF_succ (bitFn l) j; rw [hbj] at this; simp at this; simp only [exc]; omega
  have h1 := h.nonneg (j+1) (by omega)
  have hE0 : exc l 0 = 0 := excF_zero _
  have hj0 : 0 < j := by
    rcases Nat.eq_zero_or_pos j with hh | hh
    · subst hh; omega
    · exact hh
  obtain ⟨i, i1, i2, i3, i4, i5⟩ := exists_prev (l := l) j 0 hj0 (by omega)
  exact ⟨i, (matching_iff l i j).2 ⟨i1, hjl, i5, by omega, fun q q1 q2 => by have := i4 q q1 q2; omega⟩⟩

theorem matching_unique_close {l : List Bool} {i j j' : Nat} (h : Matching l i j) (h' : Matching l i j') : j = j' := by
  rw [matching_iff] at h h'
  obtain ⟨a1, a2, a3, a4, a5⟩ := h
  obtain ⟨b1, b2, b3, b4, b5⟩ := h'
  rcases Nat.lt_trichotomy j j' with hh | hh | hh
  · have := b5 (j+1) (by omega) (by omega); omega
  · exact hh
  · have := a5 (j'+1) (by omega) (by omega); omega

theorem matching_unique_open {l : List Bool} {i i' j : Nat} (h : Matching l i j) (h' : Matching l i' j) : i = i' := by
  rw [matching_iff] at h h'
  obtain ⟨a1, a2, a3, a4, a5⟩ := h
  obtain ⟨b1, b2, b3, b4, b5⟩ := h'
  rcases Nat.lt_trichotomy i i' with hh | hh | hh
  · have := a5 i' (by omega) (by omega); omega
  · exact hh
  · have := b5 i (by omega) (by omega); omega

theorem exists_enclose {l : List Bool} (h : Dyck l) {i j p0 q0 : Nat} (hm : Matching l i j) (h0 : Matching l p0 q0) (hp : p0 < i) (hq : i < q0) :
    ∃ p, IsEnclose l i j p ∧ p < i ∧ exc l p = exc l i - 1 ∧ ∀ q, p < q → q ≤ i → exc l i - 1 < exc l q := by
  rw [matching_iff] at hm h0
  obtain ⟨a1, a2, a3, a4, a5⟩ := hm
  obtain ⟨b1, b2, b3, b4, b5⟩ := h0
  obtain ⟨p, p1, p2, p3, p4, p5⟩ := exists_prev (l := l) i p0 hp (b5 i hp (by omega))
  obtain ⟨q, hpq⟩ := exists_close h p ((bitFn_eq_true l p).1 p5)
  have hpq' := hpq
  rw [matching_iff] at hpq'
  obtain ⟨c1, c2, c3, c4, c5⟩ := hpq'
  have hjq : j < q := by
    by_contra hc
    rcases Nat.lt_or_ge (q+1) (i+1) with hh | hh
    · have := p4 (q+1) (by omega) (by omega); omega
    · have := a5 (q+1) (by omega)
      rcases Nat.lt_or_ge q j with hj | hj
      · have := this (by omega); omega
      · have : q = j := by omega
        subst this; omega
  refine ⟨p, ⟨q, hpq, p1, hjq, fun p' q' hm' hp' hq' => ?_⟩, p1, p3, p4⟩
  rw [matching_iff] at hm'
  obtain ⟨d1, d2, d3, d4, d5⟩ := hm'
  have hpp : p' ≤ p := by
    by_contra hc
    have h1 := p4 p' (by omega) (by omega)
    have h2 := d5 i hp' (by omega)
    omega
  refine ⟨hpp, ?_⟩
  by_contra hc
  have h1 := c5 (q'+1) (by omega) (by omega)
  rcases Nat.eq_or_lt_of_le hpp with hh | hh
  · subst hh; omega
  · have := d5 p hh (by omega); omega

end Succinct
