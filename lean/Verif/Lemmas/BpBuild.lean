import Verif.Lemmas.BpBlock

/-! The tables built by `bp_vector::build_min_tree`. -/
namespace Succinct
open Broadword Bp
open RSBitVector (bind_pure_some)

namespace BpVector

theorem assertP_some {c : Prop} [Decidable c] {u : Unit} (h : assertP c = some u) : c := by
  unfold assertP at h
  split at h
  · assumption
  · simp at h

/-- excess of a bit sequence (closing parentheses after its end) -/
abbrev exc (l : List Bool) : Nat → Int := excF (bitFn l)

/-- some position of superblock `t` has excess at most `x` -/
def SM (E : Nat → Int) (len t : Nat) (x : Int) : Prop := ∃ p, 8192*t ≤ p ∧ p ≤ 8192*(t+1) ∧ p ≤ len ∧ E p ≤ x

/-- what the structure needs of the bit sequence -/
structure Mild (l : List Bool) : Prop where
  nonneg : ∀ p, p ≤ l.length → 0 ≤ exc l p
  small : ∀ p, p ≤ l.length → exc l p < 2147483584
  len : l.length < 2^64

/-- … and in every superblock the excess goes below the value that the tree starts from -/
structure Good (l : List Bool) : Prop extends Mild l where
  wide : ∀ s, 8192*s < l.length → SM (exc l) l.length s (toI32 l.length - 1)

/-- below `2^31` bits the excess is always less than the size -/
theorem wide_of_lt {l : List Bool} (hl : l.length < 2147483648) (s : Nat) (hs : 8192*s < l.length) :
    SM (exc l) l.length s (toI32 l.length - 1) := by
  rw [toI32_eq _ (by omega) (by omega)]
  exact ⟨8192*s, by omega, by omega, by omega, by have := excF_le (bitFn l) (8192*s); simp only [exc]; omega⟩

/-- `base + m` is the minimum of `E` over `[lo, hi]` -/
def MinOK (E : Nat → Int) (lo hi : Nat) (base m : Int) : Prop :=
  ∀ x, base + m ≤ x ↔ ∃ p, lo ≤ p ∧ p ≤ hi ∧ E p ≤ x

theorem MinOK.attained {E : Nat → Int} {lo hi : Nat} {base m : Int} (h : MinOK E lo hi base m) :
    ∃ p, lo ≤ p ∧ p ≤ hi ∧ E p = base + m := by
  obtain ⟨p, h1, h2, h3⟩ := (h _).1 (Int.le_refl _)
  have := (h (E p)).2 ⟨p, h1, h2, Int.le_refl _⟩
  exact ⟨p, h1, h2, by omega⟩

theorem and_one_shl (w : Word) (i : Nat) (hi : i < 64) : (w &&& (1#64 <<< i) ≠ 0) ↔ w.getLsbD i = true := by
  constructor
  · intro h
    by_contra hn
    apply h
    apply BitVec.eq_of_getLsbD_eq
    intro t ht
    rw [BitVec.getLsbD_and, getLsbD_one_shl i t ht]
    by_cases hti : t = i
    · subst hti; simp at hn; simp [hn]
    · simp [hti]
  · intro h h0
    have : (w &&& (1#64 <<< i)).getLsbD i = false := by rw [h0]; simp
    rw [BitVec.getLsbD_and, getLsbD_one_shl i i hi, h] at this
    simp at this

theorem bitLoop_spec (w : Word) : ∀ (k i : Nat) (m c : Int), i + k ≤ 64 →
    (bitLoop w k (1#64 <<< i) m c).2 = c + excF w.getLsbD (i+k) - excF w.getLsbD i ∧
    ∀ x, (bitLoop w k (1#64 <<< i) m c).1 ≤ x ↔ m ≤ x ∨ ∃ t, i < t ∧ t ≤ i+k ∧ c + excF w.getLsbD t - excF w.getLsbD i ≤ x := by
  intro k
  induction k with
  | zero =>
    intro i m c _
    unfold bitLoop
    refine ⟨by simp, fun x => ⟨fun h => Or.inl h, ?_⟩⟩
    rintro (h | ⟨t, h1, h2, _⟩)
    · exact h
    · omega
  | succ k ih =>
    intro i m c hk
    unfold bitLoop
    simp only []
    have e : (if w &&& (1#64 <<< i) ≠ 0 then (1:Int) else -1) = excF w.getLsbD (i+1) - excF w.getLsbD i := by
      rw [excF_succ]
      simp only [and_one_shl w i (by omega)]; omega
    rw [e, ← BitVec.shiftLeft_add]
    obtain ⟨h1, h2⟩ := ih (i+1) (min m (c + (excF w.getLsbD (i+1) - excF w.getLsbD i))) (c + (excF w.getLsbD (i+1) - excF w.getLsbD i)) (by omega)
    refine ⟨by rw [h1, show i+1+k = i+(k+1) by omega]; omega, fun x => ?_⟩
    rw [h2]
    constructor
    · rintro (h | ⟨t, ha, hb, hc⟩)
      · rcases Int.le_total m (c + (excF w.getLsbD (i+1) - excF w.getLsbD i)) with hm | hm
        · left; omega
        · right; exact ⟨i+1, by omega, by omega, by omega⟩
      · right; exact ⟨t, by omega, by omega, by omega⟩
    · rintro (h | ⟨t, ha, hb, hc⟩)
      · left; omega
      · rcases Nat.eq_or_lt_of_le (show i+1 ≤ t from ha) with ht | ht
        · left; subst ht; omega
        · right; exact ⟨t, by omega, by omega, by omega⟩

/-- state of the first loop when block `c` has been read up to position `P` -/
structure BS (E : Nat → Int) (c P : Nat) (st : BlockState) : Prop where
  len : st.mins.length = c
  mins : ∀ b, b < c → ∃ m, st.mins[b]? = some m ∧ MinOK E (256*b) (256*(b+1)) (E (8192*(b/32))) m
  cur : MinOK E (256*c) P (E (8192*(c/32))) st.curMin
  exc : st.curExc = E P - E (8192*(c/32))

variable {f : Nat → Bool} {E : Nat → Int}

theorem flushMin_eq (hE : E = excF f) (c hi : Nat) (mins : List Int) (m : Int) (hhi : hi ≤ 256*(c+1))
    (h : MinOK E (256*c) hi (E (8192*(c/32))) m) : flushMin mins m = some (mins ++ [m]) := by
  obtain ⟨p, h1, h2, h3⟩ := h.attained
  have := excF_diff f (show 8192*(c/32) ≤ p by omega)
  rw [← hE] at this
  unfold flushMin
  rw [assertP_eq _ (by omega), bind_pure_some, assertP_eq _ (by omega), bind_pure_some]; rfl

theorem blockStart_spec (hE : E = excF f) (o : Nat) (st : BlockState) (h0 : o = 0 → st = ⟨[], 0, 0⟩)
    (h1 : 0 < o → BS E ((o-1)/4) (64*o) st) : ∃ st', blockStart st o = some st' ∧ BS E (o/4) (64*o) st' := by
  have hz : E 0 = 0 := by rw [hE]; exact excF_zero f
  unfold blockStart
  by_cases hm : o % 4 = 0
  · rw [if_pos hm]
    simp only []
    by_cases ho : o = 0
    · subst ho
      rw [h0 rfl]
      refine ⟨_, rfl, ⟨rfl, by intro b hb; simp at hb, ?_, ?_⟩⟩
      · intro x
        simp only [Nat.reduceDiv, Nat.mul_zero, hz]
        constructor
        · intro h; exact ⟨0, by omega, by omega, by omega⟩
        · rintro ⟨p, _, hp, h⟩; rw [show p = 0 by omega, hz] at h; omega
      · simp [hz]
    · have hb := h1 (by omega)
      have hlast : 64*o = 256*((o-1)/4+1) := by omega
      have hcur := hb.cur
      rw [if_pos ho, flushMin_eq hE _ _ _ _ (by omega) hcur, bind_pure_some]
      refine ⟨_, rfl, ?_⟩
      have hexc : (if o % (4*32) = 0 then (0:Int) else st.curExc) = E (64*o) - E (8192*(o/4/32)) := by
        by_cases h128 : o % (4*32) = 0
        · rw [if_pos h128, show 8192*(o/4/32) = 64*o by omega]; omega
        · rw [if_neg h128, hb.exc]
          rw [show (o-1)/4/32 = o/4/32 by omega]
      constructor
      · simp [hb.len]; omega
      · intro b hbo
        rcases Nat.lt_or_ge b ((o-1)/4) with hlt | hge
        · obtain ⟨m, e1, e2⟩ := hb.mins b hlt
          refine ⟨m, ?_, e2⟩
          show (st.mins ++ [st.curMin])[b]? = _
          rw [List.getElem?_append_left (by rw [hb.len]; exact hlt), e1]
        · have hbe : b = (o-1)/4 := by omega
          refine ⟨st.curMin, ?_, ?_⟩
          · show (st.mins ++ [st.curMin])[b]? = _
            rw [hbe, ← hb.len]; simp
          · rw [hlast] at hcur; rw [hbe]; exact hcur
      · intro x
        simp only []
        rw [hexc, show 256*(o/4) = 64*o by omega]
        constructor
        · intro h; exact ⟨64*o, by omega, by omega, by omega⟩
        · rintro ⟨p, hp1, hp2, h⟩; rw [show p = 64*o by omega] at h; omega
      · exact hexc
  · rw [if_neg hm]
    have hb := h1 (by omega)
    rw [show (o-1)/4 = o/4 by omega] at hb
    exact ⟨st, rfl, hb⟩

theorem blockLoop_spec (bits : List Word) (len : Nat) (hl : bits.length = (len+63)/64) (hE : E = excF (wbit bits)) :
    ∀ (ws : List Word) (o : Nat) (st : BlockState), ws = bits.drop o → o ≤ bits.length → (o = 0 → st = ⟨[], 0, 0⟩) →
      (0 < o → BS E ((o-1)/4) (min (64*o) len) st) → 0 < bits.length →
      ∃ st', blockLoop bits.length len ws o st = some st' ∧ BS E ((bits.length-1)/4) len st' := by
  intro ws
  induction ws with
  | nil =>
    intro o st hws ho h0 h1 hlen
    have : o = bits.length := by
      have := congrArg List.length hws
      simp at this; omega
    subst this
    refine ⟨st, rfl, ?_⟩
    have := h1 hlen
    rwa [show min (64*bits.length) len = len by omega] at this
  | cons w ws ih =>
    intro o st hws ho h0 h1 hlen
    have hol : o < bits.length := by
      rcases Nat.lt_or_ge o bits.length with h | h
      · exact h
      · rw [List.drop_eq_nil_of_le h] at hws; simp at hws
    have hw : bits[o]? = some w := by
      have : (bits.drop o)[0]? = some w := by rw [← hws]; rfl
      rwa [List.getElem?_drop, Nat.add_zero] at this
    have hws' : ws = bits.drop (o+1) := by
      rw [List.drop_eq_getElem_cons hol] at hws; exact (List.cons.inj hws).2
    obtain ⟨st1, e1, b1⟩ := blockStart_spec hE o st h0 (fun h => by
      have := h1 h
      rwa [show min (64*o) len = 64*o by omega] at this)
    unfold blockLoop
    rw [e1, bind_pure_some]
    simp only []
    have hn : 64*o + nBits bits.length len o = min (64*(o+1)) len ∧ nBits bits.length len o ≤ 64 := by
      unfold nBits
      split <;> omega
    obtain ⟨r2, r1⟩ := bitLoop_spec w (nBits bits.length len o) 0 st1.curMin st1.curExc (by omega)
    rw [show (1#64 <<< 0 : Word) = 1#64 from rfl] at r1 r2
    have hx := word_exc hw
    rw [← hE] at hx
    apply ih (o+1) _ hws' (by omega) (by intro h; omega) ?_ hlen
    intro _
    rw [show o+1-1 = o from rfl, ← hn.1]
    refine ⟨b1.len, b1.mins, ?_, ?_⟩
    · intro x
      simp only []
      have := r1 (x - E (8192*(o/4/32)))
      rw [show E (8192*(o/4/32)) + (bitLoop w (nBits bits.length len o) 1#64 st1.curMin st1.curExc).1 ≤ x ↔
        (bitLoop w (nBits bits.length len o) 1#64 st1.curMin st1.curExc).1 ≤ x - E (8192*(o/4/32)) by constructor <;> intro h <;> omega, this]
      have hc := b1.cur x
      have hexc := b1.exc
      constructor
      · rintro (h | ⟨t, ht1, ht2, ht3⟩)
        · obtain ⟨p, p1, p2, p3⟩ := hc.1 (by omega)
          exact ⟨p, p1, by omega, p3⟩
        · rw [hx t (by omega), excF_zero] at ht3
          exact ⟨64*o+t, by omega, by omega, by omega⟩
      · rintro ⟨p, p1, p2, p3⟩
        rcases Nat.lt_or_ge (64*o) p with h | h
        · right
          refine ⟨p - 64*o, by omega, by omega, ?_⟩
          rw [hx _ (by omega), excF_zero, show 64*o + (p - 64*o) = p by omega]; omega
        · left
          have := hc.2 ⟨p, p1, h, p3⟩; omega
    · simp only []
      rw [r2, b1.exc, Nat.zero_add, hx _ hn.2, excF_zero]; omega

/-- the table of block minima -/
structure BMOK (E : Nat → Int) (len : Nat) (mins : List Int) : Prop where
  lenEq : mins.length = (len+255)/256
  ok : ∀ b, b < (len+255)/256 → ∃ m, mins[b]? = some m ∧ MinOK E (256*b) (min (256*(b+1)) len) (E (8192*(b/32))) m

theorem blockMins_spec (bits : List Word) (len : Nat) (hl : bits.length = (len+63)/64) (hE : E = excF (wbit bits)) (h0 : 0 < len) :
    ∃ mins, blockMins bits len = some mins ∧ BMOK E len mins := by
  obtain ⟨st, e, b⟩ := blockLoop_spec bits len hl hE bits 0 ⟨[], 0, 0⟩ (by simp) (by omega) (fun _ => rfl) (by omega) (by omega)
  unfold blockMins
  rw [e, bind_pure_some, flushMin_eq hE _ _ _ _ (by omega) b.cur]
  refine ⟨_, rfl, ⟨by simp [b.len]; omega, fun c hc => ?_⟩⟩
  rcases Nat.lt_or_ge c ((bits.length-1)/4) with h | h
  · obtain ⟨m, e1, e2⟩ := b.mins c h
    refine ⟨m, ?_, ?_⟩
    · rw [List.getElem?_append_left (by rw [b.len]; exact h), e1]
    · rwa [show min (256*(c+1)) len = 256*(c+1) by omega]
  · have hce : c = (bits.length-1)/4 := by omega
    refine ⟨st.curMin, ?_, ?_⟩
    · rw [hce, ← b.len]; simp
    · rw [show min (256*(c+1)) len = len by omega, hce]; exact b.cur

theorem blockExcess_eq {rs : RSBitVector} {l : List Bool} (h : RSBitVector.Inv rs l) (hn : ∀ p, p ≤ l.length → 0 ≤ exc l p)
    (hs : ∀ p, p ≤ l.length → exc l p < 2147483584) (b : Nat) (hb : 256*b ≤ l.length) :
    blockExcess rs b = some (exc l (256*b)) := by
  have hnb := RSBitVector.nblocks_ge h
  unfold blockExcess
  simp only []
  rw [RSBitVector.subBlockRank_eq h.tab (b*4) (by omega), bind_pure_some]
  have e : (2 * ((cnt (bitFn l) (64*(b*4)) : Nat) : Int) - (b*4*64 : Nat)) = exc l (256*b) := by
    unfold exc excF; rw [show 64*(b*4) = 256*b by omega]; push_cast; omega
  have h1 := hn _ hb
  have h2 := hs _ hb
  simp only [e]
  rw [toI32_eq _ (by omega) (by omega), assertP_eq _ (by omega), bind_pure_some]
  rfl

/-- value of the block minimum `b` -/
theorem superMinLoop_spec {l : List Bool} (hn : ∀ p, p ≤ l.length → 0 ≤ exc l p)
    (hs : ∀ p, p ≤ l.length → exc l p < 2147483584) (mins : List Int) (hb : BMOK (exc l) l.length mins) (s : Nat) :
    ∀ (k b : Nat) (cur : Int), 32*s ≤ b → b + k ≤ 32*(s+1) → b + k ≤ (l.length+255)/256 →
      ∃ r, superMinLoop mins (exc l (8192*s)) k b cur = some r ∧
        ∀ x, r ≤ x ↔ cur ≤ x ∨ ∃ p, 0 < k ∧ 256*b ≤ p ∧ p ≤ min (256*(b+k)) l.length ∧ exc l p ≤ x := by
  intro k
  induction k with
  | zero =>
    intro b cur _ _ _
    refine ⟨cur, rfl, fun x => ⟨Or.inl, ?_⟩⟩
    rintro (h | ⟨p, h, _⟩)
    · exact h
    · omega
  | succ k ih =>
    intro b cur h1 h2 h3
    obtain ⟨m, e1, e2⟩ := hb.ok b (by omega)
    rw [show b/32 = s by omega] at e2
    obtain ⟨q, q1, q2, q3⟩ := e2.attained
    have hq1 := hn q (by omega)
    have hq2 := hs q (by omega)
    obtain ⟨r, er, hr⟩ := ih (b+1) (min cur (exc l (8192*s) + m)) (by omega) (by omega) (by omega)
    unfold superMinLoop
    rw [rd, e1, bind_pure_some, i32_eq _ (by omega) (by omega), bind_pure_some]
    refine ⟨r, er, fun x => ?_⟩
    rw [hr x]
    have ex := e2 x
    constructor
    · rintro (h | ⟨p, p0, p1, p2, p3⟩)
      · rcases Int.le_total cur (exc l (8192*s) + m) with hm | hm
        · left; omega
        · right
          obtain ⟨p, p1, p2, p3⟩ := ex.1 (by omega)
          clear ex hr er e2
          exact ⟨p, by omega, p1, by omega, p3⟩
      · right; exact ⟨p, by omega, by omega, by omega, p3⟩
    · rintro (h | ⟨p, p0, p1, p2, p3⟩)
      · left; omega
      · rcases Nat.lt_or_ge (256*(b+1)) p with h | h
        · right; exact ⟨p, by omega, by omega, by omega, p3⟩
        · left
          have hp : p ≤ min (256*(b+1)) l.length := by clear ex hr er e2; omega
          have := ex.2 ⟨p, p1, hp, p3⟩; omega

/-- the minimum of a superblock before the assertion: cut off at `excess_t(size())` -/
theorem leafMin_loop {l : List Bool} (hg : ∀ p, p ≤ l.length → 0 ≤ exc l p) (hs : ∀ p, p ≤ l.length → exc l p < 2147483584) (mins : List Int)
    (hb : BMOK (exc l) l.length mins) (s : Nat) (hs0 : 8192*s < l.length) (S : Int) :
    ∃ r, superMinLoop mins (exc l (8192*s)) (min ((s+1)*32) ((l.length+255)/256) - s*32) (s*32) S = some r ∧
      ∀ x, r ≤ x ↔ S ≤ x ∨ SM (exc l) l.length s x := by
  obtain ⟨r, er, hr⟩ := superMinLoop_spec hg hs mins hb s (min ((s+1)*32) ((l.length+255)/256) - s*32) (s*32) S (by omega) (by omega) (by omega)
  refine ⟨r, er, fun x => ?_⟩
  rw [hr x]
  constructor
  · rintro (h | ⟨p, p0, p1, p2, p3⟩)
    · exact Or.inl h
    · exact Or.inr ⟨p, by omega, by omega, by omega, p3⟩
  · rintro (h | ⟨p, p1, p2, p3, p4⟩)
    · exact Or.inl h
    · exact Or.inr ⟨p, by omega, by omega, by omega, p4⟩

theorem leafMin_spec {rs : RSBitVector} {l : List Bool} (h : RSBitVector.Inv rs l) (hg : Good l) (mins : List Int)
    (hb : BMOK (exc l) l.length mins) (s : Nat) (hs : 8192*s < l.length) :
    ∃ r, leafMin rs mins ((l.length+255)/256) s = some r ∧ 0 ≤ r ∧ r < toI32 l.length ∧ ∀ x, r ≤ x ↔ SM (exc l) l.length s x := by
  unfold leafMin
  rw [blockExcess_eq h hg.nonneg hg.small (s*32) (by omega), bind_pure_some, h.rep.size,
    show 256*(s*32) = 8192*s by omega]
  obtain ⟨r, er, hr⟩ := leafMin_loop hg.nonneg hg.small mins hb s hs (toI32 l.length)
  rw [er, bind_pure_some]
  have hw := hg.wide s hs
  have key : ∀ x, r ≤ x ↔ SM (exc l) l.length s x := by
    intro x
    rw [hr x]
    constructor
    · rintro (h | h)
      · obtain ⟨p, p1, p2, p3, p4⟩ := hw
        exact ⟨p, p1, p2, p3, by omega⟩
      · exact h
    · exact Or.inr
  have r0 : 0 ≤ r := by
    by_contra hn
    obtain ⟨p, _, _, p3, p4⟩ := (key (-1)).1 (by omega)
    have := hg.nonneg p p3; omega
  have r1 : r < toI32 l.length := by
    have := (key _).2 hw
    omega
  rw [assertP_eq _ ⟨r0, r1⟩, bind_pure_some]
  exact ⟨r, rfl, r0, r1, key⟩

/-- the assertion on the minimum of a superblock passes only if the minimum is below `excess_t(size())` -/
theorem leafMin_wide {rs : RSBitVector} {l : List Bool} (h : RSBitVector.Inv rs l) (hg : ∀ p, p ≤ l.length → 0 ≤ exc l p)
    (hsm : ∀ p, p ≤ l.length → exc l p < 2147483584) (mins : List Int)
    (hb : BMOK (exc l) l.length mins) (s : Nat) (hs : 8192*s < l.length) (m : Int)
    (hm : leafMin rs mins ((l.length+255)/256) s = some m) : SM (exc l) l.length s (toI32 l.length - 1) := by
  unfold leafMin at hm
  rw [blockExcess_eq h hg hsm (s*32) (by omega), bind_pure_some, h.rep.size,
    show 256*(s*32) = 8192*s by omega] at hm
  obtain ⟨r, er, hr⟩ := leafMin_loop hg hsm mins hb s hs (toI32 l.length)
  rw [er, bind_pure_some] at hm
  simp only [Option.bind_eq_bind, Option.bind_eq_some_iff] at hm
  obtain ⟨_, ha, _⟩ := hm
  have ha := assertP_some ha
  rcases (hr (toI32 l.length - 1)).1 (by omega) with h | h
  · omega
  · exact h

theorem leavesLoop_spec {rs : RSBitVector} {l : List Bool} (h : RSBitVector.Inv rs l) (hg : Good l) (mins : List Int)
    (hb : BMOK (exc l) l.length mins) (n : Nat) (hn : n = (l.length + 8191)/8192) :
    ∀ (k s : Nat) (acc : List Int), s + k = n → acc.length = s →
      (∀ t, t < s → ∃ r, acc[t]? = some r ∧ 0 ≤ r ∧ r < toI32 l.length ∧ ∀ x, r ≤ x ↔ SM (exc l) l.length t x) →
      ∃ leaves, leavesLoop rs mins ((l.length+255)/256) k s acc = some leaves ∧ leaves.length = n ∧
        ∀ t, t < n → ∃ r, leaves[t]? = some r ∧ 0 ≤ r ∧ r < toI32 l.length ∧ ∀ x, r ≤ x ↔ SM (exc l) l.length t x := by
  intro k
  induction k with
  | zero => intro s acc hs hl ha; exact ⟨acc, rfl, by omega, fun t ht => ha t (by omega)⟩
  | succ k ih =>
    intro s acc hs hl ha
    obtain ⟨r, er, hr⟩ := leafMin_spec h hg mins hb s (by omega)
    unfold leavesLoop
    rw [er, bind_pure_some]
    apply ih (s+1) (acc ++ [r]) (by omega) (by simp [hl])
    intro t ht
    rcases Nat.lt_or_ge t s with h1 | h1
    · obtain ⟨r', e1, e2⟩ := ha t h1
      exact ⟨r', by rw [List.getElem?_append_left (by omega), e1], e2⟩
    · have : t = s := by omega
      subst this
      exact ⟨r, by rw [← hl]; simp, hr⟩

theorem completeLeaves_spec (n : Nat) : ∀ (fuel c H : Nat), c = 2^H → n ≤ fuel + c →
    ∃ H', completeLeaves n fuel c = some (2^H') ∧ n ≤ 2^H' := by
  intro fuel
  induction fuel with
  | zero =>
    intro c H hc hn
    unfold completeLeaves
    rw [if_neg (by omega), hc]
    exact ⟨H, rfl, by omega⟩
  | succ fuel ih =>
    intro c H hc hn
    unfold completeLeaves
    by_cases h : c < n
    · rw [if_pos h]
      have : 0 < c := by rw [hc]; exact Nat.two_pow_pos H
      exact ih (c*2) (H+1) (by rw [hc, Nat.pow_succ]) (by omega)
    · rw [if_neg h, hc]
      exact ⟨H, rfl, by omega⟩

/-- value of a node -/
def V (t : List Int) (j : Nat) : Int := (t[j]?).getD 0

theorem V_rd {t : List Int} {j : Nat} (h : j < t.length) : rd t j = some (V t j) := by
  unfold rd V; rw [List.getElem?_eq_getElem h]; rfl

theorem V_set {t : List Int} {i j : Nat} {x : Int} (h : i < t.length) : V (t.set i x) j = if j = i then x else V t j := by
  unfold V
  rw [List.getElem?_set]
  by_cases hij : i = j
  · subst hij; simp [h]
  · rw [if_neg hij, if_neg (by omega)]

theorem treeLoop_spec (N : Nat) (len : Int) : ∀ (k : Nat) (t : List Int), N ≤ t.length → 1 ≤ N → (t.length ≤ 2*N) → k + 2 ≤ t.length →
    (∀ j, 1 ≤ j → j < N → V t j ≤ len ∧ ∀ x, x < len → (V t j ≤ x ↔ ∃ c, k+2 ≤ c ∧ c/2 = j ∧ c < t.length ∧ V t c ≤ x)) →
    ∃ t', treeLoop k t = some t' ∧ t'.length = t.length ∧ (∀ j, N ≤ j → V t' j = V t j) ∧
      ∀ j, 1 ≤ j → j < N → V t' j ≤ len ∧ ∀ x, x < len → (V t' j ≤ x ↔ ∃ c, 2 ≤ c ∧ c/2 = j ∧ c < t.length ∧ V t' c ≤ x) := by
  intro k
  induction k with
  | zero => intro t h1 _ _ h2 h3; exact ⟨t, rfl, rfl, fun _ _ => rfl, h3⟩
  | succ k ih =>
    intro t hN hN1 h2N hk hinv
    unfold treeLoop
    simp only []
    have hp : (k+2)/2 < k+2 := by omega
    rw [V_rd (by omega), bind_pure_some, V_rd (by omega), bind_pure_some, wr, if_pos (by omega), bind_pure_some]
    have hset : ∀ j, V (t.set ((k+2)/2) (min (V t ((k+2)/2)) (V t (k+2)))) j = if j = (k+2)/2 then min (V t ((k+2)/2)) (V t (k+2)) else V t j :=
      fun j => V_set (by omega)
    have hpN : (k+2)/2 < N := by omega
    obtain ⟨t', e, l1, l2, l3⟩ := ih (t.set ((k+2)/2) (min (V t ((k+2)/2)) (V t (k+2)))) (by simp; omega) hN1 (by simp; omega) (by simp; omega) (by
      intro j hj1 hjN
      obtain ⟨a, b⟩ := hinv j hj1 hjN
      have cc : ∀ c, k+2 ≤ c → V (t.set ((k+2)/2) (min (V t ((k+2)/2)) (V t (k+2)))) c = V t c := by
        intro c hc; rw [hset, if_neg (by omega)]
      rw [hset j]
      by_cases hj : j = (k+2)/2
      · rw [if_pos hj, ← hj]
        refine ⟨by omega, fun x hx => ?_⟩
        constructor
        · intro h
          rcases Int.le_total (V t j) (V t (k+2)) with hm | hm
          · obtain ⟨c, c1, c2, c3, c4⟩ := (b x hx).1 (by omega)
            exact ⟨c, by omega, c2, by simpa using c3, by rw [hj, cc c (by omega)]; exact c4⟩
          · exact ⟨k+2, by omega, hj.symm, by simp; omega, by rw [hj, cc _ (by omega)]; omega⟩
        · rintro ⟨c, c1, c2, c3, c4⟩
          rw [hj, cc c c1] at c4
          rcases Nat.eq_or_lt_of_le c1 with h | h
          · subst h; omega
          · have := (b x hx).2 ⟨c, by omega, c2, by simpa using c3, c4⟩; omega
      · rw [if_neg hj]
        refine ⟨a, fun x hx => ?_⟩
        rw [b x hx]
        constructor
        · rintro ⟨c, c1, c2, c3, c4⟩
          exact ⟨c, by omega, c2, by simpa using c3, by rw [cc c (by omega)]; exact c4⟩
        · rintro ⟨c, c1, c2, c3, c4⟩
          rw [cc c c1] at c4
          refine ⟨c, ?_, c2, by simpa using c3, c4⟩
          rcases Nat.eq_or_lt_of_le c1 with h | h
          · subst h; omega
          · omega)
    rw [List.length_set] at l1 l3
    refine ⟨t', e, l1, fun j hj => ?_, l3⟩
    rw [l2 j hj, hset, if_neg (by omega)]

/-- the tree of superblock minima: `N = 2^H` internal nodes, `n` leaves; a node without leaves below it holds
the past-the-boundary value `excess_t(size())`, the others are smaller than that -/
structure TreeOK (E : Nat → Int) (len H n : Nat) (t : List Int) : Prop where
  lenEq : t.length = 2^H + n
  le : n ≤ 2^H
  pos : 1 ≤ n
  node : ∀ d h k, d + h = H → 2^d ≤ k → k < 2^(d+1) → k < t.length →
    ∀ x, (V t k ≤ x ∧ V t k ≠ toI32 len ↔ ∃ s, s < n ∧ k*2^h ≤ 2^H + s ∧ 2^H + s < (k+1)*2^h ∧ SM E len s x)

theorem tree_nodes (E : Nat → Int) (len H n : Nat) (S : Int) (t : List Int) (hn : n ≤ 2^H) (ht : t.length = 2^H + n)
    (hleaf : ∀ s, s < n → V t (2^H+s) < S ∧ ∀ x, (V t (2^H+s) ≤ x ↔ SM E len s x))
    (hnode : ∀ j, 1 ≤ j → j < 2^H → V t j ≤ S ∧ ∀ x, x < S → (V t j ≤ x ↔ ∃ c, 2 ≤ c ∧ c/2 = j ∧ c < t.length ∧ V t c ≤ x)) :
    ∀ d h k, d + h = H → 2^d ≤ k → k < 2^(d+1) → k < t.length → V t k ≤ S ∧
      ∀ x, x < S → (V t k ≤ x ↔ ∃ s, s < n ∧ k*2^h ≤ 2^H + s ∧ 2^H + s < (k+1)*2^h ∧ SM E len s x) := by
  intro d h
  induction h generalizing d with
  | zero =>
    intro k hd h1 h2 h3
    have hdH : d = H := by omega
    subst hdH
    rw [ht] at h3
    obtain ⟨s, rfl⟩ := Nat.exists_eq_add_of_le h1
    obtain ⟨a, b⟩ := hleaf s (by omega)
    refine ⟨by omega, fun x hx => ?_⟩
    rw [b x]
    constructor
    · intro h; exact ⟨s, by omega, by simp, by simp, h⟩
    · rintro ⟨s', h4, h5, h6, h7⟩
      rw [Nat.pow_zero, Nat.mul_one] at h5 h6
      rw [show s = s' by omega]; exact h7
  | succ h ih =>
    intro k hd h1 h2 h3
    have hk2 : k < 2^H := by
      have : 2^(d+1) ≤ 2^H := Nat.pow_le_pow_right (by omega) (by omega)
      omega
    have hk1 : 1 ≤ k := by have := Nat.two_pow_pos d; omega
    obtain ⟨a, b⟩ := hnode k hk1 hk2
    refine ⟨a, fun x hx => ?_⟩
    rw [b x hx]
    have p1 : 2^(d+1) = 2*2^d := by rw [Nat.pow_succ]; omega
    have p2 : 2^(d+1+1) = 4*2^d := by rw [Nat.pow_succ, p1]; omega
    have ph : 2^(h+1) = 2*2^h := by rw [Nat.pow_succ]; omega
    have hh := Nat.two_pow_pos h
    constructor
    · rintro ⟨c, c1, c2, c3, c4⟩
      obtain ⟨_, b'⟩ := ih (d+1) c (by omega) (by omega) (by omega) c3
      obtain ⟨s, s1, s2, s3, s4⟩ := (b' x hx).1 c4
      refine ⟨s, s1, ?_, ?_, s4⟩
      · have : k*2^(h+1) ≤ c*2^h := by
          rw [ph, ← Nat.mul_assoc]; exact Nat.mul_le_mul_right _ (by omega)
        omega
      · have : (c+1)*2^h ≤ (k+1)*2^(h+1) := by
          rw [ph, ← Nat.mul_assoc]; exact Nat.mul_le_mul_right _ (by omega)
        omega
    · rintro ⟨s, s1, s2, s3, s4⟩
      have hc : ∃ c, c/2 = k ∧ c*2^h ≤ 2^H + s ∧ 2^H + s < (c+1)*2^h := by
        refine ⟨(2^H+s)/2^h, ?_, Nat.div_mul_le_self _ _, ?_⟩
        · rw [Nat.div_div_eq_div_mul, ← Nat.pow_succ]
          exact Nat.div_eq_of_lt_le s2 s3
        · have := Nat.lt_div_mul_add (a := 2^H+s) hh
          rw [Nat.add_mul, Nat.one_mul]; exact this
      obtain ⟨c, c1, c2, c3⟩ := hc
      have hcl : c < t.length := by
        rw [ht]
        have : c*1 ≤ c*2^h := Nat.mul_le_mul_left _ hh
        omega
      obtain ⟨_, b'⟩ := ih (d+1) c (by omega) (by omega) (by omega) hcl
      exact ⟨c, by omega, c1, hcl, (b' x hx).2 ⟨s, s1, c2, c3, s4⟩⟩

theorem tree_spec (E : Nat → Int) (len H n : Nat) (t : List Int) (hn : n ≤ 2^H) (hn1 : 1 ≤ n) (ht : t.length = 2^H + n)
    (hleaf : ∀ s, s < n → V t (2^H+s) < toI32 len ∧ ∀ x, (V t (2^H+s) ≤ x ↔ SM E len s x))
    (hnode : ∀ j, 1 ≤ j → j < 2^H → V t j ≤ toI32 len ∧ ∀ x, x < toI32 len → (V t j ≤ x ↔ ∃ c, 2 ≤ c ∧ c/2 = j ∧ c < t.length ∧ V t c ≤ x)) :
    TreeOK E len H n t := by
  refine ⟨ht, hn, hn1, fun d h k hd h1 h2 h3 x => ?_⟩
  obtain ⟨a, b⟩ := tree_nodes E len H n (toI32 len) t hn ht hleaf hnode d h k hd h1 h2 h3
  constructor
  · rintro ⟨x1, x2⟩
    obtain ⟨s, s1, s2, s3, p, p1, p2, p3, p4⟩ := (b (V t k) (by omega)).1 (Int.le_refl _)
    exact ⟨s, s1, s2, s3, p, p1, p2, p3, by omega⟩
  · rintro ⟨s, s1, s2, s3, s4⟩
    obtain ⟨l1, l2⟩ := hleaf s s1
    have h4 := (l2 x).2 s4
    have h5 := (b _ l1).2 ⟨s, s1, s2, s3, (l2 _).1 (Int.le_refl _)⟩
    exact ⟨by omega, by omega⟩

/-- invariant of a constructed `bp_vector` -/
structure Inv0 (v : BpVector) (l : List Bool) : Prop where
  rs : RSBitVector.Inv v.rs l
  bm : 0 < l.length → BMOK (exc l) l.length v.blockMin

/-- … and so does the tree -/
structure Inv (v : BpVector) (l : List Bool) : Prop extends Inv0 v l where
  tree : 0 < l.length → ∃ H, v.internalNodes = 2^H ∧ TreeOK (exc l) l.length H ((l.length+8191)/8192) v.superMin

theorem buildMinTree_inv {rs : RSBitVector} {l : List Bool} (h : RSBitVector.Inv rs l) (hg : Good l) :
    ∃ v, buildMinTree rs = some v ∧ v.rs = rs ∧ Inv v l := by
  unfold buildMinTree
  rw [h.rep.size]
  by_cases h0 : l.length = 0
  · rw [if_pos h0]
    exact ⟨_, rfl, rfl, ⟨⟨h, fun hh => by omega⟩, fun hh => by omega⟩⟩
  · rw [if_neg h0]
    have hE : exc l = excF (wbit rs.bv.bits) := by
      rw [show wbit rs.bv.bits = bitFn l from funext h.rep.repr.bit]
    have hl := h.rep.len
    obtain ⟨mins, e1, b1⟩ := blockMins_spec rs.bv.bits l.length hl hE (by omega)
    have e2 : (rs.bv.bits.length + 4 - 1)/4 = (l.length+255)/256 := by omega
    have e3 : ((l.length+255)/256 + 32 - 1)/32 = (l.length+8191)/8192 := by omega
    rw [e1, bind_pure_some]
    simp only []
    rw [e2, e3, assertP_eq _ b1.lenEq.symm, bind_pure_some]
    obtain ⟨H, eH, hH⟩ := completeLeaves_spec ((l.length+8191)/8192) ((l.length+8191)/8192) 1 0 rfl (by omega)
    rw [eH, bind_pure_some]
    obtain ⟨leaves, eL, hLl, hL⟩ := leavesLoop_spec h hg mins b1 _ rfl ((l.length+8191)/8192) 0 [] (by omega) rfl (by intro t ht; omega)
    rw [eL, bind_pure_some]
    have hN := Nat.two_pow_pos H
    generalize hS : toI32 l.length = S at *
    generalize hn : (l.length+8191)/8192 = n at *
    have hV1 : ∀ j, j < 2^H → V (List.replicate (2^H) S ++ leaves) j = S := by
      intro j hj; unfold V
      rw [List.getElem?_append_left (by simpa using hj), List.getElem?_replicate, if_pos hj, Option.getD_some]
    have hV2 : ∀ s, V (List.replicate (2^H) S ++ leaves) (2^H+s) = V leaves s := by
      intro s; unfold V
      rw [List.getElem?_append_right (by simp)]; simp
    have hlenT : (List.replicate (2^H) S ++ leaves).length = 2^H + n := by simp [hLl]
    obtain ⟨t, eT, l1, l2, l3⟩ := treeLoop_spec (2^H) S (2^H+n-2) (List.replicate (2^H) S ++ leaves) (by omega) (by omega) (by omega)
      (by omega) (by
        intro j hj1 hj2
        rw [hV1 j hj2]
        refine ⟨Int.le_refl _, fun x hx => ⟨fun h => by omega, ?_⟩⟩
        rintro ⟨c, c1, c2, c3, c4⟩
        omega)
    rw [eT, bind_pure_some]
    refine ⟨_, rfl, rfl, ⟨⟨h, fun _ => b1⟩, fun _ => ⟨H, rfl, ?_⟩⟩⟩
    rw [hn]
    apply tree_spec (exc l) l.length H n t hH (by omega) (by omega)
    all_goals rw [hS]
    · intro s hs
      rw [l2 _ (by omega), hV2]
      obtain ⟨r, r1, r2, r3, r4⟩ := hL s hs
      have : V leaves s = r := by unfold V; rw [r1]; rfl
      rw [this]; exact ⟨r3, r4⟩
    · intro j hj1 hj2
      obtain ⟨a, b⟩ := l3 j hj1 hj2
      rw [l1]; exact ⟨a, b⟩

theorem leavesLoop_wide {rs : RSBitVector} {l : List Bool} (h : RSBitVector.Inv rs l) (hg : ∀ p, p ≤ l.length → 0 ≤ exc l p)
    (hsm : ∀ p, p ≤ l.length → exc l p < 2147483584) (mins : List Int) (hb : BMOK (exc l) l.length mins) :
    ∀ (k s : Nat) (acc r : List Int), 8192*(s+k) < l.length + 8192 → leavesLoop rs mins ((l.length+255)/256) k s acc = some r →
      ∀ t, s ≤ t → t < s + k → SM (exc l) l.length t (toI32 l.length - 1) := by
  intro k
  induction k with
  | zero => intro s acc r _ _ t h1 h2; omega
  | succ k ih =>
    intro s acc r hk hr t h1 h2
    unfold leavesLoop at hr
    rw [Option.bind_eq_bind, Option.bind_eq_some_iff] at hr
    obtain ⟨m, hm, hr⟩ := hr
    rcases Nat.eq_or_lt_of_le h1 with hh | hh
    · subst hh; exact leafMin_wide h hg hsm mins hb s (by omega) m hm
    · exact ih (s+1) _ r (by omega) hr t hh (by omega)

/-- if the tables can be built then every superblock contains an excess below `excess_t(size())` -/
theorem build_wide (l : List Bool) (a b : Bool) (hg : ∀ p, p ≤ l.length → 0 ≤ exc l p)
    (hsm : ∀ p, p ≤ l.length → exc l p < 2147483584) (v : BpVector) (hv : build (BitVector.ofRange l) a b = some v) :
    ∀ s, 8192*s < l.length → SM (exc l) l.length s (toI32 l.length - 1) := by
  obtain ⟨rs, e, hbv, h⟩ := RSBitVector.build_inv l a b
  unfold build at hv
  rw [e, bind_pure_some] at hv
  unfold buildMinTree at hv
  rw [h.rep.size] at hv
  intro s hs
  rw [if_neg (by omega)] at hv
  have hE : exc l = excF (wbit rs.bv.bits) := by
    rw [show wbit rs.bv.bits = bitFn l from funext h.rep.repr.bit]
  have hl := h.rep.len
  obtain ⟨mins, e1, b1⟩ := blockMins_spec rs.bv.bits l.length hl hE (by omega)
  have e2 : (rs.bv.bits.length + 4 - 1)/4 = (l.length+255)/256 := by omega
  have e3 : ((l.length+255)/256 + 32 - 1)/32 = (l.length+8191)/8192 := by omega
  rw [e1, bind_pure_some] at hv
  simp only [e2, e3, Option.bind_eq_bind, Option.bind_eq_some_iff] at hv
  obtain ⟨_, _, N, _, leaves, hL, _⟩ := hv
  exact leavesLoop_wide h hg hsm mins b1 _ 0 [] leaves (by omega) hL s (by omega) (by omega)

theorem build_inv (l : List Bool) (a b : Bool) (hg : Good l) :
    ∃ v, build (BitVector.ofRange l) a b = some v ∧ v.rs.bv = BitVector.ofRange l ∧ Inv v l := by
  obtain ⟨rs, e, hbv, hi⟩ := RSBitVector.build_inv l a b
  obtain ⟨v, e2, e3, e4⟩ := buildMinTree_inv hi hg
  refine ⟨v, ?_, by rw [e3, hbv], e4⟩
  unfold build
  rw [e, bind_pure_some, e2]

end BpVector
end Succinct
