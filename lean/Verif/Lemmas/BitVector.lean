import Verif.Lemmas.Builder

/-! Operations of `bit_vector` on vectors that represent a given list of bits. -/
namespace Succinct
open Spec Broadword

/-- `v` represents `l` -/
structure Rep (v : BitVector) (l : List Bool) : Prop where
  size : v.size = l.length
  repr : Repr v.bits l

theorem Rep.len {v : BitVector} {l : List Bool} (h : Rep v l) : v.bits.length = (l.length + 63)/64 := h.repr.len

theorem Rep.unique {v w : BitVector} {l : List Bool} (h : Rep v l) (g : Rep w l) : v = w := by
  have e : v.bits = w.bits := wbit_ext (by rw [h.len, g.len]) (fun p => by rw [h.repr.bit, g.repr.bit])
  have e2 : v.size = w.size := by rw [h.size, g.size]
  cases v; cases w; simp_all

/-- two lists represented by the same vector are equal -/
theorem Rep.inj {v : BitVector} {l m : List Bool} (h : Rep v l) (g : Rep v m) : l = m :=
  bitFn_ext (by rw [← h.size, g.size]) (fun p => by rw [← h.repr.bit, g.repr.bit])

namespace BitVector

theorem ofBuilder_rep (s : Builder) (l : List Bool) (h : Inv s l) :
    ∃ v, ofBuilder s = some v ∧ Rep v l := by
  unfold ofBuilder
  rw [assertP_eq _ (by rw [h.size, h.repr.len])]
  exact ⟨_, rfl, h.size, h.repr⟩

theorem getLsbD_one_shl' (k i : Nat) (hk : k < 64) : ((1 : Word) <<< k).getLsbD i = decide (i = k) := by
  by_cases hi : i < 64
  · exact getLsbD_one_shl _ _ hi
  · rw [BitVec.getLsbD_of_ge _ _ (by omega), decide_eq_false (by omega)]

theorem rangeLoop_spec (rest pre : List Bool) (bits : List Word) (mask cur : Word)
    (hl : bits.length = pre.length / 64) (hm : mask = (1 : Word) <<< (pre.length % 64))
    (hb : ∀ p, wbit (bits ++ [cur]) p = bitFn pre p) :
    ∃ bits' cur', rangeLoop rest bits pre.length mask cur =
        (bits', (pre ++ rest).length, (1 : Word) <<< ((pre ++ rest).length % 64), cur') ∧
      bits'.length = (pre ++ rest).length / 64 ∧
      ∀ p, wbit (bits' ++ [cur']) p = bitFn (pre ++ rest) p := by
  induction rest generalizing pre bits mask cur with
  | nil => exact ⟨bits, cur, by rw [List.append_nil]; simp only [rangeLoop, hm], by simpa using hl, by simpa using hb⟩
  | cons x rest ih =>
    have hcur : ∀ p, wbit (bits ++ [if x = true then cur ||| mask else cur]) p = bitFn (pre ++ [x]) p := by
      intro p
      have h1 := hb p
      rw [wbit_append, wbit_singleton] at h1 ⊢
      rw [bitFn_append, bitFn_singleton]
      by_cases h2 : p / 64 < bits.length
      · rw [if_pos h2] at h1 ⊢
        rw [if_pos (by omega), h1]
      · rw [if_neg h2] at h1 ⊢
        have h3 : (if x = true then cur ||| mask else cur).getLsbD (p - 64 * bits.length) =
            (cur.getLsbD (p - 64*bits.length) || (decide (p = pre.length) && x)) := by
          cases x
          · simp
          · rw [if_pos rfl, BitVec.getLsbD_or, hm]
            have : ((1 : Word) <<< (pre.length % 64)).getLsbD (p - 64 * bits.length) = decide (p - 64 * bits.length = pre.length % 64) :=
              getLsbD_one_shl' _ _ (by omega)
            rw [this, Bool.and_true]
            congr 1; rw [decide_eq_decide]; omega
        rw [h3, h1]
        by_cases h4 : p < pre.length
        · have : p ≠ pre.length := by omega
          rw [if_pos h4]; simp [this]
        · rw [if_neg h4, bitFn_of_ge _ _ (by omega), Bool.false_or]
          congr 1; rw [decide_eq_decide]; omega
    unfold rangeLoop
    simp only []
    have e : pre ++ x :: rest = (pre ++ [x]) ++ rest := by simp
    rw [e]
    have hms : mask <<< 1 = (1 : Word) <<< (pre.length % 64 + 1) := by
      rw [hm, BitVec.shiftLeft_add]
    by_cases h63 : pre.length % 64 = 63
    · have hz : mask <<< 1 = 0 := by rw [hms, h63]; rfl
      rw [if_pos hz]
      have := ih (pre ++ [x]) (bits ++ [if x = true then cur ||| mask else cur]) 1 0 (by simp; omega)
        (by rw [show (pre ++ [x]).length % 64 = 0 by simp; omega]; rfl)
        (by
          intro p
          rw [wbit_append, hcur, wbit_singleton]
          rw [List.length_append, List.length_singleton]
          by_cases h : p / 64 < bits.length + 1
          · rw [if_pos h]
          · rw [if_neg h, bitFn_of_ge _ _ (by rw [List.length_append, List.length_singleton]; omega)]; simp)
      simpa using this
    · have hz : mask <<< 1 ≠ 0 := by
        rw [hms]; intro hc
        have h1 : ((1 : Word) <<< (pre.length % 64 + 1)).getLsbD (pre.length % 64 + 1) = decide (pre.length % 64 + 1 = pre.length % 64 + 1) :=
          getLsbD_one_shl _ _ (by omega)
        rw [hc] at h1; simp at h1
      rw [if_neg hz]
      have := ih (pre ++ [x]) bits (mask <<< 1) (if x = true then cur ||| mask else cur) (by simp; omega)
        (by rw [hms, show (pre ++ [x]).length % 64 = pre.length % 64 + 1 by simp; omega]) hcur
      simpa using this

theorem ofRange_rep (l : List Bool) : Rep (ofRange l) l := by
  obtain ⟨bits, cur, e1, e2, e3⟩ := rangeLoop_spec l [] [] 1 0 rfl rfl
    (fun p => by rw [List.nil_append, wbit_singleton, bitFn_nil]; simp)
  unfold ofRange
  simp only [List.length_nil, List.nil_append] at e1 e2 e3
  rw [e1]
  simp only []
  by_cases h0 : l.length % 64 = 0
  · rw [if_neg (by rw [h0]; simp)]
    refine ⟨rfl, ?_, ?_⟩
    · show bits.length = _; rw [wordsFor_eq]; omega
    · intro p
      show wbit bits p = _
      by_cases h1 : p/64 < bits.length
      · rw [← e3, wbit_append, if_pos h1]
      · rw [wbit_of_ge _ _ (by omega), bitFn_of_ge _ _ (by omega)]
  · rw [if_pos]
    · refine ⟨rfl, ?_, e3⟩
      show (bits ++ [cur]).length = _
      rw [wordsFor_eq, List.length_append, List.length_singleton]; omega
    · intro hc
      have h1 : ((1 : Word) <<< (l.length % 64)).getLsbD 0 = decide (0 = l.length % 64) := getLsbD_one_shl _ _ (by omega)
      rw [hc] at h1
      have : (0 : Nat) ≠ l.length % 64 := by omega
      rw [decide_eq_false this] at h1
      exact absurd h1 (by decide)

theorem eq_ofRange {v : BitVector} {l : List Bool} (h : Rep v l) : v = ofRange l := h.unique (ofRange_rep l)

variable {v : BitVector} {l : List Bool}

theorem and_one_ne (w : Word) : ((w &&& 1) ≠ 0) ↔ w.getLsbD 0 = true := by
  constructor
  · intro h
    by_contra hc
    apply h
    apply BitVec.eq_of_getLsbD_eq
    intro i hi
    rw [BitVec.getLsbD_and]
    cases i with
    | zero => simp at hc; simp [hc]
    | succ i =>
      have : (1 : BitVec 64).getLsbD (i+1) = false := by
        show (1#64).getLsbD (i+1) = false
        rw [BitVec.getLsbD_one]; simp
      rw [this]; simp
  · intro h hc
    have : (w &&& 1).getLsbD 0 = true := by
      rw [BitVec.getLsbD_and, h]; rfl
    rw [hc] at this; exact absurd this (by decide)

theorem access_eq (h : Rep v l) (pos : Nat) (hp : pos < l.length) : access v pos = some (bitFn l pos) := by
  have hl := h.len
  unfold access
  rw [assertP_eq _ (by rw [h.size]; exact hp)]
  simp only [Option.bind_eq_bind, Option.bind_some]
  rw [assertP_eq _ (by omega), rd_eq _ _ (by omega)]
  simp only [Option.bind_eq_bind, Option.bind_some]
  rw [shr_eq _ _ (by omega)]
  simp only [Option.bind_some]
  congr 1
  rw [Bool.eq_iff_iff, decide_eq_true_iff, and_one_ne, BitVec.getLsbD_ushiftRight, getElem_getLsbD _ _ _ (by omega) (by omega), h.repr.bit,
    show 64 * (pos/64) + (pos % 64 + 0) = pos by omega]

theorem access_none (h : Rep v l) (pos : Nat) (hp : l.length ≤ pos) : access v pos = none := by
  unfold access assertP
  rw [if_neg (by rw [h.size]; omega)]; rfl

theorem shlOv_lt (ov : Word → Nat → Word) (x : Word) (k : Nat) (h : k < 64) : shlOv ov x k = x <<< k := by
  unfold shlOv; rw [if_pos h]

theorem getBits_mask (ov : Word → Nat → Word) (len : Nat) (h : len ≤ 64) (i : Nat) (hi : i < 64) :
    (negBool (len = 64) ||| (shlOv ov 1 len - 1)).getLsbD i = decide (i < len) := by
  rw [BitVec.getLsbD_or]
  by_cases h64 : len = 64
  · simp only [h64, decide_true]
    rw [Builder.negBool_bit _ _ hi]; simp [hi]
  · simp only [h64, decide_false]
    rw [Builder.negBool_bit _ _ hi, shlOv_lt _ _ _ (by omega)]
    rw [show (1 : Word) <<< len - 1 = (1#64 <<< len) - 1 from rfl, Builder.mask_bit _ (by omega), Bool.false_or]

theorem getBits_eq (ov : Word → Nat → Word) (h : Rep v l) (pos len : Nat) (hlen : len ≤ 64) (hp : pos + len ≤ l.length) :
    ∃ x, getBits ov v pos len = some x ∧ ∀ i, x.getLsbD i = (decide (i < len) && bitFn l (pos + i)) := by
  have hl := h.len
  unfold getBits
  rw [assertP_eq _ (by rw [h.size]; exact hp)]
  simp only [Option.bind_eq_bind, Option.bind_some]
  by_cases h0 : len = 0
  · rw [if_pos h0]
    refine ⟨0, rfl, ?_⟩
    intro i; simp [h0]
  rw [if_neg h0, rd_eq _ _ (by omega)]
  simp only [Option.bind_some]
  rw [shr_eq _ _ (by omega)]
  simp only [Option.bind_some]
  by_cases h1 : pos % 64 + len ≤ 64
  · rw [if_pos h1]
    refine ⟨_, rfl, ?_⟩
    intro i
    by_cases hi : i < 64
    · rw [BitVec.getLsbD_and, getBits_mask _ _ hlen _ hi, BitVec.getLsbD_ushiftRight, getElem_getLsbD' _ _ _ (by omega), h.repr.bit]
      by_cases h2 : i < len
      · have : pos % 64 + i < 64 := by omega
        simp only [h2, this, decide_true, Bool.true_and, Bool.and_true]
        congr 1; omega
      · simp [h2]
    · rw [BitVec.getLsbD_of_ge _ _ (by omega)]
      have : ¬ i < len := by omega
      simp [this]
  · rw [if_neg h1, rd_eq _ _ (by omega)]
    simp only [Option.bind_some]
    rw [shl_eq _ _ (by omega)]
    refine ⟨_, rfl, ?_⟩
    intro i
    by_cases hi : i < 64
    · rw [BitVec.getLsbD_or, BitVec.getLsbD_and, getBits_mask _ _ hlen _ hi, BitVec.getLsbD_ushiftRight, getElem_getLsbD' _ _ _ (by omega),
        BitVec.getLsbD_shiftLeft, getElem_getLsbD' _ _ _ (by omega), h.repr.bit, h.repr.bit]
      by_cases h2 : i < 64 - pos % 64
      · have h3 : pos % 64 + i < 64 := by omega
        have h4 : i < len := by omega
        simp only [h2, h3, h4, decide_true, Bool.true_and, Bool.not_true, Bool.and_false, Bool.false_and, Bool.or_false]
        congr 1; omega
      · have h3 : ¬ (pos % 64 + i < 64) := by omega
        have h5 : i - (64 - pos % 64) < 64 := by omega
        simp only [h2, h3, hi, h5, decide_true, decide_false, Bool.false_and, Bool.false_or, Bool.not_false, Bool.true_and, Bool.and_true]
        rw [Bool.and_comm]
        congr 2; omega
    · rw [BitVec.getLsbD_of_ge _ _ (by omega)]
      have : ¬ i < len := by omega
      simp [this]

theorem getWord_eq (h : Rep v l) (pos : Nat) (hp : pos < l.length) :
    ∃ x, getWord v pos = some x ∧ ∀ i, i < 64 → x.getLsbD i = bitFn l (pos + i) := by
  have hl := h.len
  unfold getWord
  rw [assertP_eq _ (by rw [h.size]; exact hp)]
  simp only [Option.bind_eq_bind, Option.bind_some]
  rw [rd_eq _ _ (by omega)]
  simp only [Option.bind_eq_bind, Option.bind_some]
  rw [shr_eq _ _ (by omega)]
  simp only [Option.bind_some]
  by_cases h1 : pos % 64 ≠ 0 ∧ pos / 64 + 1 < v.bits.length
  · rw [if_pos h1, rd_eq _ _ h1.2]
    simp only [Option.bind_some]
    rw [shl_eq _ _ (by omega)]
    refine ⟨_, rfl, ?_⟩
    intro i hi
    rw [BitVec.getLsbD_or, BitVec.getLsbD_ushiftRight, getElem_getLsbD' _ _ _ (by omega),
        BitVec.getLsbD_shiftLeft, getElem_getLsbD' _ _ _ (by omega), h.repr.bit, h.repr.bit]
    by_cases h2 : i < 64 - pos % 64
    · have h3 : pos % 64 + i < 64 := by omega
      simp only [h2, h3, decide_true, Bool.true_and, Bool.not_true, Bool.and_false, Bool.false_and, Bool.or_false]
      congr 1; omega
    · have h3 : ¬ (pos % 64 + i < 64) := by omega
      have h5 : i - (64 - pos % 64) < 64 := by omega
      simp only [h2, h3, hi, h5, decide_true, decide_false, Bool.false_and, Bool.false_or, Bool.not_false, Bool.true_and]
      congr 1; omega
  · rw [if_neg h1]
    refine ⟨_, rfl, ?_⟩
    intro i hi
    rw [BitVec.getLsbD_ushiftRight, getElem_getLsbD' _ _ _ (by omega), h.repr.bit]
    by_cases h3 : pos % 64 + i < 64
    · simp only [h3, decide_true, Bool.true_and]; congr 1; omega
    · simp only [h3, decide_false, Bool.false_and]
      rw [bitFn_of_ge]
      omega

theorem byteAt_eq (h : Rep v l) (i : Nat) (hi : i < 8 * v.bits.length) :
    ∃ b, byteAt v.bits i = some b ∧ ∀ t, t < 8 → b.getLsbD t = bitFn l (8*i+t) := by
  unfold byteAt
  rw [rd_eq _ _ (by omega)]
  refine ⟨_, rfl, ?_⟩
  intro t ht
  rw [BitVec.getLsbD_extractLsb', getElem_getLsbD _ _ _ (by omega) (by omega), h.repr.bit]
  simp only [ht, decide_true, Bool.true_and]
  congr 1; omega

theorem load64_eq (h : Rep v l) (i : Nat) (hi : i + 8 ≤ 8 * v.bits.length) :
    ∃ x, load64 v.bits i = some x ∧ ∀ t, t < 64 → x.getLsbD t = bitFn l (8*i+t) := by
  obtain ⟨b0, e0, h0⟩ := byteAt_eq h i (by omega)
  obtain ⟨b1, e1, h1⟩ := byteAt_eq h (i+1) (by omega)
  obtain ⟨b2, e2, h2⟩ := byteAt_eq h (i+2) (by omega)
  obtain ⟨b3, e3, h3⟩ := byteAt_eq h (i+3) (by omega)
  obtain ⟨b4, e4, h4⟩ := byteAt_eq h (i+4) (by omega)
  obtain ⟨b5, e5, h5⟩ := byteAt_eq h (i+5) (by omega)
  obtain ⟨b6, e6, h6⟩ := byteAt_eq h (i+6) (by omega)
  obtain ⟨b7, e7, h7⟩ := byteAt_eq h (i+7) (by omega)
  unfold load64
  rw [e0, e1, e2, e3, e4, e5, e6, e7]
  refine ⟨_, rfl, ?_⟩
  intro t ht
  simp only [BitVec.getLsbD_append]
  split
  · rw [h0 _ (by omega)]
  split
  · rw [h1 _ (by omega)]; congr 1; omega
  split
  · rw [h2 _ (by omega)]; congr 1; omega
  split
  · rw [h3 _ (by omega)]; congr 1; omega
  split
  · rw [h4 _ (by omega)]; congr 1; omega
  split
  · rw [h5 _ (by omega)]; congr 1; omega
  split
  · rw [h6 _ (by omega)]; congr 1; omega
  · rw [h7 _ (by omega)]; congr 1; omega

theorem getWord56_eq (h : Rep v l) (pos : Nat) (hp : pos/8 + 8 ≤ 8 * v.bits.length) :
    ∃ x, getWord56 v pos = some x ∧ ∀ i, i < 56 → x.getLsbD i = bitFn l (pos + i) := by
  obtain ⟨x, e, hx⟩ := load64_eq h (pos/8) hp
  unfold getWord56
  rw [e, Option.bind_eq_bind, Option.bind_some, shr_eq _ _ (by omega)]
  refine ⟨_, rfl, ?_⟩
  intro i hi
  rw [BitVec.getLsbD_ushiftRight, hx _ (by omega)]
  congr 1; omega

/-- bits seen by the predecessor loop -/
def predF (neg : Bool) (bits : List Word) (block : Nat) (word : Word) (p : Nat) : Bool :=
  if p/64 < block then (neg ^^ wbit bits p) else if p/64 = block then word.getLsbD (p%64) else false

theorem neg_bit (neg : Bool) (w : Word) (t : Nat) (ht : t < 64) :
    (if neg = true then ~~~w else w).getLsbD t = (neg ^^ w.getLsbD t) := by
  cases neg
  · simp
  · rw [if_pos rfl, BitVec.getLsbD_not]; simp [ht]

theorem predLoop_some (neg : Bool) (bits : List Word) (block : Nat) (word : Word) (q : Nat)
    (h : predLoop neg bits block word = some q) :
    predF neg bits block word q = true ∧ ∀ r, q < r → predF neg bits block word r = false := by
  induction block generalizing word with
  | zero =>
    unfold predLoop at h
    cases hm : msb word with
    | none => rw [hm] at h; simp at h
    | some r =>
      rw [hm] at h
      simp only [Option.some.injEq] at h
      obtain ⟨h1, h2, h3⟩ := (msb_some _ _).mp hm
      subst h
      unfold predF
      constructor
      · rw [if_neg (by omega), if_pos (by omega), show (0*64+r)%64 = r by omega]; exact h2
      · intro p hp
        rw [if_neg (by omega)]
        split
        · exact h3 _ (by omega) (by omega)
        · rfl
  | succ b ih =>
    unfold predLoop at h
    cases hm : msb word with
    | some r =>
      rw [hm] at h
      simp only [Option.some.injEq] at h
      obtain ⟨h1, h2, h3⟩ := (msb_some _ _).mp hm
      subst h
      unfold predF
      constructor
      · rw [if_neg (by omega), if_pos (by omega), show ((b+1)*64+r)%64 = r by omega]; exact h2
      · intro p hp
        rw [if_neg (by omega)]
        split
        · exact h3 _ (by omega) (by omega)
        · rfl
    | none =>
      rw [hm] at h
      simp only [Option.bind_eq_bind, rd] at h
      cases hr : bits[b]? with
      | none => rw [hr] at h; simp at h
      | some w =>
        rw [hr, Option.bind_some] at h
        have := ih _ h
        have hz := (msb_none _).mp hm
        have e : ∀ p, predF neg bits b (if neg = true then ~~~w else w) p = predF neg bits (b+1) word p := by
          intro p
          unfold predF
          by_cases h1 : p/64 < b
          · rw [if_pos h1, if_pos (by omega)]
          · rw [if_neg h1]
            by_cases h2 : p/64 = b
            · rw [if_pos h2, if_pos (show p/64 < b + 1 by omega), neg_bit _ _ _ (by omega)]
              unfold wbit
              rw [h2, List.getD_eq_getElem?_getD, hr]; rfl
            · rw [if_neg h2, if_neg (show ¬ p/64 < b+1 by omega)]
              split
              · rw [hz]; simp
              · rfl
        refine ⟨by rw [← e]; exact this.1, fun r hr => by rw [← e]; exact this.2 r hr⟩

theorem predLoop_none (neg : Bool) (bits : List Word) (block : Nat) (word : Word) (hb : block ≤ bits.length)
    (h : predLoop neg bits block word = none) : ∀ r, predF neg bits block word r = false := by
  induction block generalizing word with
  | zero =>
    unfold predLoop at h
    cases hm : msb word with
    | some r => rw [hm] at h; simp at h
    | none =>
      intro r
      unfold predF
      rw [if_neg (by omega), (msb_none _).mp hm]; simp
  | succ b ih =>
    unfold predLoop at h
    cases hm : msb word with
    | some r => rw [hm] at h; simp at h
    | none =>
      rw [hm] at h
      simp only [Option.bind_eq_bind] at h
      rw [rd_eq _ _ (by omega), Option.bind_some] at h
      have := ih _ (by omega) h
      intro p
      rw [← this p]
      unfold predF
      by_cases h1 : p/64 < b
      · rw [if_pos h1, if_pos (by omega)]
      · rw [if_neg h1]
        by_cases h2 : p/64 = b
        · rw [if_pos h2, if_pos (show p/64 < b + 1 by omega), neg_bit _ _ _ (by omega), getElem_getLsbD _ _ _ (by omega) (by omega)]
          congr 2; omega
        · rw [if_neg h2, if_neg (show ¬ p/64 < b+1 by omega), (msb_none _).mp hm]; simp

theorem shl_shr_bit (w : Word) (s i : Nat) (hs : s < 64) : ((w <<< s) >>> s).getLsbD i = (decide (i + s < 64) && w.getLsbD i) := by
  rw [BitVec.getLsbD_ushiftRight, BitVec.getLsbD_shiftLeft]
  by_cases h : i + s < 64
  · have h1 : s + i < 64 := by omega
    simp [h, h1]
  · have h1 : ¬ s + i < 64 := by omega
    simp [h, h1]

theorem shr_shl_bit (w : Word) (s i : Nat) (hi : i < 64) : ((w >>> s) <<< s).getLsbD i = (decide (s ≤ i) && w.getLsbD i) := by
  rw [BitVec.getLsbD_shiftLeft, BitVec.getLsbD_ushiftRight]
  by_cases h : s ≤ i
  · have h1 : ¬ i < s := by omega
    have : s + (i - s) = i := by omega
    simp [h, h1, hi, this]
  · have h1 : i < s := by omega
    simp [h, h1]

theorem predecessor_cases (neg : Bool) (h : Rep v l) (pos : Nat) (hp : pos < l.length) :
    match predecessor neg v pos with
    | some q => q ≤ pos ∧ (neg ^^ bitFn l q) = true ∧ ∀ r, q < r → r ≤ pos → (neg ^^ bitFn l r) = false
    | none => ∀ r, r ≤ pos → (neg ^^ bitFn l r) = false := by
  have hl := h.len
  have hw : pos / 64 < v.bits.length := by omega
  have hpr : predecessor neg v pos = predLoop neg v.bits (pos/64)
      (((if neg = true then ~~~v.bits[pos/64] else v.bits[pos/64]) <<< (64 - pos % 64 - 1)) >>> (64 - pos % 64 - 1)) := by
    unfold predecessor
    rw [assertP_eq _ (by rw [h.size]; exact hp)]
    simp only [Option.bind_eq_bind, Option.bind_some]
    rw [rd_eq _ _ hw]
    simp only [Option.bind_eq_bind, Option.bind_some]
    rw [shl_eq _ _ (by omega)]
    simp only [Option.bind_some]
    rw [shr_eq _ _ (by omega)]
    rfl
  have hF : ∀ p, predF neg v.bits (pos/64)
      (((if neg = true then ~~~v.bits[pos/64] else v.bits[pos/64]) <<< (64 - pos % 64 - 1)) >>> (64 - pos % 64 - 1)) p =
      (decide (p ≤ pos) && (neg ^^ bitFn l p)) := by
    intro p
    unfold predF
    rw [h.repr.bit]
    by_cases h1 : p/64 < pos/64
    · have : p ≤ pos := by omega
      rw [if_pos h1]; simp [this]
    · rw [if_neg h1]
      by_cases h2 : p/64 = pos/64
      · rw [if_pos h2, shl_shr_bit _ _ _ (by omega), neg_bit _ _ _ (by omega), getElem_getLsbD _ _ _ hw (by omega), h.repr.bit,
          show 64*(pos/64) + p%64 = p by omega]
        congr 1; rw [decide_eq_decide]; omega
      · have : ¬ p ≤ pos := by omega
        rw [if_neg h2]; simp [this]
  rw [hpr]
  split
  · rename_i q hq
    obtain ⟨h1, h2⟩ := predLoop_some _ _ _ _ _ hq
    rw [hF] at h1
    simp only [Bool.and_eq_true, decide_eq_true_eq] at h1
    refine ⟨h1.1, h1.2, ?_⟩
    intro r hr hr2
    have := h2 r hr
    rw [hF] at this
    simpa [hr2] using this
  · rename_i hq
    have h1 := predLoop_none _ _ _ _ (by omega) hq
    intro r hr
    have := h1 r
    rw [hF] at this
    simpa [hr] using this

/-- bits seen by the successor loop, relative to the start of word `block` -/
def succF (neg : Bool) (rest : List Word) (word : Word) (p : Nat) : Bool :=
  if p < 64 then word.getLsbD p else (decide (p < 64*(rest.length+1)) && (neg ^^ wbit rest (p-64)))

theorem succF_cons (neg : Bool) (rest : List Word) (w word : Word) (p : Nat) (h : 64 ≤ p) :
    succF neg (w :: rest) word p = succF neg rest (if neg = true then ~~~w else w) (p - 64) := by
  unfold succF
  rw [if_neg (by omega), wbit_cons, List.length_cons]
  by_cases h1 : p - 64 < 64
  · have : p < 64 * (rest.length + 1 + 1) := by omega
    rw [if_pos h1, if_pos h1, neg_bit _ _ _ h1]; simp [this]
  · rw [if_neg h1, if_neg h1]
    congr 1; rw [decide_eq_decide]; omega

theorem succLoop_some (neg : Bool) (rest : List Word) (block : Nat) (word : Word) (q : Nat)
    (h : succLoop neg rest block word = some q) :
    64*block ≤ q ∧ succF neg rest word (q - 64*block) = true ∧ ∀ r, r < q - 64*block → succF neg rest word r = false := by
  induction rest generalizing block word with
  | nil =>
    unfold succLoop at h
    cases hm : lsb word with
    | none => rw [hm] at h; simp at h
    | some r =>
      rw [hm] at h
      simp only [Option.some.injEq] at h
      obtain ⟨h1, h2, h3⟩ := (lsb_some _ _).mp hm
      subst h
      refine ⟨by omega, ?_, ?_⟩
      · unfold succF
        rw [if_pos (by omega), show block*64+r-64*block = r by omega]; exact h2
      · intro r hr; unfold succF
        rw [if_pos (by omega)]; exact h3 _ (by omega)
  | cons w rest ih =>
    unfold succLoop at h
    cases hm : lsb word with
    | some r =>
      rw [hm] at h
      simp only [Option.some.injEq] at h
      obtain ⟨h1, h2, h3⟩ := (lsb_some _ _).mp hm
      subst h
      refine ⟨by omega, ?_, ?_⟩
      · unfold succF
        rw [if_pos (by omega), show block*64+r-64*block = r by omega]; exact h2
      · intro r hr; unfold succF
        rw [if_pos (by omega)]; exact h3 _ (by omega)
    | none =>
      rw [hm] at h
      simp only [] at h
      obtain ⟨h1, h2, h3⟩ := ih _ _ h
      refine ⟨by omega, ?_, ?_⟩
      · rw [succF_cons _ _ _ _ _ (by omega), show q - 64*block - 64 = q - 64*(block+1) by omega]; exact h2
      · intro r hr
        by_cases hr2 : r < 64
        · unfold succF; rw [if_pos hr2, (lsb_none _).mp hm]; simp
        · rw [succF_cons _ _ _ _ _ (by omega)]
          exact h3 _ (by omega)

theorem succLoop_none (neg : Bool) (rest : List Word) (block : Nat) (word : Word)
    (h : succLoop neg rest block word = none) : ∀ r, succF neg rest word r = false := by
  induction rest generalizing block word with
  | nil =>
    unfold succLoop at h
    cases hm : lsb word with
    | some r => rw [hm] at h; simp at h
    | none =>
      intro r
      unfold succF
      split
      · rw [(lsb_none _).mp hm]; simp
      · rename_i h1; have : ¬ r < 64 * (([] : List Word).length + 1) := by simpa using h1
        simp only [this, decide_false, Bool.false_and]
  | cons w rest ih =>
    unfold succLoop at h
    cases hm : lsb word with
    | some r => rw [hm] at h; simp at h
    | none =>
      rw [hm] at h
      simp only [] at h
      have := ih _ _ h
      intro r
      by_cases hr2 : r < 64
      · unfold succF; rw [if_pos hr2, (lsb_none _).mp hm]; simp
      · rw [succF_cons _ _ _ _ _ (by omega)]
        exact this _

theorem successor_cases (neg : Bool) (h : Rep v l) (pos : Nat) (hp : pos < l.length) :
    match successor neg v pos with
    | some q => pos ≤ q ∧ q < 64 * wordsFor l.length ∧ (neg ^^ bitFn l q) = true ∧ ∀ r, pos ≤ r → r < q → (neg ^^ bitFn l r) = false
    | none => ∀ r, pos ≤ r → r < 64 * wordsFor l.length → (neg ^^ bitFn l r) = false := by
  have hl := h.len
  have hw : pos / 64 < v.bits.length := by omega
  have hpr : successor neg v pos = succLoop neg (v.bits.drop (pos/64+1)) (pos/64)
      (((if neg = true then ~~~v.bits[pos/64] else v.bits[pos/64]) >>> (pos % 64)) <<< (pos % 64)) := by
    unfold successor
    rw [assertP_eq _ (by rw [h.size]; exact hp)]
    simp only [Option.bind_eq_bind, Option.bind_some]
    rw [rd_eq _ _ hw]
    simp only [Option.bind_eq_bind, Option.bind_some]
    rw [shr_eq _ _ (by omega)]
    simp only [Option.bind_some]
    rw [shl_eq _ _ (by omega)]
    rfl
  have hF : ∀ p, succF neg (v.bits.drop (pos/64+1))
      (((if neg = true then ~~~v.bits[pos/64] else v.bits[pos/64]) >>> (pos % 64)) <<< (pos % 64)) p =
      (decide (pos ≤ 64*(pos/64) + p ∧ 64*(pos/64) + p < 64*wordsFor l.length) && (neg ^^ bitFn l (64*(pos/64)+p))) := by
    intro p
    unfold succF
    rw [wordsFor_eq]
    by_cases h1 : p < 64
    · rw [if_pos h1, shr_shl_bit _ _ _ h1, neg_bit _ _ _ h1, getElem_getLsbD _ _ _ hw h1, h.repr.bit]
      congr 1; rw [decide_eq_decide]; omega
    · rw [if_neg h1]
      have e : wbit (v.bits.drop (pos/64+1)) (p - 64) = bitFn l (64*(pos/64)+p) := by
        rw [← h.repr.bit]
        unfold wbit
        rw [List.getD_eq_getElem?_getD, List.getD_eq_getElem?_getD, List.getElem?_drop,
          show pos/64+1+(p-64)/64 = (64*(pos/64)+p)/64 by omega, show (p-64)%64 = (64*(pos/64)+p)%64 by omega]
      rw [e, List.length_drop]
      congr 1; rw [decide_eq_decide]; omega
  rw [hpr]
  split
  · rename_i q hq
    obtain ⟨h0, h1, h2⟩ := succLoop_some _ _ _ _ _ hq
    rw [hF, show 64*(pos/64) + (q - 64*(pos/64)) = q by omega] at h1
    simp only [Bool.and_eq_true, decide_eq_true_eq] at h1
    refine ⟨h1.1.1, h1.1.2, h1.2, ?_⟩
    intro r hr hr2
    have := h2 (r - 64*(pos/64)) (by omega)
    rw [hF, show 64*(pos/64) + (r - 64*(pos/64)) = r by omega] at this
    have h3 : r < 64*wordsFor l.length := by omega
    simpa [hr, h3] using this
  · rename_i hq
    have h1 := succLoop_none _ _ _ _ hq
    intro r hr hr2
    have := h1 (r - 64*(pos/64))
    rw [hF, show 64*(pos/64) + (r - 64*(pos/64)) = r by omega] at this
    simpa [hr, hr2] using this

end BitVector
end Succinct
