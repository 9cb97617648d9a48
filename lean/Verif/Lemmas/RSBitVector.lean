import Verif.Lemmas.RSPairs

/-! Rank and select of `rs_bit_vector`. -/
namespace Succinct
namespace RSBitVector
open Broadword

theorem bind_pure_some {α β : Type} (x : α) (f : α → Option β) : ((some x : Option α) >>= f) = f x := by
  have h : Option.bind (some x) f = f x := Option.bind_some x f
  exact h

/-- what a hint table says about the rank function `R` of the blocks -/
def HintsOK (R : Nat → Nat) (nb : Nat) (H : List Nat) : Prop :=
  ∃ m, H.length = m+1 ∧ (∀ j, j < m → ∃ i, H[j]? = some i ∧ i < nb ∧ R i ≤ 1024*(j+1) ∧ 1024*(j+1) < R (i+1)) ∧
    H[m]? = some nb ∧ R nb ≤ 1024*(m+1)

theorem hintsLoop_spec (R : Nat → Nat) (rank : Nat → Option Nat) (nb : Nat) (hr : ∀ i, i ≤ nb → rank i = some (R i))
    (hstep : ∀ i, R (i+1) ≤ R i + 512) (k i : Nat) (acc : List Nat) (hk : i + k = nb) (thr : Nat)
    (hthr : thr = 1024*(acc.length+1)) (hRi : R i ≤ thr)
    (hacc : ∀ j, j < acc.length → ∃ i, acc[j]? = some i ∧ i < nb ∧ R i ≤ 1024*(j+1) ∧ 1024*(j+1) < R (i+1)) :
    ∃ H, hintsLoop rank k i thr acc = some H ∧ R nb ≤ 1024*(H.length+1) ∧
      ∀ j, j < H.length → ∃ i, H[j]? = some i ∧ i < nb ∧ R i ≤ 1024*(j+1) ∧ 1024*(j+1) < R (i+1) := by
  induction k generalizing i acc thr with
  | zero =>
    have : i = nb := by omega
    subst this
    exact ⟨acc, rfl, by omega, hacc⟩
  | succ k ih =>
    rw [hintsLoop, hr (i+1) (by omega)]
    have := hstep i
    simp only [bind_pure_some]
    split
    · rename_i hgt
      apply ih (i+1) (acc ++ [i]) (by omega) (thr+1024)
      · simp; omega
      · omega
      · intro j hj
        rw [List.length_append, List.length_singleton] at hj
        rcases Nat.lt_or_ge j acc.length with h | h
        · obtain ⟨q, h1, h2⟩ := hacc j h
          exact ⟨q, by rw [List.getElem?_append_left h]; exact h1, h2⟩
        · have : j = acc.length := by omega
          subst this
          exact ⟨i, by simp, by omega, by omega, by omega⟩
    · exact ih (i+1) acc (by omega) thr hthr (by omega) hacc

theorem buildHints_spec (R : Nat → Nat) (rank : Nat → Option Nat) (nb : Nat) (hr : ∀ i, i ≤ nb → rank i = some (R i))
    (hstep : ∀ i, R (i+1) ≤ R i + 512) (h0 : R 0 = 0) :
    ∃ H, buildHints rank nb = some H ∧ HintsOK R nb H := by
  obtain ⟨H, e, h1, h2⟩ := hintsLoop_spec R rank nb hr hstep nb 0 [] (by omega) 1024 (by simp) (by omega)
    (by intro j hj; simp at hj)
  refine ⟨H ++ [nb], by rw [buildHints, e]; rfl, H.length, by simp, ?_, by simp, h1⟩
  intro j hj
  obtain ⟨i, h3, h4⟩ := h2 j hj
  exact ⟨i, by rw [List.getElem?_append_left hj]; exact h3, h4⟩

theorem bsearch_spec (R : Nat → Nat) (rank : Nat → Option Nat) (nb : Nat) (hr : ∀ i, i ≤ nb → rank i = some (R i))
    (n fuel a b : Nat) (hab : a < b) (hb : b ≤ nb+1) (hf : b - a ≤ fuel) (ha : R a ≤ n) (hbn : b ≤ nb → n < R b) :
    ∃ r, bsearch rank n fuel a b = some r ∧ r ≤ nb ∧ R r ≤ n ∧ (r + 1 ≤ nb → n < R (r+1)) := by
  induction fuel generalizing a b with
  | zero => omega
  | succ fuel ih =>
    rw [bsearch, subU_eq b a (by omega)]
    simp only []
    by_cases hd : b - a > 1
    · rw [if_pos hd, hr (a + (b-a)/2) (by omega)]
      simp only [bind_pure_some]
      split
      · exact ih _ _ (by omega) hb (by omega) (by assumption) hbn
      · exact ih _ _ (by omega) (by omega) (by omega) ha (by intro _; omega)
    · rw [if_neg hd]
      have : b = a+1 := by omega
      subst this
      exact ⟨a, rfl, by omega, ha, hbn⟩

theorem interval_spec (R : Nat → Nat) (nb : Nat) (H : List Nat) (hH : H = [] ∨ HintsOK R nb H) (n : Nat)
    (hmono : ∀ i j, i ≤ j → R i ≤ R j) (h0 : R 0 = 0) (hn : n < R nb) :
    ∃ a b, interval H nb n = some (a, b) ∧ a < b ∧ b ≤ nb+1 ∧ R a ≤ n ∧ (b ≤ nb → n < R b) := by
  unfold interval
  rcases hH with rfl | ⟨m, hl, hj, hm, hR⟩
  · have : nb ≠ 0 := by intro h; subst h; omega
    exact ⟨0, nb, rfl, by omega, by omega, by omega, fun _ => hn⟩
  · rw [if_pos (by omega)]
    have hb : ∃ x, H[n/1024]? = some x ∧ x ≤ nb ∧ (x + 1 ≤ nb → n < R (x+1)) := by
      rcases Nat.lt_or_ge (n/1024) m with h | h
      · obtain ⟨i, h1, h2, h3, h4⟩ := hj _ h
        exact ⟨i, h1, by omega, fun _ => by omega⟩
      · have : n/1024 = m := by omega
        exact ⟨nb, by rw [this]; exact hm, by omega, by omega⟩
    obtain ⟨x, hx1, hx2, hx3⟩ := hb
    have ha : ∃ a, hintLow H (n/1024) = some a ∧ R a ≤ n ∧ a ≤ x := by
      unfold hintLow
      by_cases hc : n/1024 = 0
      · exact ⟨0, by rw [if_neg (by omega)], by omega, by omega⟩
      · rw [if_pos hc]
        obtain ⟨i, h1, h2, h3, h4⟩ := hj (n/1024-1) (by omega)
        refine ⟨i, h1, by omega, ?_⟩
        rcases Nat.lt_or_ge x i with h | h
        · have h5 := hx3 (by omega)
          have := hmono (x+1) i (by omega)
          omega
        · exact h
    obtain ⟨a, ha1, ha2, ha3⟩ := ha
    refine ⟨a, x+1, ?_, by omega, by omega, ha2, hx3⟩
    simp only [ha1, rd, hx1, bind_pure_some]; rfl

/-- the block of a select query -/
theorem block_spec (R : Nat → Nat) (rank : Nat → Option Nat) (nb : Nat) (hr : ∀ i, i ≤ nb → rank i = some (R i))
    (H : List Nat) (hH : H = [] ∨ HintsOK R nb H) (n : Nat)
    (hmono : ∀ i j, i ≤ j → R i ≤ R j) (h0 : R 0 = 0) (hn : n < R nb) :
    ∃ a b r, interval H nb n = some (a, b) ∧ bsearch rank n (b-a) a b = some r ∧ r < nb ∧ R r ≤ n ∧ n < R (r+1) := by
  obtain ⟨a, b, h1, h2, h3, h4, h5⟩ := interval_spec R nb H hH n hmono h0 hn
  obtain ⟨r, h6, h7, h8, h9⟩ := bsearch_spec R rank nb hr n (b-a) a b h2 h3 (by omega) h4 h5
  have : r ≠ nb := by intro h; subst h; omega
  exact ⟨a, b, r, h1, h6, by omega, h8, h9 (by omega)⟩

/-- the object represents the bit sequence `l` -/
structure Inv (v : RSBitVector) (l : List Bool) : Prop where
  rep : Rep v.bv l
  tab : Table (bitFn l) (nblocks v.bv.bits) v.pairs
  h1 : v.hints = [] ∨ HintsOK (fun i => cnt (bitFn l) (512*i)) (nblocks v.bv.bits) v.hints
  h0 : v.hints0 = [] ∨ HintsOK (fun i => cnt (fun p => !bitFn l p) (512*i)) (nblocks v.bv.bits) v.hints0

theorem Table.numBlocks {f : Nat → Bool} {nb : Nat} {pairs : List Nat} (h : Table f nb pairs) :
    numBlocks pairs = some nb := by
  unfold RSBitVector.numBlocks
  rw [h.len, subU_eq _ _ (by omega)]; congr 1; omega

theorem Table.blockRank {f : Nat → Bool} {nb : Nat} {pairs : List Nat} (h : Table f nb pairs) (i : Nat) (hi : i ≤ nb) :
    blockRank pairs i = some (cnt f (512*i)) := by
  unfold RSBitVector.blockRank rd
  rw [Nat.mul_comm]; exact h.rank i hi

theorem Table.blockRank0 {f : Nat → Bool} {nb : Nat} {pairs : List Nat} (h : Table f nb pairs) (i : Nat) (hi : i ≤ nb) :
    blockRank0 pairs i = some (cnt (fun p => !f p) (512*i)) := by
  unfold RSBitVector.blockRank0
  have := h.blockRank i hi
  unfold RSBitVector.blockRank at this
  have := cnt_not_add f (512*i)
  rw [show (rd pairs (i*2)) = _ from ‹_›, bind_pure_some, subU_eq _ _ (by omega)]
  congr 1; omega

theorem Table.subBlockRanks {f : Nat → Bool} {nb : Nat} {pairs : List Nat} (h : Table f nb pairs) (i : Nat) (hi : i ≤ nb) :
    subBlockRanks pairs i = some (subs f i 7) := by
  unfold RSBitVector.subBlockRanks rd
  rw [Nat.mul_comm]; exact h.sub i hi

theorem build_inv (l : List Bool) (a b : Bool) : ∃ v, build (BitVector.ofRange l) a b = some v ∧ v.bv = BitVector.ofRange l ∧ Inv v l := by
  have hrep := BitVector.ofRange_rep l
  have hf : wbit (BitVector.ofRange l).bits = bitFn l := funext hrep.repr.bit
  have ht := buildPairs_table (BitVector.ofRange l).bits
  rw [hf] at ht
  unfold build
  simp only [ht.numBlocks, bind_pure_some]
  obtain ⟨H1, e1, k1⟩ := buildHints_spec (fun i => cnt (bitFn l) (512*i)) _ _ (fun i hi => ht.blockRank i hi)
    (fun i => by have := cnt_sub_le (bitFn l) (show 512*i ≤ 512*(i+1) by omega); omega) (by simp)
  obtain ⟨H0, e0, k0⟩ := buildHints_spec (fun i => cnt (fun p => !bitFn l p) (512*i)) _ _ (fun i hi => ht.blockRank0 i hi)
    (fun i => by have := cnt_sub_le (fun p => !bitFn l p) (show 512*i ≤ 512*(i+1) by omega); omega) (by simp)
  rw [e1, e0]
  cases a <;> cases b <;> exact ⟨_, rfl, rfl, hrep, ht, by first | exact Or.inl rfl | exact Or.inr k1,
    by first | exact Or.inl rfl | exact Or.inr k0⟩

theorem nblocks_ge {v : RSBitVector} {l : List Bool} (h : Inv v l) : l.length ≤ 512 * nblocks v.bv.bits := by
  have := h.rep.len
  unfold nblocks; omega

theorem cnt_bitFn_ge (l : List Bool) (p : Nat) (h : l.length ≤ p) : cnt (bitFn l) p = cnt (bitFn l) l.length := by
  have := (cnt_eq_iff_false (f := bitFn l) h).2 (by intro i h1 _; exact bitFn_of_ge l i h1)
  omega

theorem numOnes_eq {v : RSBitVector} {l : List Bool} (h : Inv v l) : numOnes v = some (cnt (bitFn l) l.length) := by
  unfold numOnes
  have := nblocks_ge h
  rw [subU_eq _ _ (by rw [h.tab.len]; omega), bind_pure_some, h.tab.len, Nat.add_sub_cancel, rd, h.tab.rank _ (by omega),
    cnt_bitFn_ge l _ this]

theorem numZeros_eq {v : RSBitVector} {l : List Bool} (h : Inv v l) : numZeros v = some (l.length - cnt (bitFn l) l.length) := by
  unfold numZeros
  have := cnt_le (bitFn l) l.length
  rw [numOnes_eq h, bind_pure_some, h.rep.size, subU_eq _ _ this]

theorem subs7_lt (f : Nat → Bool) (b : Nat) : subs f b 7 < 2^63 := subs_lt f b 7 (by omega)

theorem ofNat_subs (f : Nat → Bool) (b : Nat) : (BitVec.ofNat 64 (subs f b 7)).toNat = subs f b 7 := by
  have := subs7_lt f b
  rw [BitVec.toNat_ofNat, Nat.mod_eq_of_lt (by omega)]

theorem subBlockRank_eq {f : Nat → Bool} {nb : Nat} {pairs : List Nat} (h : Table f nb pairs) (sb : Nat) (hs : sb / 8 ≤ nb) :
    subBlockRank pairs sb = some (cnt f (64*sb)) := by
  unfold subBlockRank
  obtain ⟨h1, h2⟩ := sub_read (BitVec.ofNat 64 (subs f (sb/8) 7)) (sb%8) (by omega) (csub f (sb/8)) (csub_zero _ _)
    (by rw [ofNat_subs]; exact subs7_lt _ _) (by intro i hi; rw [ofNat_subs]; exact subs_fld f _ i hi)
  have e := csub_add f (sb/8) (sb%8)
  rw [show 512*(sb/8) + 64*(sb%8) = 64*sb by omega] at e
  simp only [h.blockRank _ hs, h.subBlockRanks _ hs, bind_pure_some, h1, h2]
  rw [e]; rfl

theorem rank_eq {v : RSBitVector} {l : List Bool} (h : Inv v l) (pos : Nat) (hp : pos ≤ l.length) :
    rank v pos = some (cnt (bitFn l) pos) := by
  unfold rank
  have hs := h.rep.size
  have hl := h.rep.len
  rw [assertP_eq _ (by rw [hs]; exact hp), bind_pure_some]
  by_cases he : pos = v.bv.size
  · rw [if_pos he, numOnes_eq h, he, hs]
  · rw [if_neg he]
    simp only []
    rw [subBlockRank_eq h.tab _ (by unfold nblocks; omega), bind_pure_some]
    have hc := cnt_add (bitFn l) (64*(pos/64)) (pos%64)
    rw [show 64*(pos/64) + pos%64 = pos by omega] at hc
    by_cases h0 : pos % 64 = 0
    · rw [if_neg (by omega), hc, h0, cnt_zero]; rfl
    · have hlt : pos/64 < v.bv.bits.length := by omega
      rw [if_pos h0, rd_eq _ _ hlt, bind_pure_some, shl_eq _ _ (by omega), bind_pure_some, hc, popcount_eq]
      have : cnt (v.bv.bits[pos/64] <<< (64 - pos%64)).getLsbD 64 = cnt (fun i => bitFn l (64*(pos/64) + i)) (pos%64) := by
        have := cnt_add (v.bv.bits[pos/64] <<< (64 - pos%64)).getLsbD (64 - pos%64) (pos%64)
        rw [show 64 - pos%64 + pos%64 = 64 by omega] at this
        rw [this, cnt_false, Nat.zero_add]
        · apply cnt_congr
          intro i hi
          rw [BitVec.getLsbD_shiftLeft, show 64 - pos%64 + i - (64 - pos%64) = i by omega,
            getElem_getLsbD _ _ _ hlt (by omega), h.rep.repr.bit]
          simp; omega
        · intro i hi
          rw [BitVec.getLsbD_shiftLeft]; simp [hi]
      rw [this]; rfl

/-- selecting inside a word of the sequence -/
theorem select_word (w : Word) (f : Nat → Bool) (o n : Nat) (hw : ∀ t, t < 64 → w.getLsbD t = f (64*o+t))
    (h1 : cnt f (64*o) ≤ n) (h2 : n < cnt f (64*(o+1))) :
    ∃ e, selectInWord w (n - cnt f (64*o)) = some e ∧ f (64*o+e) = true ∧ cnt f (64*o+e) = n := by
  have hc : ∀ e, e ≤ 64 → cnt f (64*o+e) = cnt f (64*o) + cnt w.getLsbD e := by
    intro e he
    rw [cnt_add]; congr 1
    apply cnt_congr; intro t ht; rw [hw t (by omega)]
  have h64 := hc 64 (by omega)
  rw [show 64*o+64 = 64*(o+1) by omega] at h64
  obtain ⟨e, h3, h4, h5, h6⟩ := selectInWord_spec w (n - cnt f (64*o)) (by omega)
  exact ⟨e, h3, by rw [← hw e h4]; exact h5, by rw [hc e (by omega), h6]; omega⟩

/-- the word of a select query inside its block -/
theorem word_spec (f : Nat → Bool) (S : Word) (b n : Nat) (hlt : S.toNat < 2^63)
    (hS : ∀ i, i < 7 → fld 9 i S.toNat = csub f b (7-i)) (h1 : cnt f (512*b) ≤ n) (h2 : n < cnt f (512*(b+1))) :
    ∃ x, subBlockOffset S (n - cnt f (512*b)) < 8 ∧ shr S ((7 - subBlockOffset S (n - cnt f (512*b))) * 9) = some x ∧
      cnt f (512*b) + (x &&& 0x1FF#64).toNat = cnt f (64*(b*8+subBlockOffset S (n - cnt f (512*b)))) ∧
      cnt f (64*(b*8+subBlockOffset S (n - cnt f (512*b)))) ≤ n ∧
      n < cnt f (64*(b*8+subBlockOffset S (n - cnt f (512*b))+1)) := by
  have h512 := cnt_sub_le f (show 512*b ≤ 512*(b+1) by omega)
  have e8 := csub_add f b 8
  rw [show 512*b+64*8 = 512*(b+1) by omega] at e8
  obtain ⟨ho, k1, k2⟩ := subBlockOffset_spec S (n - cnt f (512*b)) (by omega) (csub f b) (csub_zero f b) (csub_mono f b) hS (by omega)
  generalize subBlockOffset S (n - cnt f (512*b)) = o at *
  obtain ⟨r1, r2⟩ := sub_read S o ho (csub f b) (csub_zero f b) hlt hS
  have e1 := csub_add f b o
  have e2 := csub_add f b (o+1)
  rw [show 512*b+64*o = 64*(b*8+o) by omega] at e1
  rw [show 512*b+64*(o+1) = 64*(b*8+o+1) by omega] at e2
  exact ⟨_, ho, r1, by rw [r2]; exact e1, by omega, by omega⟩

theorem select_eq {v : RSBitVector} {l : List Bool} (h : Inv v l) (n : Nat) (hn : n < cnt (bitFn l) l.length) :
    ∃ p, select v n = some p ∧ bitFn l p = true ∧ cnt (bitFn l) p = n := by
  unfold select
  have hnb := nblocks_ge h
  obtain ⟨a, b, r, q1, q2, q3, q4, q5⟩ := block_spec (fun i => cnt (bitFn l) (512*i)) _ _ (fun i hi => h.tab.blockRank i hi)
    v.hints h.h1 n (fun i j hij => cnt_mono _ (by omega)) (by simp) (by rw [cnt_bitFn_ge l _ hnb]; exact hn)
  simp only [numOnes_eq h, bind_pure_some, assertP_eq _ hn, h.tab.numBlocks, q1, q2, assertP_eq _ q3, h.tab.blockRank r (by omega),
    h.tab.subBlockRanks r (by omega)]
  obtain ⟨x, ho, hx, e1, e2, e3⟩ := word_spec (bitFn l) (BitVec.ofNat 64 (subs (bitFn l) r 7)) r n
    (by rw [ofNat_subs]; exact subs7_lt _ _) (by intro i hi; rw [ofNat_subs]; exact subs_fld _ _ i hi) q4 q5
  rw [assertP_eq _ q4, bind_pure_some]
  generalize subBlockOffset (BitVec.ofNat 64 (subs (bitFn l) r 7)) (n - cnt (bitFn l) (512*r)) = o at *
  simp only [hx, bind_pure_some, e1, assertP_eq _ e2]
  obtain ⟨p, hp1, hp2, hp3⟩ := sel_exists (f := bitFn l) hn
  have hp : 64*(r*8+o) ≤ p ∧ p < 64*(r*8+o+1) := by
    constructor
    · rcases Nat.lt_or_ge p (64*(r*8+o)) with hh | hh
      · have := cnt_lt_of_true hh hp2; omega
      · exact hh
    · rcases Nat.lt_or_ge p (64*(r*8+o+1)) with hh | hh
      · exact hh
      · have := cnt_mono (bitFn l) hh; omega
  have hlt : r*8+o < v.bv.bits.length := by rw [h.rep.len]; omega
  rw [rd_eq _ _ hlt, bind_pure_some]
  obtain ⟨e, s1, s2, s3⟩ := select_word v.bv.bits[r*8+o] (bitFn l) (r*8+o) n
    (fun t ht => by rw [getElem_getLsbD _ _ _ hlt ht, h.rep.repr.bit]) e2 e3
  rw [s1, bind_pure_some]
  exact ⟨_, rfl, by rw [Nat.mul_comm]; exact s2, by rw [Nat.mul_comm]; exact s3⟩

theorem csub_not (f : Nat → Bool) (b j : Nat) : csub (fun p => !f p) b j = 64*j - csub f b j := by
  have e1 := csub_add (fun p => !f p) b j
  have e2 := csub_add f b j
  have := cnt_not_add f (512*b+64*j)
  have := cnt_not_add f (512*b)
  omega

theorem select0_eq {v : RSBitVector} {l : List Bool} (h : Inv v l) (n : Nat) (hn : n < l.length - cnt (bitFn l) l.length) :
    ∃ p, select0 v n = some p ∧ p < l.length ∧ bitFn l p = false ∧ cnt (fun p => !bitFn l p) p = n := by
  unfold select0
  have hnb := nblocks_ge h
  have hn' : n < cnt (fun p => !bitFn l p) l.length := by rw [cnt_not]; exact hn
  obtain ⟨a, b, r, q1, q2, q3, q4, q5⟩ := block_spec (fun i => cnt (fun p => !bitFn l p) (512*i)) _ _
    (fun i hi => h.tab.blockRank0 i hi)
    v.hints0 h.h0 n (fun i j hij => cnt_mono _ (by omega)) (by simp)
    (by have := cnt_mono (fun p => !bitFn l p) hnb; omega)
  simp only [numZeros_eq h, bind_pure_some, assertP_eq _ hn, h.tab.numBlocks, q1, q2, assertP_eq _ q3, h.tab.blockRank0 r (by omega),
    h.tab.subBlockRanks r (by omega)]
  obtain ⟨z1, z2⟩ := sub0_fld (BitVec.ofNat 64 (subs (bitFn l) r 7)) (csub (bitFn l) r)
    (by rw [ofNat_subs]; exact subs7_lt _ _) (csub_le _ _) (by intro i hi; rw [ofNat_subs]; exact subs_fld _ _ i hi)
  obtain ⟨x, ho, hx, e1, e2, e3⟩ := word_spec (fun p => !bitFn l p)
    (64#64 * invCountStep9 - BitVec.ofNat 64 (subs (bitFn l) r 7)) r n z1
    (by intro i hi; rw [csub_not]; exact z2 i hi) q4 q5
  rw [assertP_eq _ q4, bind_pure_some]
  generalize 64#64 * invCountStep9 - BitVec.ofNat 64 (subs (bitFn l) r 7) = S at *
  generalize subBlockOffset S (n - cnt (fun p => !bitFn l p) (512*r)) = o at *
  simp only [hx, bind_pure_some, e1, assertP_eq _ e2]
  obtain ⟨p, hp1, hp2, hp3⟩ := sel_exists (f := fun p => !bitFn l p) hn'
  have hp : 64*(r*8+o) ≤ p ∧ p < 64*(r*8+o+1) := by
    constructor
    · rcases Nat.lt_or_ge p (64*(r*8+o)) with hh | hh
      · have := cnt_lt_of_true (f := fun p => !bitFn l p) hh hp2; omega
      · exact hh
    · rcases Nat.lt_or_ge p (64*(r*8+o+1)) with hh | hh
      · exact hh
      · have := cnt_mono (fun p => !bitFn l p) hh; omega
  have hlt : r*8+o < v.bv.bits.length := by rw [h.rep.len]; omega
  rw [rd_eq _ _ hlt, bind_pure_some]
  obtain ⟨e, s1, s2, s3⟩ := select_word (~~~v.bv.bits[r*8+o]) (fun p => !bitFn l p) (r*8+o) n
    (fun t ht => by rw [BitVec.getLsbD_not, getElem_getLsbD _ _ _ hlt ht, h.rep.repr.bit]; simp [ht]) e2 e3
  rw [s1, bind_pure_some]
  have := sel_unique (f := fun p => !bitFn l p) hp2 s2 (hp3.trans s3.symm)
  subst this
  exact ⟨_, rfl, by rw [Nat.mul_comm]; omega, by rw [Nat.mul_comm]; simpa using s2, by rw [Nat.mul_comm]; exact s3⟩

end RSBitVector
end Succinct
