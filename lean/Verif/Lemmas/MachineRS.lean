import Verif.Lemmas.Machine

/-! # The 64-bit transcription of `rs_bit_vector` follows the model -/
namespace Succinct
namespace Machine
open Broadword
open Succinct.RSBitVector (bind_pure_some Table HintsOK nblocks subs subs7_lt csub)

theorem W_add (a b : Nat) : W (a + b) = W a + W b := BitVec.ofNat_add a b
theorem W_mul (a b : Nat) : W (a * b) = W a * W b := BitVec.ofNat_mul a b
theorem W_sub (a b : Nat) (h : b ≤ a) : W (a - b) = W a - W b := by
  apply BitVec.eq_of_toNat_eq
  simp only [BitVec.toNat_sub, BitVec.toNat_ofNat]
  omega
theorem W_div (a b : Nat) (ha : a < 2^64) (hb : b < 2^64) : W (a / b) = W a / W b := by
  apply BitVec.eq_of_toNat_eq
  rw [BitVec.toNat_udiv, W_toNat a ha, W_toNat b hb, W_toNat _ (Nat.lt_of_le_of_lt (Nat.div_le_self a b) ha)]
theorem W_lt (a b : Nat) (ha : a < 2^64) (hb : b < 2^64) : W a < W b ↔ a < b := by rw [lt_W _ _ hb, W_toNat _ ha]
theorem W_le (a b : Nat) (ha : a < 2^64) (hb : b < 2^64) : W a ≤ W b ↔ a ≤ b := by rw [le_W _ _ hb, W_toNat _ ha]
theorem W_inj (a b : Nat) (ha : a < 2^64) (hb : b < 2^64) : W a = W b ↔ a = b := by rw [eq_W _ _ hb, W_toNat _ ha]
theorem W_addw (a : Nat) (w : Word) : W (a + w.toNat) = W a + w := by rw [W_add, W_of]

namespace RSBitVector

/-- the object in memory -/
def enc (v : Succinct.RSBitVector) : RSBitVector := ⟨BitVector.enc v.bv, v.pairs.map W, v.hints.map W, v.hints0.map W⟩

/-! ### construction -/

/-- the local variables of `build_indices` -/
def encSt (st : Succinct.RSBitVector.BuildState) : BuildState :=
  ⟨st.pairs.map W, W st.nextRank, W st.curSubrank, st.subranks⟩

theorem mod8 (i : Nat) : (W i % 8).toNat = i % 8 := by
  rw [BitVec.toNat_umod]
  show (i % 2^64) % 8 = i % 8
  omega

theorem buildStep_eq (st : Succinct.RSBitVector.BuildState) (i : Nat) (w : Word) :
    buildStep (encSt st) (W i) w = encSt (Succinct.RSBitVector.buildStep st i w) := by
  have e0 : W i % 8 = 0 ↔ i % 8 = 0 := by rw [eq0, mod8]
  have e7 : W i % 8 = 7 ↔ i % 8 = 7 := by rw [show (7 : Word) = W 7 from rfl, eq_W _ _ (by decide), mod8]
  unfold buildStep Succinct.RSBitVector.buildStep
  simp only [e0, e7, ne_eq, encSt]
  have hp : (if ¬ i % 8 = 0 then pushSub st.subranks (W st.curSubrank) else st.subranks) =
      (if ¬ i % 8 = 0 then Succinct.RSBitVector.pushSub st.subranks st.curSubrank else st.subranks) := rfl
  split
  · simp only [List.map_append, List.map_cons, List.map_nil, W_add, W_of, hp]; rfl
  · simp only [W_add, hp]

theorem buildLoop_eq (ws : List Word) (i : Nat) (st : Succinct.RSBitVector.BuildState) :
    buildLoop ws (W i) (encSt st) = encSt (Succinct.RSBitVector.buildLoop ws i st) := by
  induction ws generalizing i st with
  | nil => rfl
  | cons w ws ih =>
    unfold buildLoop Succinct.RSBitVector.buildLoop
    rw [buildStep_eq, ← ih, W_add]; rfl

theorem pushSubN_eq (n : Nat) (s : Word) (c : Nat) : pushSubN n s (W c) = Succinct.RSBitVector.pushSubN n s c := by
  induction n generalizing s with
  | zero => rfl
  | succ n ih => unfold pushSubN Succinct.RSBitVector.pushSubN; rw [ih]; rfl

theorem buildPairs_eq (bits : List Word) : buildPairs bits = (Succinct.RSBitVector.buildPairs bits).map W := by
  have hb := buildLoop_eq bits 0 ⟨[0], 0, 0, 0⟩
  rw [show encSt ⟨[0], 0, 0, 0⟩ = ⟨[0], 0, 0, 0⟩ from rfl, show W 0 = 0 from rfl] at hb
  have h8 : (vlen bits % 8).toNat = bits.length % 8 := mod8 bits.length
  have e : (8 - vlen bits % 8).toNat = 8 - bits.length % 8 := by
    rw [toNat_sub_le _ _ (by rw [h8]; show _ ≤ 8; omega), h8]; rfl
  have e0 : vlen bits % 8 = 0 ↔ bits.length % 8 = 0 := by rw [eq0, h8]
  unfold buildPairs Succinct.RSBitVector.buildPairs
  simp only [hb, e, e0, ne_eq, encSt, pushSubN_eq]
  split
  · simp only [List.map_append, List.map_cons, List.map_nil, W_of]; rfl
  · simp only [List.map_append, List.map_cons, List.map_nil, W_of]

variable {v : Succinct.RSBitVector} {l : List Bool} {f : Nat → Bool} {nb : Nat} {pairs : List Nat}

theorem numBlocks_eq (h : Table f nb pairs) (hnb : nb ≤ 2^54) : numBlocks (pairs.map W) = W nb := by
  unfold numBlocks vlen
  rw [List.length_map, h.len, show (2 : Word) = W 2 from rfl, show (1 : Word) = W 1 from rfl, ← W_div _ _ (by omega) (by omega), ← W_sub _ _ (by omega)]
  congr 1; omega

theorem at_pairs (i x : Nat) (hi : i < 2^64) (h : pairs[i]? = some x) : at_ (pairs.map W) (W i) = some (W x) := by
  rw [at_map, W_toNat _ hi, rd, h]; rfl

theorem blockRank_eq (h : Table f nb pairs) (hnb : nb ≤ 2^54) (i : Nat) (hi : i ≤ nb) :
    blockRank (pairs.map W) (W i) = some (W (cnt f (512*i))) := by
  unfold blockRank
  rw [show (2 : Word) = W 2 from rfl, ← W_mul, Nat.mul_comm]
  exact at_pairs _ _ (by omega) (h.rank i hi)

theorem subBlockRanks_eq (h : Table f nb pairs) (hnb : nb ≤ 2^54) (i : Nat) (hi : i ≤ nb) :
    subBlockRanks (pairs.map W) (W i) = some (W (subs f i 7)) := by
  unfold subBlockRanks
  rw [show (2 : Word) = W 2 from rfl, show (1 : Word) = W 1 from rfl, ← W_mul, ← W_add, Nat.mul_comm]
  exact at_pairs _ _ (by omega) (h.sub i hi)

theorem blockRank0_eq (h : Table f nb pairs) (hnb : nb ≤ 2^54) (i : Nat) (hi : i ≤ nb) :
    blockRank0 (pairs.map W) (W i) = some (W (cnt (fun p => !f p) (512*i))) := by
  have hb := blockRank_eq h hnb i hi
  unfold blockRank at hb
  have hc := cnt_not_add f (512*i)
  unfold blockRank0
  rw [hb, bind_pure_some]
  show some _ = _
  congr 1
  rw [show (8 : Word) = W 8 from rfl, show (64 : Word) = W 64 from rfl, ← W_mul, ← W_mul, ← W_sub _ _ (by omega)]
  congr 1; omega

theorem hintsLoop_eq (R : Nat → Nat) (rank : Nat → Option Nat) (rank' : Word → Option Word) (nb : Nat) (hnb : nb ≤ 2^54)
    (hr : ∀ i, i ≤ nb → rank i = some (R i)) (hr' : ∀ i, i ≤ nb → rank' (W i) = some (W (R i))) (hR : ∀ i, i ≤ nb → R i ≤ 2^63)
    (k i thr : Nat) (acc : List Nat) (hk : i + k = nb) (ht : thr ≤ 2^63 + 1024) :
    hintsLoop rank' (W nb) k (W i) (W thr) (acc.map W) = (Succinct.RSBitVector.hintsLoop rank k i thr acc).map (List.map W) := by
  induction k generalizing i thr acc with
  | zero =>
    unfold hintsLoop Succinct.RSBitVector.hintsLoop
    rw [if_neg (by rw [W_lt _ _ (by omega) (by omega)]; omega)]; rfl
  | succ k ih =>
    unfold hintsLoop Succinct.RSBitVector.hintsLoop
    have hRi := hR (i+1) (by omega)
    have e1 : W i + 1 = W (i + 1) := (W_add i 1).symm
    have e2 : W thr + 1024 = W (thr + 1024) := (W_add thr 1024).symm
    rw [if_pos (by rw [W_lt _ _ (by omega) (by omega)]; omega)]
    simp only [e1, e2, hr (i+1) (by omega), hr' (i+1) (by omega), bind_pure_some]
    have e3 : W (R (i+1)) > W thr ↔ R (i+1) > thr := W_lt _ _ (by omega) (by omega)
    simp only [e3]
    split
    · have := ih (i+1) (thr+1024) (acc ++ [i]) (by omega) (by omega)
      rw [List.map_append] at this
      exact this
    · exact ih (i+1) thr acc (by omega) ht

theorem buildHints_eq (R : Nat → Nat) (rank : Nat → Option Nat) (rank' : Word → Option Word) (nb : Nat) (hnb : nb ≤ 2^54)
    (hr : ∀ i, i ≤ nb → rank i = some (R i)) (hr' : ∀ i, i ≤ nb → rank' (W i) = some (W (R i))) (hR : ∀ i, i ≤ nb → R i ≤ 2^63) :
    buildHints rank' (W nb) = (Succinct.RSBitVector.buildHints rank nb).map (List.map W) := by
  unfold buildHints Succinct.RSBitVector.buildHints
  rw [W_toNat _ (by omega)]
  refine sim_bind (hintsLoop_eq R rank rank' nb hnb hr hr' hR nb 0 1024 [] (by omega) (by omega)) fun h _ => ?_
  show some _ = some _
  rw [List.map_append]; rfl

/-- a bit sequence of at most `2^63` bits needs at most `2^54` blocks -/
theorem nblocks_le {bv : Succinct.BitVector} (h : Rep bv l) (hl : l.length ≤ 2^63) : nblocks bv.bits ≤ 2^54 := by
  have := h.len
  unfold nblocks; omega

theorem build_eq (l : List Bool) (hl : l.length ≤ 2^63) (a b : Bool) :
    build (BitVector.enc (Succinct.BitVector.ofRange l)) a b =
      (Succinct.RSBitVector.build (Succinct.BitVector.ofRange l) a b).map enc := by
  have hrep := Succinct.BitVector.ofRange_rep l
  have hf : wbit (Succinct.BitVector.ofRange l).bits = bitFn l := funext hrep.repr.bit
  have ht := Succinct.RSBitVector.buildPairs_table (Succinct.BitVector.ofRange l).bits
  rw [hf] at ht
  have hnb := nblocks_le hrep hl
  have c1 : ∀ i, i ≤ nblocks (Succinct.BitVector.ofRange l).bits → cnt (bitFn l) (512*i) ≤ 2^63 := by
    intro i hi; have := cnt_le (bitFn l) (512*i); omega
  have c0 : ∀ i, i ≤ nblocks (Succinct.BitVector.ofRange l).bits → cnt (fun p => !bitFn l p) (512*i) ≤ 2^63 := by
    intro i hi; have := cnt_le (fun p => !bitFn l p) (512*i); omega
  have h1 := buildHints_eq _ _ _ _ hnb (fun i hi => ht.blockRank i hi) (fun i hi => blockRank_eq ht hnb i hi) c1
  have h0 := buildHints_eq _ _ _ _ hnb (fun i hi => ht.blockRank0 i hi) (fun i hi => blockRank0_eq ht hnb i hi) c0
  have ebits : (BitVector.enc (Succinct.BitVector.ofRange l)).bits = (Succinct.BitVector.ofRange l).bits := rfl
  unfold build Succinct.RSBitVector.build
  simp only [ebits, buildPairs_eq, numBlocks_eq ht hnb, ht.numBlocks, bind_pure_some, h1, h0]
  generalize Succinct.RSBitVector.buildHints (Succinct.RSBitVector.blockRank _) _ = H1
  generalize Succinct.RSBitVector.buildHints (Succinct.RSBitVector.blockRank0 _) _ = H0
  cases a <;> cases b <;> cases H1 <;> cases H0 <;> rfl

/-! ### queries -/

theorem numOnes_eq (h : Succinct.RSBitVector.Inv v l) : numOnes (enc v) = some (W (cnt (bitFn l) l.length)) := by
  have hnb := Succinct.RSBitVector.nblocks_ge h
  have hlen : (enc v).pairs.length = 2 * nblocks v.bv.bits + 2 := by
    show (v.pairs.map W).length = _
    rw [List.length_map, h.tab.len]
  unfold numOnes
  rw [hlen, assert_yes (by omega), bind_pure_some]
  show (v.pairs.map W)[_]? = _
  rw [Nat.add_sub_cancel, List.getElem?_map, h.tab.rank _ (by omega), Succinct.RSBitVector.cnt_bitFn_ge l _ hnb]; rfl

theorem numZeros_eq (h : Succinct.RSBitVector.Inv v l) : numZeros (enc v) = some (W (l.length - cnt (bitFn l) l.length)) := by
  unfold numZeros
  rw [numOnes_eq h, bind_pure_some, W_sub _ _ (cnt_le _ _), ← h.rep.size]; rfl

theorem shr_sub (S : Word) (o : Nat) (ho : o < 8) : ((7 - W o) * 9).toNat = (7 - o) * 9 := by
  rw [show (7 : Word) = W 7 from rfl, show (9 : Word) = W 9 from rfl, ← W_sub _ _ (by omega), ← W_mul, W_toNat _ (by omega)]

theorem subBlockRank_eq (h : Table f nb pairs) (hnb : nb ≤ 2^54) (sb : Nat) (hs : sb / 8 ≤ nb) :
    subBlockRank (pairs.map W) (W sb) = some (W (cnt f (64*sb))) := by
  unfold subBlockRank
  obtain ⟨h1, h2⟩ := Succinct.RSBitVector.sub_read (BitVec.ofNat 64 (subs f (sb/8) 7)) (sb%8) (by omega) (csub f (sb/8))
    (Succinct.RSBitVector.csub_zero _ _)
    (by rw [Succinct.RSBitVector.ofNat_subs]; exact subs7_lt _ _)
    (by intro i hi; rw [Succinct.RSBitVector.ofNat_subs]; exact Succinct.RSBitVector.subs_fld f _ i hi)
  have e := Succinct.RSBitVector.csub_add f (sb/8) (sb%8)
  rw [show 512*(sb/8) + 64*(sb%8) = 64*sb by omega] at e
  have d8 : W sb / 8 = W (sb / 8) := (W_div sb 8 (by omega) (by omega)).symm
  have m8 : W sb % 8 = W (sb % 8) := by
    apply BitVec.eq_of_toNat_eq
    rw [mod8, W_toNat _ (by omega)]
  simp only [d8, m8, blockRank_eq h hnb _ hs, subBlockRanks_eq h hnb _ hs, bind_pure_some, shr_sub 0 (sb % 8) (by omega), h1]
  rw [← e, ← h2, W_addw]; rfl

theorem rank_eq (h : Succinct.RSBitVector.Inv v l) (hl : l.length ≤ 2^63) (pos : Word) : rank (enc v) pos = (v.rank pos.toNat).map W := by
  have hs := h.rep.size
  have hlen := h.rep.len
  have hsz : (enc v).bv.size = W l.length := by show W v.bv.size = _; rw [hs]
  by_cases hp : pos.toNat ≤ l.length
  · rw [Succinct.RSBitVector.rank_eq h _ hp]
    unfold rank
    rw [hsz, assert_yes ((le_W _ _ (by omega)).2 hp), bind_pure_some]
    by_cases he : pos = W l.length
    · rw [if_pos he, numOnes_eq h]
      have : pos.toNat = l.length := (eq_W _ _ (by omega)).1 he
      rw [this]; rfl
    · rw [if_neg he]
      have hne : pos.toNat ≠ l.length := fun c => he ((eq_W _ _ (by omega)).2 c)
      simp only []
      have d : pos / 64 = W (pos.toNat / 64) := by
        apply BitVec.eq_of_toNat_eq
        rw [div64, W_toNat _ (by omega)]
      have hrank := Succinct.RSBitVector.rank_eq h _ hp
      unfold Succinct.RSBitVector.rank at hrank
      rw [assert_yes (by rw [hs]; exact hp), bind_pure_some, if_neg (by rw [hs]; exact hne)] at hrank
      simp only [] at hrank
      rw [Succinct.RSBitVector.subBlockRank_eq h.tab _ (by unfold nblocks; omega), bind_pure_some] at hrank
      have hb := subBlockRank_eq h.tab (nblocks_le h.rep hl) (pos.toNat / 64) (by unfold nblocks; omega)
      rw [← d] at hb
      rw [show (enc v).pairs = v.pairs.map W from rfl, hb, bind_pure_some]
      by_cases h0 : pos.toNat % 64 = 0
      · rw [if_neg (by rw [ne_eq, mod64_zero]; omega)]
        rw [if_neg (by omega)] at hrank
        have := Option.some.inj hrank
        rw [← this]; rfl
      · rw [if_pos (by rw [ne_eq, mod64_zero]; exact h0)]
        rw [if_pos h0] at hrank
        have hlt : pos.toNat/64 < v.bv.bits.length := by omega
        rw [rd_eq _ _ hlt, bind_pure_some, shl_eq _ _ (by omega), bind_pure_some] at hrank
        have := Option.some.inj hrank
        rw [sub64]
        show (rd v.bv.bits (pos / 64).toNat >>= _) = _
        rw [div64, rd_eq _ _ hlt, bind_pure_some, shl_eq _ _ (by omega), bind_pure_some, ← this]
        show some _ = some _
        rw [W_add]
  · have e1 : v.rank pos.toNat = none := by
      unfold Succinct.RSBitVector.rank
      rw [assertP_none (by rw [hs]; exact hp)]; rfl
    rw [e1]
    unfold rank
    rw [hsz, assertP_none (by rw [le_W _ _ (by omega)]; exact hp)]; rfl

theorem rank0_eq (h : Succinct.RSBitVector.Inv v l) (hl : l.length ≤ 2^63) (pos : Word) : rank0 (enc v) pos = (v.rank0 pos.toNat).map W := by
  unfold rank0 Succinct.RSBitVector.rank0
  refine sim_bind (rank_eq h hl pos) fun r hr => ?_
  have hp : pos.toNat ≤ l.length := by
    rw [← h.rep.size]
    unfold Succinct.RSBitVector.rank at hr
    by_contra hc
    rw [assertP_none hc] at hr
    exact absurd hr (by simp)
  rw [Succinct.RSBitVector.rank_eq h _ hp] at hr
  have hc := cnt_le (bitFn l) pos.toNat
  rw [← Option.some.inj hr, subU_eq _ _ hc]
  show some _ = some _
  rw [W_sub _ _ hc, W_of]

theorem bsearch_eq (R : Nat → Nat) (rank : Nat → Option Nat) (rank' : Word → Option Word) (nb : Nat) (hnb : nb ≤ 2^54)
    (hr : ∀ i, i ≤ nb → rank i = some (R i)) (hr' : ∀ i, i ≤ nb → rank' (W i) = some (W (R i))) (hR : ∀ i, i ≤ nb → R i ≤ 2^63)
    (n : Word) (fuel a b : Nat) (hab : a < b) (hb : b ≤ nb + 1) :
    bsearch rank' n fuel (W a) (W b) = (Succinct.RSBitVector.bsearch rank n.toNat fuel a b).map W := by
  induction fuel generalizing a b with
  | zero =>
    unfold bsearch Succinct.RSBitVector.bsearch
    rw [subU_eq b a (by omega), ← W_sub _ _ (by omega)]
    have e : W (b - a) > 1 ↔ b - a > 1 := W_lt 1 _ (by omega) (by omega)
    simp only [e]
    split <;> rfl
  | succ fuel ih =>
    unfold bsearch Succinct.RSBitVector.bsearch
    rw [subU_eq b a (by omega), ← W_sub _ _ (by omega)]
    have e : W (b - a) > 1 ↔ b - a > 1 := W_lt 1 _ (by omega) (by omega)
    simp only [e]
    split
    · have em : W a + W (b - a) / 2 = W (a + (b - a) / 2) := by
        rw [W_add, W_div _ _ (by omega) (by omega)]; rfl
      have hRm := hR (a + (b-a)/2) (by omega)
      rw [em, hr _ (by omega), hr' _ (by omega), bind_pure_some, bind_pure_some]
      have e2 : W (R (a + (b - a) / 2)) ≤ n ↔ R (a + (b - a) / 2) ≤ n.toNat := by
        rw [BitVec.le_def, W_toNat _ (by omega)]
      simp only [e2]
      split
      · exact ih _ _ (by omega) hb
      · exact ih _ _ (by omega) (by omega)
    · rfl

theorem interval_eq (R : Nat → Nat) (nb : Nat) (hR : ∀ i, i ≤ nb → R i ≤ 2^63) (H : List Nat)
    (hH : H = [] ∨ HintsOK R nb H) (n : Word) :
    interval (H.map W) (W nb) n = (Succinct.RSBitVector.interval H nb n.toNat).map fun p => (W p.1, W p.2) := by
  have hlen : H.length < 2^64 := by
    rcases hH with rfl | ⟨m, hl, hj, hm, hR'⟩
    · decide
    · rcases Nat.eq_zero_or_pos m with rfl | hpos
      · omega
      · obtain ⟨i, h1, h2, h3, h4⟩ := hj (m-1) (by omega)
        have := hR (i+1) (by omega)
        omega
  have e : vlen (H.map W) = 0 ↔ H.length = 0 := by
    unfold vlen
    rw [List.length_map, show (0 : Word) = W 0 from rfl, W_inj _ _ hlen (by decide)]
  have d : (n / 1024).toNat = n.toNat / 1024 := by simp
  unfold interval Succinct.RSBitVector.interval
  simp only [e, ne_eq]
  split
  · refine sim_bind (e := W) ?_ fun a _ => ?_
    · unfold hintLow Succinct.RSBitVector.hintLow
      by_cases hc : n.toNat / 1024 = 0
      · rw [if_neg (by rw [ne_eq, eq0, d]; omega), if_neg (by omega)]; rfl
      · rw [if_pos (by rw [ne_eq, eq0, d]; exact hc), if_pos hc, at_map, toNat_sub_le _ _ (by rw [d]; show 1 ≤ _; omega), d]; rfl
    · refine sim_bind (e := W) ?_ fun b _ => ?_
      · rw [at_map, d]
      · show some _ = some _
        simp only [W_add]; rfl
  · rfl

theorem subBlockOffset_eq (S : Word) (m : Nat) (ho : Succinct.RSBitVector.subBlockOffset S m < 8) :
    subBlockOffset S (W m) = W (Succinct.RSBitVector.subBlockOffset S m) := by
  unfold subBlockOffset Succinct.RSBitVector.subBlockOffset
  rw [W_of]; rfl

theorem word_pos (k s : Nat) : W k * 64 + W s = W (k * 64 + s) := by
  rw [show (64 : Word) = W 64 from rfl, ← W_mul, ← W_add]

theorem select_eq (h : Succinct.RSBitVector.Inv v l) (hl : l.length ≤ 2^63) (n : Word) : select (enc v) n = (v.select n.toNat).map W := by
  have hc := cnt_le (bitFn l) l.length
  unfold select Succinct.RSBitVector.select
  rw [numOnes_eq h, Succinct.RSBitVector.numOnes_eq h, bind_pure_some, bind_pure_some]
  refine sim_assert (lt_W _ _ (by omega)) fun hn => ?_
  have hge := Succinct.RSBitVector.nblocks_ge h
  have hnb := nblocks_le h.rep hl
  have hR : ∀ i, i ≤ nblocks v.bv.bits → cnt (bitFn l) (512*i) ≤ 2^63 := by
    intro i hi; have := cnt_le (bitFn l) (512*i); omega
  rw [h.tab.numBlocks, bind_pure_some]
  have hnbm : numBlocks (v.pairs.map W) = W (nblocks v.bv.bits) := numBlocks_eq h.tab hnb
  obtain ⟨a, b, q1, qa, qb, qc, qd⟩ := Succinct.RSBitVector.interval_spec (fun i => cnt (bitFn l) (512*i)) _ v.hints h.h1 n.toNat
    (fun i j hij => cnt_mono _ (by omega)) (by simp) (by rw [Succinct.RSBitVector.cnt_bitFn_ge l _ hge]; exact hn)
  obtain ⟨a', b', r, q1', q2, q3, q4, q5⟩ := Succinct.RSBitVector.block_spec (fun i => cnt (bitFn l) (512*i)) _ _ (fun i hi => h.tab.blockRank i hi)
    v.hints h.h1 n.toNat (fun i j hij => cnt_mono _ (by omega)) (by simp) (by rw [Succinct.RSBitVector.cnt_bitFn_ge l _ hge]; exact hn)
  have hab := Option.some.inj (q1.symm.trans q1')
  obtain ⟨rfl, rfl⟩ := Prod.mk.inj hab
  have i1 := interval_eq (fun i => cnt (bitFn l) (512*i)) (nblocks v.bv.bits) hR v.hints h.h1 n
  rw [q1] at i1
  have b1 := bsearch_eq (fun i => cnt (bitFn l) (512*i)) _ _ _ hnb (fun i hi => h.tab.blockRank i hi) (fun i hi => blockRank_eq h.tab hnb i hi)
    hR n (b - a) a b qa qb
  rw [q2] at b1
  have hba : (W b - W a).toNat = b - a := by rw [← W_sub _ _ (by omega), W_toNat _ (by omega)]
  have ehints : (enc v).hints = v.hints.map W := rfl
  have epairs : (enc v).pairs = v.pairs.map W := rfl
  have ebits : (enc v).bv.bits = v.bv.bits := rfl
  have hlt : W r < W (nblocks v.bv.bits) := (W_lt _ _ (by omega) (by omega)).2 q3
  have hcr := cnt_le (bitFn l) (512*r)
  simp only [hnbm, ehints, i1, q1, Option.map_some, bind_pure_some, hba, epairs, b1, q2, assert_yes q3, assert_yes hlt,
    blockRank_eq h.tab hnb r (by omega), h.tab.blockRank r (by omega), subBlockRanks_eq h.tab hnb r (by omega), h.tab.subBlockRanks r (by omega)]
  have hle : W (cnt (bitFn l) (512*r)) ≤ n ↔ cnt (bitFn l) (512*r) ≤ n.toNat := by rw [BitVec.le_def, W_toNat _ (by omega)]
  refine sim_assert hle fun _ => ?_
  obtain ⟨x, ho, hx, e1, e2, e3⟩ := Succinct.RSBitVector.word_spec (bitFn l) (BitVec.ofNat 64 (subs (bitFn l) r 7)) r n.toNat
    (by rw [Succinct.RSBitVector.ofNat_subs]; exact subs7_lt _ _)
    (by intro i hi; rw [Succinct.RSBitVector.ofNat_subs]; exact Succinct.RSBitVector.subs_fld _ _ i hi) q4 q5
  have esub : n - W (cnt (bitFn l) (512*r)) = W (n.toNat - cnt (bitFn l) (512*r)) := by rw [W_sub _ _ q4, W_of]
  have eoff := subBlockOffset_eq (BitVec.ofNat 64 (subs (bitFn l) r 7)) (n.toNat - cnt (bitFn l) (512*r)) ho
  rw [esub]
  simp only [eoff]
  generalize Succinct.RSBitVector.subBlockOffset (BitVec.ofNat 64 (subs (bitFn l) r 7)) (n.toNat - cnt (bitFn l) (512*r)) = o at *
  have ecur : W (cnt (bitFn l) (512*r)) + (x &&& 0x1FF) = W (cnt (bitFn l) (64*(r*8+o))) := by
    rw [← e1, W_addw, show (0x1FF : Word) = 0x1FF#64 from rfl]
  simp only [shr_sub 0 o ho, hx, bind_pure_some]
  simp only [ecur, e1]
  have hn64 := n.isLt
  have hle2 : W (cnt (bitFn l) (64*(r*8+o))) ≤ n ↔ cnt (bitFn l) (64*(r*8+o)) ≤ n.toNat := by rw [BitVec.le_def, W_toNat _ (by omega)]
  refine sim_assert hle2 fun _ => ?_
  have ewo : W r * 8 + W o = W (r * 8 + o) := by
    rw [W_add, W_mul, show (8 : Word) = W 8 from rfl]
  have esub2 : (n - W (cnt (bitFn l) (64*(r*8+o)))).toNat = n.toNat - cnt (bitFn l) (64*(r*8+o)) := by
    rw [toNat_sub_le _ _ (by rw [W_toNat _ (by omega)]; exact e2), W_toNat _ (by omega)]
  simp only [ewo, ebits, esub2]
  have hat : at_ v.bv.bits (W (r*8+o)) = rd v.bv.bits (r*8+o) := by unfold at_; rw [W_toNat _ (by omega)]
  rw [hat]
  generalize rd v.bv.bits (r*8+o) = q
  cases q with
  | none => simp only [Option.bind_eq_bind, Option.bind_none, Option.map_none]
  | some w =>
    rw [bind_pure_some, bind_pure_some]
    generalize selectInWord _ _ = t
    cases t with
    | none => simp only [Option.bind_eq_bind, Option.bind_none, Option.map_none]
    | some s => simp only [bind_pure_some, Option.pure_def, Option.map_some, word_pos]

theorem select0_eq (h : Succinct.RSBitVector.Inv v l) (hl : l.length ≤ 2^63) (n : Word) : select0 (enc v) n = (v.select0 n.toNat).map W := by
  have hc := cnt_le (bitFn l) l.length
  unfold select0 Succinct.RSBitVector.select0
  rw [numZeros_eq h, Succinct.RSBitVector.numZeros_eq h, bind_pure_some, bind_pure_some]
  refine sim_assert (lt_W _ _ (by omega)) fun hn => ?_
  have hge := Succinct.RSBitVector.nblocks_ge h
  have hnb := nblocks_le h.rep hl
  have hR : ∀ i, i ≤ nblocks v.bv.bits → cnt (fun p => !bitFn l p) (512*i) ≤ 2^63 := by
    intro i hi; have := cnt_le (fun p => !bitFn l p) (512*i); omega
  have hn' : n.toNat < cnt (fun p => !bitFn l p) (512 * nblocks v.bv.bits) := by
    have := cnt_mono (fun p => !bitFn l p) hge
    have h2 : n.toNat < cnt (fun p => !bitFn l p) l.length := by rw [cnt_not]; exact hn
    omega
  rw [h.tab.numBlocks, bind_pure_some]
  have hnbm : numBlocks (v.pairs.map W) = W (nblocks v.bv.bits) := numBlocks_eq h.tab hnb
  obtain ⟨a, b, q1, qa, qb, qc, qd⟩ := Succinct.RSBitVector.interval_spec (fun i => cnt (fun p => !bitFn l p) (512*i)) _ v.hints0 h.h0 n.toNat
    (fun i j hij => cnt_mono _ (by omega)) (by simp) hn'
  obtain ⟨a', b', r, q1', q2, q3, q4, q5⟩ := Succinct.RSBitVector.block_spec (fun i => cnt (fun p => !bitFn l p) (512*i)) _ _ (fun i hi => h.tab.blockRank0 i hi)
    v.hints0 h.h0 n.toNat (fun i j hij => cnt_mono _ (by omega)) (by simp) hn'
  have hab := Option.some.inj (q1.symm.trans q1')
  obtain ⟨rfl, rfl⟩ := Prod.mk.inj hab
  have i1 := interval_eq (fun i => cnt (fun p => !bitFn l p) (512*i)) (nblocks v.bv.bits) hR v.hints0 h.h0 n
  rw [q1] at i1
  have b1 := bsearch_eq (fun i => cnt (fun p => !bitFn l p) (512*i)) _ _ _ hnb (fun i hi => h.tab.blockRank0 i hi) (fun i hi => blockRank0_eq h.tab hnb i hi)
    hR n (b - a) a b qa qb
  rw [q2] at b1
  have hba : (W b - W a).toNat = b - a := by rw [← W_sub _ _ (by omega), W_toNat _ (by omega)]
  have ehints : (enc v).hints0 = v.hints0.map W := rfl
  have epairs : (enc v).pairs = v.pairs.map W := rfl
  have ebits : (enc v).bv.bits = v.bv.bits := rfl
  have hlt : W r < W (nblocks v.bv.bits) := (W_lt _ _ (by omega) (by omega)).2 q3
  have hcr := cnt_le (fun p => !bitFn l p) (512*r)
  simp only [hnbm, ehints, i1, q1, Option.map_some, bind_pure_some, hba, epairs, b1, q2, assert_yes q3, assert_yes hlt,
    blockRank0_eq h.tab hnb r (by omega), h.tab.blockRank0 r (by omega), subBlockRanks_eq h.tab hnb r (by omega), h.tab.subBlockRanks r (by omega)]
  have hle : W (cnt (fun p => !bitFn l p) (512*r)) ≤ n ↔ cnt (fun p => !bitFn l p) (512*r) ≤ n.toNat := by rw [BitVec.le_def, W_toNat _ (by omega)]
  refine sim_assert hle fun _ => ?_
  obtain ⟨z1, z2⟩ := Succinct.RSBitVector.sub0_fld (BitVec.ofNat 64 (subs (bitFn l) r 7)) (csub (bitFn l) r)
    (by rw [Succinct.RSBitVector.ofNat_subs]; exact subs7_lt _ _) (Succinct.RSBitVector.csub_le _ _)
    (by intro i hi; rw [Succinct.RSBitVector.ofNat_subs]; exact Succinct.RSBitVector.subs_fld _ _ i hi)
  obtain ⟨x, ho, hx, e1, e2, e3⟩ := Succinct.RSBitVector.word_spec (fun p => !bitFn l p)
    (64#64 * invCountStep9 - BitVec.ofNat 64 (subs (bitFn l) r 7)) r n.toNat z1
    (by intro i hi; rw [Succinct.RSBitVector.csub_not]; exact z2 i hi) q4 q5
  have esub : n - W (cnt (fun p => !bitFn l p) (512*r)) = W (n.toNat - cnt (fun p => !bitFn l p) (512*r)) := by rw [W_sub _ _ q4, W_of]
  have eoff := subBlockOffset_eq (64#64 * invCountStep9 - BitVec.ofNat 64 (subs (bitFn l) r 7)) (n.toNat - cnt (fun p => !bitFn l p) (512*r)) ho
  rw [esub]
  rw [show (64 : Word) * invCountStep9 = 64#64 * invCountStep9 from rfl]
  simp only [eoff]
  generalize 64#64 * invCountStep9 - BitVec.ofNat 64 (subs (bitFn l) r 7) = S at *
  generalize Succinct.RSBitVector.subBlockOffset S (n.toNat - cnt (fun p => !bitFn l p) (512*r)) = o at *
  have ecur : W (cnt (fun p => !bitFn l p) (512*r)) + (x &&& 0x1FF) = W (cnt (fun p => !bitFn l p) (64*(r*8+o))) := by
    rw [← e1, W_addw, show (0x1FF : Word) = 0x1FF#64 from rfl]
  simp only [shr_sub 0 o ho, hx, bind_pure_some]
  simp only [ecur, e1]
  have hn64 := n.isLt
  have hle2 : W (cnt (fun p => !bitFn l p) (64*(r*8+o))) ≤ n ↔ cnt (fun p => !bitFn l p) (64*(r*8+o)) ≤ n.toNat := by rw [BitVec.le_def, W_toNat _ (by omega)]
  refine sim_assert hle2 fun _ => ?_
  have ewo : W r * 8 + W o = W (r * 8 + o) := by
    rw [W_add, W_mul, show (8 : Word) = W 8 from rfl]
  have esub2 : (n - W (cnt (fun p => !bitFn l p) (64*(r*8+o)))).toNat = n.toNat - cnt (fun p => !bitFn l p) (64*(r*8+o)) := by
    rw [toNat_sub_le _ _ (by rw [W_toNat _ (by omega)]; exact e2), W_toNat _ (by omega)]
  simp only [ewo, ebits, esub2]
  have hat : at_ v.bv.bits (W (r*8+o)) = rd v.bv.bits (r*8+o) := by unfold at_; rw [W_toNat _ (by omega)]
  rw [hat]
  generalize rd v.bv.bits (r*8+o) = q
  cases q with
  | none => simp only [Option.bind_eq_bind, Option.bind_none, Option.map_none]
  | some w =>
    rw [bind_pure_some, bind_pure_some]
    generalize selectInWord _ _ = t
    cases t with
    | none => simp only [Option.bind_eq_bind, Option.bind_none, Option.map_none]
    | some s => simp only [bind_pure_some, Option.pure_def, Option.map_some, word_pos]

end RSBitVector
end Machine
end Succinct
