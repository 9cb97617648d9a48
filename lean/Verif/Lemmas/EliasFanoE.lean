import Verif.Lemmas.EliasFanoQ

/-! Elias-Fano: `select_enumerator`, construction from a bitmap, lists -/
namespace Succinct
open Spec Broadword
namespace EliasFano

variable {ef : EliasFano} {n : Word} {xs : List Word} {hb : List Bool} (ov : Word → Nat → Word)

namespace SelEnum

structure Ok (ef : EliasFano) (xs : List Word) (hb : List Bool) (e : SelEnum) (i : Nat) : Prop where
  idx : e.i = i
  high : i < xs.length → ∃ u c, e.high = some u ∧ UEnum.Good hb u c ∧ ∀ h : i < xs.length, IsSucc true hb c (xs[i].toNat / 2^ef.l + i)
  zero : ef.l = 0 → xs.length - i ≤ e.chunksAvail
  buf : ef.l ≠ 0 → e.chunksAvail < 64 / ef.l ∧
    ∀ t, t < e.chunksAvail * ef.l → e.lowBuf.getLsbD t = bitFn (xs.flatMap (lowBits · ef.l)) (i * ef.l + t)

theorem new_ok (h : Good ef n xs hb) (i : Nat) (hi : i < xs.length) :
    ∃ e, new ef i = some e ∧ Ok ef xs hb e i := by
  obtain ⟨a1, a2, a3⟩ := hi_one h i hi
  obtain ⟨u, u1, u2, _⟩ := UEnum.new_good h.highRep.repr _ a3
  unfold new
  have hno : numOnes ef = xs.length := h.ones
  rw [lowMask_eq _ h.lb, bind_pure_some]
  simp only []
  rw [if_neg (by rw [hno]; omega), h.sel i hi, bind_pure_some, u1, bind_pure_some, assertP_eq _ h.lb, bind_pure_some]
  refine ⟨_, rfl, rfl, ?_, ?_, ?_⟩
  · intro _
    exact ⟨u, _, rfl, u2, fun _ => ⟨Nat.le_refl _, (bitFn_eq_true _ _).1 a1, fun r h1 h2 => by omega⟩⟩
  · intro h0; simp only []; rw [if_neg (by omega), hno]; omega
  · intro h0; simp only []; rw [if_pos h0]
    refine ⟨Nat.div_pos (by have := h.lb; omega) (by omega), ?_⟩
    intro t ht; simp at ht

theorem refill_ok (h : Good ef n xs hb) (e : SelEnum) (i : Nat) (hi : i < xs.length) (hg : Ok ef xs hb e i) :
    ∃ buf avail, refill ef e = some (buf, avail) ∧ (ef.l = 0 → xs.length - (i+1) ≤ avail) ∧
      (ef.l ≠ 0 → avail < 64 / ef.l ∧
        ∀ t, t < (avail + 1) * ef.l → buf.getLsbD t = bitFn (xs.flatMap (lowBits · ef.l)) (i * ef.l + t)) := by
  unfold refill
  by_cases h0 : ef.l = 0
  · have := hg.zero h0
    rw [if_neg (by omega)]
    exact ⟨_, _, rfl, fun _ => by omega, fun h => absurd h0 h⟩
  · obtain ⟨b1, b2⟩ := hg.buf h0
    have hl := h.lb
    by_cases hc : e.chunksAvail = 0
    · have hlt : i * ef.l < (xs.flatMap (lowBits · ef.l)).length := by
        rw [flatMap_lowBits_length]; exact Nat.mul_lt_mul_of_pos_right hi (by omega)
      obtain ⟨w, w1, w2⟩ := BitVector.getWord_eq h.lowRep (i * ef.l) hlt
      have hd : 1 ≤ 64 / ef.l := Nat.div_pos (by omega) (by omega)
      rw [if_pos hc, hg.idx, w1, bind_pure_some, if_pos h0, subU_eq _ _ hd, bind_pure_some]
      refine ⟨_, _, rfl, fun h => absurd h h0, fun _ => ⟨by omega, ?_⟩⟩
      intro t ht
      rw [Nat.sub_add_cancel hd] at ht
      have := Nat.div_mul_le_self 64 ef.l
      exact w2 t (by omega)
    · rw [if_neg hc]
      refine ⟨_, _, rfl, fun h => absurd h h0, fun _ => ⟨by omega, ?_⟩⟩
      intro t ht
      rw [Nat.sub_add_cancel (by omega)] at ht
      exact b2 t ht

theorem next_ok (h : Good ef n xs hb) (e : SelEnum) (i : Nat) (hi : i < xs.length) (hg : Ok ef xs hb e i) :
    ∃ e', next ef e = some (xs[i], e') ∧ Ok ef xs hb e' (i+1) := by
  obtain ⟨buf, avail, r1, r2, r3⟩ := refill_ok h e i hi hg
  obtain ⟨u, c, u1, u2, u3⟩ := hg.high hi
  obtain ⟨u', v1, v2⟩ := UEnum.next_good h.highRep.repr u c _ u2 (u3 hi)
  have hl := h.lb
  have hlow : buf &&& maskW ef.l = xs[i] &&& maskW ef.l := by
    apply BitVec.eq_of_getLsbD_eq
    intro t _
    rw [and_maskW_bit _ _ _ hl, and_maskW_bit _ _ _ hl]
    by_cases ht : t < ef.l
    · rw [(r3 (by omega)).2 t (by rw [Nat.succ_mul]; omega), bitFn_flatMap _ _ _ _ hi ht]
    · simp [ht]
  unfold next
  rw [r1, bind_pure_some]
  simp only []
  rw [u1, bind_pure_some, v1, bind_pure_some]
  simp only []
  rw [hg.idx, h.sel i hi, bind_pure_some, assertP_eq _ rfl, bind_pure_some, lowMask_eq _ hl, bind_pure_some,
    subU_eq _ _ (Nat.le_add_left _ _), bind_pure_some, shl_eq _ _ hl, bind_pure_some, shr_eq _ _ hl, bind_pure_some,
    hlow, Nat.add_sub_cancel, combine_eq _ _ hl]
  refine ⟨_, rfl, rfl, ?_, ?_, ?_⟩
  · intro hi1
    refine ⟨u', _, rfl, v2, fun _ => ?_⟩
    obtain ⟨a1, a2, a3⟩ := hi_one h (i+1) hi1
    have hd := Nat.div_le_div_right (c := 2^ef.l) (sorted_le h i (i+1) (by omega) hi1)
    refine ⟨by omega, (bitFn_eq_true _ _).1 a1, ?_⟩
    intro r hr1 hr2 hr
    have := pred_high h i hi1 r (by omega) hr2 ((bitFn_eq_true _ _).2 hr)
    omega
  · intro h0; simp only []; have := r2 h0; omega
  · intro h0
    obtain ⟨q1, q2⟩ := r3 h0
    simp only []
    refine ⟨q1, ?_⟩
    intro t ht
    rw [BitVec.getLsbD_ushiftRight, q2 _ (by rw [Nat.succ_mul]; omega), Nat.succ_mul]
    congr 1; omega

theorem run_ok (h : Good ef n xs hb) (k i : Nat) (hi : i + k ≤ xs.length) (e : SelEnum) (hg : Ok ef xs hb e i) :
    run ef k e = some ((xs.drop i).take k) := by
  induction k generalizing i e with
  | zero => simp [run]
  | succ k ih =>
    obtain ⟨e', e1, g1⟩ := next_ok h e i (by omega) hg
    unfold run
    rw [e1, bind_pure_some]
    simp only []
    rw [ih (i+1) (by omega) e' g1, bind_pure_some, List.drop_eq_getElem_cons (show i < xs.length by omega), List.take_succ_cons]; rfl

end SelEnum

/-! ### from a bitmap -/

/-- the values stored for a bitmap -/
def onesW (l : List Bool) : List Word := (onesIn (bitFn l) 0 l.length).map (BitVec.ofNat 64)

theorem onesW_length (l : List Bool) : (onesW l).length = l.count true := by
  unfold onesW; rw [List.length_map, onesIn_length, count_eq_cnt]

theorem sum_popcount (bits : List Word) : (bits.map popcount).sum = cnt (wbit bits) (64 * bits.length) := by
  induction bits with
  | nil => simp
  | cons w ws ih =>
    rw [List.map_cons, List.sum_cons, ih, popcount_eq, List.length_cons, Nat.mul_succ, Nat.add_comm (64*ws.length), cnt_add]
    congr 1
    · apply cnt_congr; intro i hi; rw [wbit_cons, if_pos hi]
    · apply cnt_congr; intro i hi; rw [wbit_cons, if_neg (by omega), Nat.add_sub_cancel_left]

theorem sum_popcount_rep {v : BitVector} {l : List Bool} (h : Rep v l) : (v.bits.map popcount).sum = l.count true := by
  have hl := h.len
  rw [sum_popcount, count_eq_cnt, cnt_congr (g := bitFn l) (fun i _ => h.repr.bit i)]
  exact ((cnt_eq_iff_false (by omega)).2 (fun i h1 _ => bitFn_of_ge l i h1)).symm

theorem fillLoop_eq {v : BitVector} {l : List Bool} (h : Rep v l) (k i : Nat) (b : EFBuilder)
    (hk : cnt (bitFn l) i + k = cnt (bitFn l) l.length) (hi : i ≤ l.length) :
    fillLoop v k i b = ((onesIn (bitFn l) i l.length).map (BitVec.ofNat 64)).foldlM EFBuilder.pushBack b := by
  induction k generalizing i b with
  | zero =>
    rw [onesIn_nil ((cnt_eq_iff_false hi).1 (by omega))]; rfl
  | succ k ih =>
    obtain ⟨p, p1, p2, p3⟩ := sel_exists (show cnt (bitFn l) i < cnt (bitFn l) l.length by omega)
    have hip : i ≤ p := by
      rcases Nat.lt_or_ge p i with a | a
      · have := cnt_lt_of_true a p2; omega
      · exact a
    have hz := (cnt_eq_iff_false hip).1 p3.symm
    have hs : v.successor false i = some p := by
      have := BitVector.successor_cases false h i (by omega)
      have hw : l.length ≤ 64 * wordsFor l.length := by rw [wordsFor_eq]; omega
      revert this
      cases v.successor false i with
      | none => intro this; have := this p hip (by omega); rw [Bool.false_xor, p2] at this; simp at this
      | some q =>
        rintro ⟨q1, q0, q2, q3⟩
        rw [Bool.false_xor] at q2
        congr 1
        rcases Nat.lt_trichotomy q p with c | c | c
        · have := hz q q1 c; rw [q2] at this; simp at this
        · exact c
        · have := q3 p hip c; rw [Bool.false_xor, p2] at this; simp at this
    unfold fillLoop
    rw [onesIn_split _ hip (Nat.le_of_lt p1), onesIn_nil hz, List.nil_append, onesIn_cons p1 p2, List.map_cons, List.foldlM_cons,
      hs, bind_pure_some]
    congr 1
    funext b'
    apply ih
    · rw [cnt_succ, p2, p3]; simp; omega
    · omega

theorem onesW_get (l : List Bool) (k : Nat) (hk : k < (onesW l).length) (hl : l.length < 2^64) :
    (onesW l)[k].toNat < l.length ∧ bitFn l (onesW l)[k].toNat = true ∧ cnt (bitFn l) (onesW l)[k].toNat = k := by
  unfold onesW at *
  rw [List.length_map] at hk
  obtain ⟨h1, h2, h3⟩ := onesIn_getElem?_iff.1 (List.getElem?_eq_getElem hk)
  rw [List.getElem_map, BitVec.toNat_ofNat, Nat.mod_eq_of_lt (by omega)]
  exact ⟨h1, h2, h3⟩

theorem ofBitmap_good (b : Builder) (l : List Bool) (hi : Succinct.Inv b l) (hl : l.length < 2^62) (wr : Bool) :
    ∃ ef hb, ofBitmap b wr = some ef ∧ Good ef (BitVec.ofNat 64 l.length) (onesW l) hb ∧ (wr = true → Rank ef hb) := by
  obtain ⟨v, ev, hv⟩ := BitVector.ofBuilder_rep b l hi
  have hc : l.count true ≤ l.length := List.count_le_length
  have hn : (BitVec.ofNat 64 l.length).toNat = l.length := by
    rw [BitVec.toNat_ofNat, Nat.mod_eq_of_lt (by omega)]
  obtain ⟨b0, ll, hb0, e0, g0⟩ := EFBuilder.new_good (BitVec.ofNat 64 l.length) (l.count true) ⟨by omega, fun _ => by omega⟩
  have hget := fun k hk => onesW_get l k hk (by omega)
  obtain ⟨b1, hb1, e1, g1⟩ := EFBuilder.fold_good g0 (onesW l) (by
      rw [List.nil_append, List.pairwise_iff_getElem]
      intro i j hi hj hij
      obtain ⟨a1, a2, a3⟩ := hget i hi
      obtain ⟨c1, c2, c3⟩ := hget j hj
      apply BitVec.le_def.2
      rcases Nat.lt_or_ge (onesW l)[j].toNat (onesW l)[i].toNat with c | c
      · have := cnt_mono (bitFn l) (Nat.le_of_lt c); omega
      · exact c)
    (by
      intro y hy
      obtain ⟨k, hk, rfl⟩ := List.getElem_of_mem hy
      have := (hget k hk).1
      apply BitVec.le_def.2; rw [hn]; omega)
    (by rw [onesW_length]; simp)
  rw [List.nil_append] at g1
  obtain ⟨ef, e2, g2, r2⟩ := build_good g1 wr
  refine ⟨ef, hb1, ?_, g2, r2⟩
  unfold ofBitmap
  rw [ev, bind_pure_some]
  simp only []
  rw [hv.size, sum_popcount_rep hv, e0, bind_pure_some, fillLoop_eq hv _ 0 b0 (by rw [cnt_zero, count_eq_cnt]; omega) (by omega)]
  have e1' : List.foldlM EFBuilder.pushBack b0 ((onesIn (bitFn l) 0 l.length).map (BitVec.ofNat 64)) = some b1 := e1
  rw [e1', bind_pure_some, e2]

end EliasFano
end Succinct
