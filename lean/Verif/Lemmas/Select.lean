import Verif.Lemmas.SelectTable

namespace Succinct
namespace Broadword

/-- a threshold predicate that is downward closed is counted by its threshold -/
theorem cnt_threshold {c : Nat → Bool} {n : Nat} (h : ∀ i j, i ≤ j → j < n → c j = true → c i = true) :
    ∀ i, i < n → (c i = true ↔ i < cnt c n) := by
  induction n with
  | zero => intro i hi; omega
  | succ n ih =>
    have ih' := ih (fun i j hij hj hc => h i j hij (by omega) hc)
    intro i hi
    rw [cnt_succ]
    cases hc : c n
    · simp only [Bool.toNat_false, Nat.add_zero]
      rcases Nat.lt_or_ge i n with h1 | h1
      · exact ih' i h1
      · have : i = n := by omega
        subst this
        have := cnt_le c i
        simp [hc]; omega
    · have hall : ∀ j, j < n → c j = true := fun j hj => h j n (by omega) (by omega) hc
      rw [cnt_true hall]
      simp only [Bool.toNat_true]
      constructor
      · intro _; omega
      · intro _
        rcases Nat.lt_or_ge i n with h1 | h1
        · exact hall i h1
        · have : i = n := by omega
          subst this; exact hc

private theorem kdigit : ∀ k : Fin 64, (k.val ||| 128) = k.val + 128 := by decide +kernel
private theorem and128 : ∀ k : Fin 256, k.val &&& 128 = if 128 ≤ k.val then 128 else 0 := by decide +kernel
private theorem geqdigit (k : Fin 64) (s : Fin 65) :
    ((k.val ||| 128) - s.val) &&& 128 = if s.val ≤ k.val then 128 else 0 := by
  have := and128 ⟨(k.val + 128) - s.val, by omega⟩
  simp only [] at this
  rw [kdigit, this]
  have := s.isLt
  split <;> split <;> omega

theorem geqKStep8_toNat (x : Word) (k : Nat) (hk : k < 64) :
    (geqKStep8 x k).toNat =
      pack 8 ((List.range 8).map fun i => if cnt x.getLsbD (8*(i+1)) ≤ k then 128 else 0) := by
  unfold geqKStep8
  have S : ∀ i, i < 8 → cnt x.getLsbD (8*(i+1)) ≤ 64 := fun i hi => by
    have := cnt_le x.getLsbD (8*(i+1)); omega
  have h1 : onesStep8.toNat = pack 8 ((List.range 8).map fun _ => 1) := by decide
  have h2 : msbsStep8.toNat = pack 8 ((List.range 8).map fun _ => 128) := by decide
  have h3 : (BitVec.ofNat 64 k * onesStep8).toNat = pack 8 ((List.range 8).map fun _ => k) := by
    rw [BitVec.toNat_mul, BitVec.toNat_ofNat, h1, Nat.mod_eq_of_lt (a := k) (by omega)]
    have e := pack_replicate 8 k 8
    rw [List.map_const', List.map_const', List.length_range, ← e, Nat.mod_eq_of_lt]
    have := pack_lt 8 (List.replicate 8 k) (by intro d hd; rw [List.eq_of_mem_replicate hd]; omega)
    simpa using this
  have h4 : ((BitVec.ofNat 64 k * onesStep8) ||| msbsStep8).toNat =
      pack 8 ((List.range 8).map fun _ => k ||| 128) := by
    rw [BitVec.toNat_or, h3, h2, pack_lor_range 8 8 _ _ (fun _ _ => by omega) (fun _ _ => by omega)]
  have hsub := pack_sub_range 8 8 (fun _ => k ||| 128) (fun i => cnt x.getLsbD (8*(i+1))) (fun i hi => by
    have := S i hi; have := kdigit ⟨k, hk⟩; simp only [] at this; omega)
  rw [BitVec.toNat_and, BitVec.toNat_sub_of_le, h4, byteSums_toNat, hsub.2, h2, pack_land_range]
  · apply pack_congr_range
    intro i hi
    exact geqdigit ⟨k, hk⟩ ⟨_, Nat.lt_succ_of_le (S i hi)⟩
  · intro i hi; have := kdigit ⟨k, hk⟩; simp only [] at this ⊢; omega
  · intro i hi; simp
  · rw [BitVec.le_def, h4, byteSums_toNat]; exact hsub.1

/-- the index of the byte containing the `k`-th one -/
def byteIdx (x : Word) (k : Nat) : Nat := cnt (fun i => decide (cnt x.getLsbD (8*(i+1)) ≤ k)) 8

theorem byteIdx_spec (x : Word) (k : Nat) (i : Nat) (hi : i < 8) :
    cnt x.getLsbD (8*(i+1)) ≤ k ↔ i < byteIdx x k := by
  have := cnt_threshold (c := fun i => decide (cnt x.getLsbD (8*(i+1)) ≤ k)) (n := 8)
    (fun i j hij hj hc => by
      simp only [decide_eq_true_eq] at hc ⊢
      exact Nat.le_trans (cnt_mono _ (by omega)) hc) i hi
  simpa [byteIdx] using this

theorem byteIdx_lt (x : Word) (k : Nat) (h : k < cnt x.getLsbD 64) : byteIdx x k < 8 := by
  have := byteIdx_spec x k 7 (by omega)
  simp only [Nat.reduceAdd, Nat.reduceMul] at this
  omega

theorem byteIdx_bounds (x : Word) (k : Nat) (h : k < cnt x.getLsbD 64) :
    cnt x.getLsbD (8 * byteIdx x k) ≤ k ∧ k < cnt x.getLsbD (8 * byteIdx x k + 8) := by
  have hlt := byteIdx_lt x k h
  constructor
  · rcases Nat.eq_zero_or_pos (byteIdx x k) with h0 | h0
    · rw [h0]; simp
    · have := (byteIdx_spec x k (byteIdx x k - 1) (by omega)).mpr (by omega)
      rwa [show byteIdx x k - 1 + 1 = byteIdx x k by omega] at this
  · have := (byteIdx_spec x k (byteIdx x k) hlt)
    rw [Nat.mul_succ] at this
    omega

theorem and_not7 : ∀ y : Fin 256, y.val &&& (2^11 - 1 - 7) = y.val / 8 * 8 := by decide +kernel

theorem selectPlace_toNat (x : Word) (k : Nat) (h : k < cnt x.getLsbD 64) :
    (selectPlace x k).toNat = 8 * byteIdx x k := by
  have hk : k < 64 := Nat.lt_of_lt_of_le h (cnt_le _ _)
  have hlt := byteIdx_lt x k h
  unfold selectPlace
  have e1 : (geqKStep8 x k >>> 7).toNat = pack 8 ((List.range 8).map fun i => (decide (cnt x.getLsbD (8*(i+1)) ≤ k)).toNat) := by
    rw [BitVec.toNat_ushiftRight, Nat.shiftRight_eq_div_pow, geqKStep8_toNat x k hk,
      pack_div_range _ _ _ (by omega)]
    · apply pack_congr_range; intro i hi; split <;> rename_i hh <;> simp [hh]
    · intro i hi; split <;> simp
  have h1 : onesStep8.toNat = pack 8 (List.replicate 8 1) := by decide
  have e2 : ((geqKStep8 x k >>> 7) * onesStep8).toNat = pack 8 ((List.range 8).map fun i =>
      cnt (fun i => decide (cnt x.getLsbD (8*(i+1)) ≤ k)) (i+1)) := by
    rw [BitVec.toNat_mul, e1, h1]
    exact mul_ones 8 8 _ (cnt (fun i => decide (cnt x.getLsbD (8*(i+1)) ≤ k))) (cnt_zero _) (fun i hi => cnt_succ _ _) (fun i hi => by
      have := cnt_le (fun i => decide (cnt x.getLsbD (8*(i+1)) ≤ k)) (i+1); omega)
  have hb : ∀ i, i < 8 → cnt (fun i => decide (cnt x.getLsbD (8*(i+1)) ≤ k)) (i+1) < 2^8 := fun i hi => by
      have := cnt_le (fun i => decide (cnt x.getLsbD (8*(i+1)) ≤ k)) (i+1); omega
  have e3 := pack_digit_range 8 8 _ hb 7 (by omega)
  have lt := pack_lt_range 8 8 _ hb
  rw [← e2] at e3 lt
  have e4 : cnt (fun i => decide (cnt x.getLsbD (8*(i+1)) ≤ k)) (7+1) = byteIdx x k := rfl
  rw [e4] at e3
  generalize ((geqKStep8 x k >>> 7) * onesStep8) = y at *
  have lt' := y.isLt
  rw [Nat.mod_eq_of_lt (by omega)] at e3
  rw [BitVec.toNat_and, BitVec.toNat_ushiftRight, Nat.shiftRight_eq_div_pow]
  have e5 : y.toNat / 2^53 = y.toNat / 2^53 % 256 := by rw [Nat.mod_eq_of_lt]; omega
  have e6 : (~~~(0x7#64)).toNat = 2^64 - 8 := by decide
  rw [e6]
  have e7 : (y.toNat / 2^53) &&& (2^64 - 8) = (y.toNat / 2^53) &&& (2^11 - 1 - 7) := by
    have z : y.toNat / 2^53 < 2^11 := by omega
    have z1 : y.toNat / 2^53 = y.toNat / 2^53 &&& (2^11 - 1) := by
      rw [Nat.and_two_pow_sub_one_eq_mod, Nat.mod_eq_of_lt z]
    rw [z1, Nat.and_assoc, Nat.and_assoc]; rfl
  rw [e7, e5]
  have := and_not7 ⟨y.toNat / 2^53 % 256, by omega⟩
  simp only [] at this
  rw [this]; omega

/-- the bits of `geq` are exactly the top bits of the first `byteIdx` bytes -/
theorem geq_popcount (x : Word) (k : Nat) (hk : k < 64) :
    popcountIntrinsic (geqKStep8 x k) = byteIdx x k := by
  rw [popcountIntrinsic_eq]
  have hb : ∀ d ∈ ((List.range 8).map fun i => if cnt x.getLsbD (8*(i+1)) ≤ k then 128 else 0), d < 2^8 := by
    intro d hd
    obtain ⟨i, hi, rfl⟩ := List.mem_map.mp hd
    split <;> omega
  have key : ∀ i, i < 8 → cnt (fun t => (geqKStep8 x k).getLsbD (8*i+t)) 8 =
      (decide (cnt x.getLsbD (8*(i+1)) ≤ k)).toNat := by
    intro i hi
    have : ∀ t, t < 8 → (geqKStep8 x k).getLsbD (8*i+t) =
        (if cnt x.getLsbD (8*(i+1)) ≤ k then 128 else 0 : Nat).testBit t := by
      intro t ht
      rw [← BitVec.testBit_toNat, geqKStep8_toNat x k hk, pack_testBit 8 _ hb i t (by simpa using hi) ht]
      simp only [List.getElem_map, List.getElem_range]
    rw [cnt_congr this]
    split <;> rename_i hh <;> simp only [hh] <;> decide +kernel
  have S : ∀ i, i < 8 → cnt (geqKStep8 x k).getLsbD (8*(i+1)) = cnt (geqKStep8 x k).getLsbD (8*i) +
      (decide (cnt x.getLsbD (8*(i+1)) ≤ k)).toNat := by
    intro i hi
    rw [Nat.mul_succ, cnt_add, key i hi, Nat.mul_succ]
  have S' : ∀ i, i ≤ 8 → cnt (geqKStep8 x k).getLsbD (8*i) = cnt (fun i => decide (cnt x.getLsbD (8*(i+1)) ≤ k)) i := by
    intro i hi
    induction i with
    | zero => simp
    | succ i ih => rw [S i (by omega), ih (by omega), cnt_succ]
  have h := S' 8 (by omega)
  rw [show 8 * 8 = 64 from rfl] at h
  rw [h, byteIdx]

theorem selectPlacePopcnt_toNat (x : Word) (k : Nat) (h : k < cnt x.getLsbD 64) :
    (selectPlacePopcnt x k).toNat = 8 * byteIdx x k := by
  have hk : k < 64 := Nat.lt_of_lt_of_le h (cnt_le _ _)
  have hlt := byteIdx_lt x k h
  unfold selectPlacePopcnt
  rw [geq_popcount x k hk, BitVec.toNat_mul, BitVec.toNat_ofNat]
  simp only [BitVec.toNat_ofNat]
  omega

theorem pack_append_one (w : Nat) (ds : List Nat) (e : Nat) :
    pack w (ds ++ [e]) = pack w ds + 2^(w*ds.length) * e := by
  induction ds with
  | nil => simp
  | cons d ds ih =>
    simp only [List.cons_append, pack_cons, ih, List.length_cons, Nat.mul_succ]
    rw [Nat.add_comm (w*ds.length) w, Nat.pow_add]; ring

/-- shifting up by one digit drops the top digit -/
theorem pack_shift_range (w n : Nat) (f : Nat → Nat) (h0 : f 0 = 0) (hb : ∀ i, i < n → f i < 2^w) :
    2^w * pack w ((List.range n).map fun i => f (i+1)) % 2^(w*n) = pack w ((List.range n).map f) := by
  have e1 : 2^w * pack w ((List.range n).map fun i => f (i+1)) = pack w ((List.range (n+1)).map f) := by
    rw [List.range_succ_eq_map, List.map_cons, List.map_map, pack_cons, h0, Nat.zero_add]; rfl
  rw [e1, List.range_succ, List.map_append, List.map_cons, List.map_nil, pack_append_one]
  simp only [List.length_map, List.length_range]
  rw [Nat.add_mul_mod_self_left, Nat.mod_eq_of_lt (pack_lt_range w n f hb)]

/-- the rank before byte `m`, as extracted from the running sums -/
theorem rank_before (x : Word) (m : Nat) (hm : m < 8) :
    (((byteSums x <<< 8) >>> (8*m)) &&& 0xFF#64).toNat = cnt x.getLsbD (8*m) := by
  have hb : ∀ i, i < 8 → cnt x.getLsbD (8*i) < 2^8 := fun i hi => by
    have := cnt_le x.getLsbD (8*i); omega
  have e := pack_shift_range 8 8 (fun i => cnt x.getLsbD (8*i)) (by simp) hb
  have e2 : BitVec.toNat 0xFF#64 = 2^8 - 1 := by decide
  rw [BitVec.toNat_and, BitVec.toNat_ushiftRight, Nat.shiftRight_eq_div_pow, BitVec.toNat_shiftLeft,
    Nat.shiftLeft_eq, e2, Nat.and_two_pow_sub_one_eq_mod, byteSums_toNat, Nat.mul_comm]
  rw [show 8 * 8 = 64 from rfl] at e
  rw [e]
  exact pack_digit_range 8 8 (fun i => cnt x.getLsbD (8*i)) hb m hm

theorem selectFinish_spec (x : Word) (k : Nat) (h : k < cnt x.getLsbD 64) (place : Word)
    (hp : place.toNat = 8 * byteIdx x k) :
    ∃ e, selectFinish x k place = some e ∧ e < 64 ∧ x.getLsbD e = true ∧ cnt x.getLsbD e = k := by
  have hk : k < 64 := Nat.lt_of_lt_of_le h (cnt_le _ _)
  have hlt := byteIdx_lt x k h
  have hb := byteIdx_bounds x k h
  generalize hm : byteIdx x k = m at *
  unfold selectFinish shr
  rw [hp]
  simp only [show 8 * m < 64 by omega, if_true, Option.bind_eq_bind, Option.bind_some]
  have hs := rank_before x m hlt
  have hr : (BitVec.ofNat 64 k - (((byteSums x <<< 8) >>> (8*m)) &&& 0xFF#64)).toNat = k - cnt x.getLsbD (8*m) := by
    rw [BitVec.toNat_sub_of_le, hs, BitVec.toNat_ofNat, Nat.mod_eq_of_lt (by omega)]
    rw [BitVec.le_def, hs, BitVec.toNat_ofNat, Nat.mod_eq_of_lt (by omega)]; exact hb.1
  generalize (BitVec.ofNat 64 k - (((byteSums x <<< 8) >>> (8*m)) &&& 0xFF#64)) = r at *
  have hbyte : ((x >>> (8*m)) &&& 0xFF#64).toNat = x.toNat / 2^(8*m) % 2^8 := by
    rw [BitVec.toNat_and, BitVec.toNat_ushiftRight, Nat.shiftRight_eq_div_pow]
    have : BitVec.toNat 0xFF#64 = 2^8 - 1 := by decide
    rw [this, Nat.and_two_pow_sub_one_eq_mod]
  have hcb := bcnt_byte x.toNat m
  have hsplit : cnt x.getLsbD (8*m+8) = cnt x.getLsbD (8*m) + cnt (fun t => x.getLsbD (8*m+t)) 8 := cnt_add _ _ _
  have hsplit' : cnt (fun t => x.getLsbD (8*m+t)) 8 = bcnt (x.toNat / 2^(8*m) % 2^8) := by
    rw [hcb]; apply cnt_congr; intro i _; rw [BitVec.testBit_toNat]
  have hrlt : k - cnt x.getLsbD (8*m) < bcnt (x.toNat / 2^(8*m) % 2^8) := by omega
  have hr8 : k - cnt x.getLsbD (8*m) < 8 := Nat.lt_of_lt_of_le hrlt (bcnt_le _)
  obtain ⟨e, he8, he1, he2, he3⟩ := table_ok (x.toNat / 2^(8*m) % 2^8)
    (k - cnt x.getLsbD (8*m)) (Nat.mod_lt _ (by omega)) hr8 hrlt
  have hidx : (((x >>> (8*m)) &&& 0xFF#64) ||| (r <<< 8)).toNat =
      x.toNat / 2^(8*m) % 2^8 ||| ((k - cnt x.getLsbD (8*m)) * 256) := by
    rw [BitVec.toNat_or, hbyte, BitVec.toNat_shiftLeft, hr, Nat.shiftLeft_eq,
      Nat.mod_eq_of_lt (a := (k - cnt x.getLsbD (8*m)) * 2^8) (by omega)]
  rw [hidx]
  rw [he1]
  have hbit : ∀ t, t < 8 → (x.toNat / 2^(8*m) % 2^8).testBit t = x.getLsbD (8*m+t) := by
    intro t ht
    rw [Nat.testBit_mod_two_pow, Nat.testBit_div_two_pow, ← BitVec.testBit_toNat]
    simp [ht, Nat.add_comm]
  refine ⟨8*m + e, rfl, by omega, ?_, ?_⟩
  · rw [← hbit _ he8]; exact he2
  · rw [cnt_add]
    have : cnt (fun i => x.getLsbD (8*m+i)) e = k - cnt x.getLsbD (8*m) := by
      rw [← he3]
      apply cnt_congr
      intro i hi
      rw [hbit i (by omega)]
    omega

theorem selectInWord_spec (x : Word) (k : Nat) (h : k < cnt x.getLsbD 64) :
    ∃ e, selectInWord x k = some e ∧ e < 64 ∧ x.getLsbD e = true ∧ cnt x.getLsbD e = k := by
  unfold selectInWord assertP
  rw [popcount_eq, if_pos h, Option.bind_eq_bind, Option.bind_some]
  exact selectFinish_spec x k h _ (selectPlace_toNat x k h)

theorem selectInWordPopcnt_spec (x : Word) (k : Nat) (h : k < cnt x.getLsbD 64) :
    ∃ e, selectInWordPopcnt x k = some e ∧ e < 64 ∧ x.getLsbD e = true ∧ cnt x.getLsbD e = k := by
  unfold selectInWordPopcnt assertP
  rw [popcountIntrinsic_eq, if_pos h, Option.bind_eq_bind, Option.bind_some]
  exact selectFinish_spec x k h _ (selectPlacePopcnt_toNat x k h)

end Broadword
end Succinct
