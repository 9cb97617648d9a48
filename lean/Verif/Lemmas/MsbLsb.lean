import Verif.Lemmas.Popcount

namespace Succinct
namespace Broadword

theorem find?_reverse_range (p : Nat → Bool) (n i : Nat) :
    (List.range n).reverse.find? p = some i ↔ i < n ∧ p i = true ∧ ∀ j, i < j → j < n → p j = false := by
  induction n with
  | zero => simp
  | succ n ih =>
    rw [List.range_succ, List.reverse_append, List.reverse_singleton, List.singleton_append, List.find?_cons]
    cases h : p n
    · simp only [ih]
      constructor
      · rintro ⟨h1, h2, h3⟩
        refine ⟨by omega, h2, fun j hj1 hj2 => ?_⟩
        rcases Nat.lt_or_ge j n with h4 | h4
        · exact h3 j hj1 h4
        · rwa [show j = n by omega]
      · rintro ⟨h1, h2, h3⟩
        have : i ≠ n := by rintro rfl; simp [h] at h2
        exact ⟨by omega, h2, fun j hj1 hj2 => h3 j hj1 (by omega)⟩
    · simp only [Option.some.injEq]
      constructor
      · rintro rfl; exact ⟨by omega, h, fun j h1 h2 => by omega⟩
      · rintro ⟨h1, h2, h3⟩
        rcases Nat.lt_or_ge i n with h4 | h4
        · rw [h3 n h4 (by omega)] at h; simp at h
        · omega

theorem find?_range (p : Nat → Bool) (n i : Nat) :
    (List.range n).find? p = some i ↔ i < n ∧ p i = true ∧ ∀ j, j < i → p j = false := by
  rw [List.find?_range_eq_some]
  simp only [List.mem_range, Bool.not_eq_true']
  constructor <;> rintro ⟨a, b, c⟩ <;> exact ⟨b, a, c⟩

theorem msb_some (x : Word) (i : Nat) :
    msb x = some i ↔ i < 64 ∧ x.getLsbD i = true ∧ ∀ j, i < j → j < 64 → x.getLsbD j = false :=
  find?_reverse_range _ _ _

theorem lsb_some (x : Word) (i : Nat) :
    lsb x = some i ↔ i < 64 ∧ x.getLsbD i = true ∧ ∀ j, j < i → x.getLsbD j = false :=
  find?_range _ _ _

theorem msb_none (x : Word) : msb x = none ↔ x = 0 := by
  unfold msb
  rw [List.find?_eq_none]
  constructor
  · intro h
    apply BitVec.eq_of_getLsbD_eq
    intro i hi
    have := h i (by simp; omega)
    simpa using this
  · rintro rfl; simp

theorem lsb_none (x : Word) : lsb x = none ↔ x = 0 := by
  unfold lsb
  rw [List.find?_eq_none]
  constructor
  · intro h
    apply BitVec.eq_of_getLsbD_eq
    intro i hi
    have := h i (by simp; omega)
    simpa using this
  · rintro rfl; simp

theorem msb_exists (x : Word) (h : x ≠ 0) : ∃ i, msb x = some i := by
  cases hm : msb x with
  | none => exact absurd ((msb_none x).mp hm) h
  | some i => exact ⟨i, rfl⟩

theorem lsb_exists (x : Word) (h : x ≠ 0) : ∃ i, lsb x = some i := by
  cases hm : lsb x with
  | none => exact absurd ((lsb_none x).mp hm) h
  | some i => exact ⟨i, rfl⟩

theorem bitPosition_pow : ∀ i : Fin 64, bitPosition (1#64 <<< i.val) = some i.val := by
  decide +kernel

theorem getLsbD_one_shl (i j : Nat) (hj : j < 64) : (1#64 <<< i).getLsbD j = decide (j = i) := by
  rw [BitVec.getLsbD_shiftLeft]
  simp only [BitVec.getLsbD_one]
  by_cases h : j = i
  · subst h; simp [hj]
  · by_cases h2 : j < i
    · simp [h2, h]
    · simp [hj, h]; omega

private theorem satStep (x y : Word) (n : Nat)
    (h : ∀ j, y.getLsbD j = true ↔ ∃ t, t < n ∧ x.getLsbD (j+t) = true) :
    ∀ j, (y ||| (y >>> n)).getLsbD j = true ↔ ∃ t, t < 2*n ∧ x.getLsbD (j+t) = true := by
  intro j
  rw [BitVec.getLsbD_or, BitVec.getLsbD_ushiftRight, Bool.or_eq_true, h, h]
  constructor
  · rintro (⟨t, h1, h2⟩ | ⟨t, h1, h2⟩)
    · exact ⟨t, by omega, h2⟩
    · exact ⟨n + t, by omega, by rwa [show j + (n+t) = n + j + t by omega]⟩
  · rintro ⟨t, h1, h2⟩
    rcases Nat.lt_or_ge t n with h3 | h3
    · exact .inl ⟨t, h3, h2⟩
    · exact .inr ⟨t - n, by omega, by rwa [show n + j + (t-n) = j + t by omega]⟩

theorem isolateMsb_eq (x : Word) (i : Nat) (h : msb x = some i) : isolateMsb x = 1#64 <<< i := by
  rw [msb_some] at h
  obtain ⟨h1, h2, h3⟩ := h
  have s0 : ∀ j, x.getLsbD j = true ↔ ∃ t, t < 1 ∧ x.getLsbD (j+t) = true := by
    intro j
    constructor
    · intro h; exact ⟨0, by omega, h⟩
    · rintro ⟨t, h4, h5⟩
      have : t = 0 := by omega
      subst this; exact h5
  have s := satStep _ _ 32 (satStep _ _ 16 (satStep _ _ 8 (satStep _ _ 4 (satStep _ _ 2 (satStep _ _ 1 s0)))))
  unfold isolateMsb
  simp only []
  simp only [Nat.reduceMul] at s
  generalize x ||| x >>> 1 = a1 at s ⊢
  generalize a1 ||| a1 >>> 2 = a2 at s ⊢
  generalize a2 ||| a2 >>> 4 = a3 at s ⊢
  generalize a3 ||| a3 >>> 8 = a4 at s ⊢
  generalize a4 ||| a4 >>> 16 = a5 at s ⊢
  generalize a5 ||| a5 >>> 32 = a6 at s ⊢
  have s' : ∀ j, a6.getLsbD j = decide (j ≤ i) := by
    intro j
    by_cases hj : j ≤ i
    · simp only [hj, decide_true]
      exact (s j).mpr ⟨i - j, by omega, by rwa [show j + (i-j) = i by omega]⟩
    · simp only [hj, decide_false]
      cases hc : a6.getLsbD j
      · rfl
      · obtain ⟨t, h4, h5⟩ := (s j).mp hc
        rcases Nat.lt_or_ge (j+t) 64 with h6 | h6
        · rw [h3 (j+t) (by omega) h6] at h5; simp at h5
        · rw [BitVec.getLsbD_of_ge _ _ h6] at h5; simp at h5
  apply BitVec.eq_of_getLsbD_eq
  intro j hj
  rw [getLsbD_one_shl _ _ hj, BitVec.getLsbD_xor, BitVec.getLsbD_ushiftRight, s', s']
  by_cases h4 : j < i
  · have e1 : j ≤ i := by omega
    have e2 : 1 + j ≤ i := by omega
    have e3 : j ≠ i := by omega
    simp [e1, e2, e3]
  · by_cases h5 : j = i
    · subst h5; simp
    · have e1 : ¬ j ≤ i := by omega
      have e2 : ¬ 1 + j ≤ i := by omega
      simp [e1, e2, h5]

theorem and_neg_eq (x : Word) (i : Nat) (h : lsb x = some i) : x &&& -x = 1#64 <<< i := by
  rw [lsb_some] at h
  obtain ⟨h1, h2, h3⟩ := h
  apply BitVec.eq_of_getLsbD_eq
  intro j hj
  rw [getLsbD_one_shl _ _ hj, BitVec.getLsbD_and, BitVec.getLsbD_neg]
  by_cases h4 : j < i
  · rw [h3 j h4]; simp; omega
  · by_cases h5 : j = i
    · subst h5
      have : ¬ ∃ k, k < j ∧ x.getLsbD k = true := by
        rintro ⟨k, hk1, hk2⟩
        rw [h3 k hk1] at hk2; simp at hk2
      simp [h2, hj, this]
    · have : ∃ k, k < j ∧ x.getLsbD k = true := ⟨i, by omega, h2⟩
      simp only [hj, decide_true, Bool.true_and, this, h5, decide_false]
      cases x.getLsbD j <;> simp

theorem msbPortable_eq (x : Word) : msbPortable x = some (msb x) := by
  unfold msbPortable
  split
  · rename_i h; rw [(msb_none x).mpr h]
  · rename_i h
    obtain ⟨i, hi⟩ := msb_exists x h
    rw [hi, isolateMsb_eq x i hi]
    have h1 := ((msb_some x i).mp hi).1
    have := bitPosition_pow ⟨i, h1⟩
    simp only [] at this
    rw [this]; rfl

theorem lsbPortable_eq (x : Word) : lsbPortable x = some (lsb x) := by
  unfold lsbPortable
  split
  · rename_i h; rw [(lsb_none x).mpr h]
  · rename_i h
    obtain ⟨i, hi⟩ := lsb_exists x h
    rw [hi, and_neg_eq x i hi]
    have h1 := ((lsb_some x i).mp hi).1
    have := bitPosition_pow ⟨i, h1⟩
    simp only [] at this
    rw [this]; rfl

theorem msb_lt_pow (x : Word) (i : Nat) (h : msb x = some i) : 2^i ≤ x.toNat ∧ x.toNat < 2^(i+1) := by
  obtain ⟨h1, h2, h3⟩ := (msb_some x i).mp h
  constructor
  · rw [← BitVec.testBit_toNat] at h2
    exact Nat.ge_two_pow_of_testBit h2
  · apply Nat.lt_pow_two_of_testBit
    intro j hj
    rw [BitVec.testBit_toNat]
    rcases Nat.lt_or_ge j 64 with h4 | h4
    · exact h3 j (by omega) h4
    · exact BitVec.getLsbD_of_ge _ _ h4

theorem sameMsb_iff (x y : Word) : sameMsb x y = true ↔ msb x = msb y := by
  unfold sameMsb
  rw [decide_eq_true_eq, BitVec.le_def, BitVec.toNat_xor, BitVec.toNat_and]
  cases hx : msb x with
  | none =>
    rw [msb_none] at hx; subst hx
    cases hy : msb y with
    | none => rw [msb_none] at hy; subst hy; simp
    | some j =>
      have := (msb_lt_pow y j hy).1
      have := Nat.two_pow_pos j
      simp; intro h; omega
  | some i =>
    obtain ⟨hx1, hx2⟩ := msb_lt_pow x i hx
    obtain ⟨hxi, hxb, hxh⟩ := (msb_some x i).mp hx
    cases hy : msb y with
    | none =>
      rw [msb_none] at hy; subst hy
      have := Nat.two_pow_pos i
      simp; intro h; omega
    | some j =>
      obtain ⟨hy1, hy2⟩ := msb_lt_pow y j hy
      obtain ⟨hyi, hyb, hyh⟩ := (msb_some y j).mp hy
      rw [← BitVec.testBit_toNat] at hxb hyb
      rcases Nat.lt_trichotomy i j with h | h | h
      · have h4 : x.toNat < 2^j := Nat.lt_of_lt_of_le hx2 (Nat.pow_le_pow_right (by omega) h)
        have h5 : (x.toNat ^^^ y.toNat).testBit j = true := by
          rw [Nat.testBit_xor, hyb, Nat.testBit_lt_two_pow h4]; rfl
        have h6 := Nat.ge_two_pow_of_testBit h5
        have h7 : x.toNat &&& y.toNat ≤ x.toNat := Nat.and_le_left
        simp only [Option.some.injEq]; omega
      · subst h
        have h5 : (x.toNat &&& y.toNat).testBit i = true := by
          rw [Nat.testBit_and, hxb, hyb]; rfl
        have h6 := Nat.ge_two_pow_of_testBit h5
        have h7 : x.toNat ^^^ y.toNat < 2^i := by
          apply Nat.lt_pow_two_of_testBit
          intro k hk
          rw [Nat.testBit_xor]
          rcases Nat.lt_or_ge i k with h8 | h8
          · have hp : (2:Nat)^(i+1) ≤ 2^k := Nat.pow_le_pow_right (by omega) (by omega)
            rw [Nat.testBit_lt_two_pow (by omega), Nat.testBit_lt_two_pow (by omega)]; rfl
          · have : k = i := by omega
            subst this; rw [hxb, hyb]; rfl
        simp only [iff_true]; omega
      · have h4 : y.toNat < 2^i := Nat.lt_of_lt_of_le hy2 (Nat.pow_le_pow_right (by omega) h)
        have h5 : (x.toNat ^^^ y.toNat).testBit i = true := by
          rw [Nat.testBit_xor, hxb, Nat.testBit_lt_two_pow h4]; rfl
        have h6 := Nat.ge_two_pow_of_testBit h5
        have h7 : x.toNat &&& y.toNat ≤ y.toNat := Nat.and_le_right
        simp only [Option.some.injEq]; omega

/-! ### reversal -/

/-- the bit index swapped with `i` by an exchange of adjacent groups of `s` bits -/
def swapIdx (s i : Nat) : Nat := if i / s % 2 = 0 then i + s else i - s

theorem swap_step (s : Nat) (hs : 0 < s) (m x : Word)
    (hm : ∀ i, i < 64 → m.getLsbD i = decide (i / s % 2 = 0)) (i : Nat) (hi : i < 64) :
    (((x >>> s) &&& m) ||| ((x &&& m) <<< s)).getLsbD i = x.getLsbD (swapIdx s i) := by
  rw [BitVec.getLsbD_or, BitVec.getLsbD_and, BitVec.getLsbD_ushiftRight, BitVec.getLsbD_shiftLeft,
    BitVec.getLsbD_and, hm i hi]
  unfold swapIdx
  by_cases hlt : i < s
  · have : i / s = 0 := Nat.div_eq_of_lt hlt
    simp [this, hlt, Nat.add_comm]
  · have e : i / s = (i - s) / s + 1 := by
      rw [← Nat.add_div_right _ hs, Nat.sub_add_cancel (by omega)]
    rw [hm (i-s) (by omega)]
    rw [e]
    by_cases h : (i-s)/s % 2 = 0
    · have : ((i-s)/s + 1) % 2 = 1 := by omega
      simp [h, this, hi]; omega
    · have : ((i-s)/s + 1) % 2 = 0 := by omega
      simp [h, this, Nat.add_comm]

private theorem mm1 : ∀ i : Fin 64, magicMask1.getLsbD i.val = decide (i.val / 1 % 2 = 0) := by decide +kernel
private theorem mm2 : ∀ i : Fin 64, magicMask2.getLsbD i.val = decide (i.val / 2 % 2 = 0) := by decide +kernel
private theorem mm3 : ∀ i : Fin 64, magicMask3.getLsbD i.val = decide (i.val / 4 % 2 = 0) := by decide +kernel
private theorem mm4 : ∀ i : Fin 64, magicMask4.getLsbD i.val = decide (i.val / 8 % 2 = 0) := by decide +kernel
private theorem mm5 : ∀ i : Fin 64, magicMask5.getLsbD i.val = decide (i.val / 16 % 2 = 0) := by decide +kernel

private theorem idxB : ∀ i : Fin 64, swapIdx 1 (swapIdx 2 (swapIdx 4 i.val)) = 8 * (i.val / 8) + 7 - i.val % 8 ∧
    swapIdx 4 i.val < 64 ∧ swapIdx 2 (swapIdx 4 i.val) < 64 := by decide +kernel
private theorem idxY : ∀ i : Fin 64, swapIdx 8 (swapIdx 16 (swapIdx 32 i.val)) = 8 * (7 - i.val / 8) + i.val % 8 ∧
    swapIdx 32 i.val < 64 ∧ swapIdx 16 (swapIdx 32 i.val) < 64 := by decide +kernel

theorem reverseBitsInBytes_bit (x : Word) (i : Nat) (hi : i < 64) :
    (reverseBitsInBytes x).getLsbD i = x.getLsbD (8 * (i / 8) + 7 - i % 8) := by
  obtain ⟨e1, e2, e3⟩ := idxB ⟨i, hi⟩
  simp only [] at e1 e2 e3
  unfold reverseBitsInBytes
  simp only []
  rw [swap_step 4 (by omega) _ _ (fun i hi => mm3 ⟨i, hi⟩) i hi,
    swap_step 2 (by omega) _ _ (fun i hi => mm2 ⟨i, hi⟩) _ e2,
    swap_step 1 (by omega) _ _ (fun i hi => mm1 ⟨i, hi⟩) _ e3, e1]

theorem reverseBytesPortable_bit (x : Word) (i : Nat) (hi : i < 64) :
    (reverseBytesPortable x).getLsbD i = x.getLsbD (8 * (7 - i / 8) + i % 8) := by
  obtain ⟨e1, e2, e3⟩ := idxY ⟨i, hi⟩
  simp only [] at e1 e2 e3
  unfold reverseBytesPortable
  simp only []
  have h32 : ∀ y : Word, (y >>> 32 ||| y <<< 32).getLsbD i = y.getLsbD (swapIdx 32 i) := by
    intro y
    rw [BitVec.getLsbD_or, BitVec.getLsbD_ushiftRight, BitVec.getLsbD_shiftLeft]
    unfold swapIdx
    by_cases h : i < 32
    · have : i / 32 = 0 := by omega
      simp [h, this, Nat.add_comm]
    · have : i / 32 = 1 := by omega
      simp [h, this, hi, BitVec.getLsbD_of_ge _ (32+i) (show 64 ≤ 32 + i by omega)]
  rw [h32, swap_step 16 (by omega) _ _ (fun i hi => mm5 ⟨i, hi⟩) _ e2,
    swap_step 8 (by omega) _ _ (fun i hi => mm4 ⟨i, hi⟩) _ e3, e1]

theorem byteswap64_bit (x : Word) (i : Nat) (hi : i < 64) :
    (byteswap64 x).getLsbD i = x.getLsbD (8 * (7 - i / 8) + i % 8) := by
  unfold byteswap64
  simp only [BitVec.getLsbD_append, BitVec.getLsbD_extractLsb']
  have h : i / 8 = 0 ∨ i / 8 = 1 ∨ i / 8 = 2 ∨ i / 8 = 3 ∨ i / 8 = 4 ∨ i / 8 = 5 ∨ i / 8 = 6 ∨ i / 8 = 7 := by omega
  rcases h with h | h | h | h | h | h | h | h <;> rw [h]
  all_goals (repeat' split)
  all_goals first
    | omega
    | (rw [decide_eq_true (by omega), Bool.true_and]; congr 1; omega)

theorem reverseBytes_eq_portable (x : Word) : reverseBytes x = reverseBytesPortable x := by
  apply BitVec.eq_of_getLsbD_eq
  intro i hi
  rw [reverseBytesPortable_bit x i hi]
  exact byteswap64_bit x i hi

theorem reverseBits_bit (x : Word) (i : Nat) (hi : i < 64) :
    (reverseBits x).getLsbD i = x.getLsbD (63 - i) := by
  unfold reverseBits reverseBytes
  rw [byteswap64_bit _ i hi, reverseBitsInBytes_bit _ _ (by omega)]
  congr 1
  omega

end Broadword
end Succinct
