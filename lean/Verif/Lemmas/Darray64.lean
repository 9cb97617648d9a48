import Verif.Spec.Unary
import Verif.Lemmas.Darray

/-! `darray64` -/
namespace Succinct
open Spec
export RSBitVector (bind_pure_some)

theorem unary_append (ks ms : List Nat) : unary (ks ++ ms) = unary ks ++ unary ms := by
  unfold unary; rw [List.flatMap_append]

theorem unary_singleton (k : Nat) : unary [k] = List.replicate k false ++ [true] := by simp [unary]

theorem unary_cons (k : Nat) (ks : List Nat) : unary (k :: ks) = List.replicate k false ++ true :: unary ks := by
  simp [unary]

theorem unary_length (ks : List Nat) : (unary ks).length = ks.sum + ks.length := by
  induction ks with
  | nil => rfl
  | cons k ks ih => rw [unary_cons]; simp [ih]; omega

theorem unary_count (ks : List Nat) : (unary ks).count true = ks.length := by
  induction ks with
  | nil => rfl
  | cons k ks ih => rw [unary_cons]; simp [ih, List.count_append, List.count_replicate]

theorem onePos_cons_zero (k : Nat) (ks : List Nat) : onePos (k :: ks) 0 = k := by simp [onePos]
theorem onePos_cons_succ (k : Nat) (ks : List Nat) (i : Nat) : onePos (k :: ks) (i+1) = k + 1 + onePos ks i := by
  simp [onePos]; omega

theorem onePos_append (ks ms : List Nat) (i : Nat) (h : i < ks.length) : onePos (ks ++ ms) i = onePos ks i := by
  unfold onePos
  rw [List.take_append_of_le_length (by omega)]

theorem onePos_last (ks : List Nat) (k : Nat) : onePos (ks ++ [k]) ks.length = ks.sum + k + ks.length := by
  unfold onePos
  rw [List.take_of_length_le (by simp)]; simp

theorem isSelect1_onePos (ks : List Nat) (i : Nat) (h : i < ks.length) : IsSelect1 (unary ks) i (onePos ks i) := by
  induction ks generalizing i with
  | nil => simp at h
  | cons k ks ih =>
    rw [unary_cons]
    cases i with
    | zero =>
      rw [onePos_cons_zero]
      refine ⟨by simp, ?_⟩
      unfold rank1
      rw [List.take_left' (by simp), List.count_replicate]; rfl
    | succ i =>
      rw [onePos_cons_succ]
      obtain ⟨h1, h2⟩ := ih i (by simpa using h)
      constructor
      · rw [List.getElem?_append_right (by simp; omega), List.length_replicate,
          show k + 1 + onePos ks i - k = onePos ks i + 1 by omega, List.getElem?_cons_succ, h1]
      · unfold rank1 at *
        rw [List.take_append, List.length_replicate, show k + 1 + onePos ks i - k = onePos ks i + 1 by omega,
          List.take_succ_cons, List.count_append, List.count_cons_self, h2]
        simp [List.count_replicate]

theorem onePos_step (ks : List Nat) (B : Nat) (hB : ∀ k ∈ ks, k ≤ B) (i j : Nat) (hij : i ≤ j) (hj : j < ks.length) :
    onePos ks i ≤ onePos ks j ∧ onePos ks j ≤ onePos ks i + (B+1)*(j - i) := by
  obtain ⟨d, rfl⟩ : ∃ d, j = i + d := ⟨j - i, by omega⟩
  induction d with
  | zero => simp
  | succ d ih =>
    obtain ⟨h1, h2⟩ := ih (by omega) (by omega)
    have : onePos ks (i+(d+1)) = onePos ks (i+d) + ks[i+(d+1)] + 1 := by
      unfold onePos
      rw [List.take_succ_eq_append_getElem (i := i+(d+1)) hj, List.sum_append, Nat.add_assoc i d 1]; simp only [List.sum_singleton]; omega
    have hb := hB ks[i+(d+1)] (List.getElem_mem _)
    rw [this, show i + (d+1) - i = d+1 by omega, Nat.mul_succ]
    rw [show i + d - i = d by omega] at h2
    omega

namespace Darray64

structure Good (b : Darray64Builder) (ks : List Nat) : Prop where
  bits : Succinct.Inv b.bits (unary ks)
  n : b.nOnes = ks.length
  bl : b.block.length = (ks.length + 1023) / 1024
  blk : ∀ j, 1024*j < ks.length → b.block[j]? = some (onePos ks (1024*j))
  sl : b.subblock.length = (ks.length + 63) / 64
  sub : ∀ j, 64*j < ks.length → b.subblock[j]? = some (onePos ks (64*j) - onePos ks (1024*(j/16)))

theorem new_good : ∃ b, new = some b ∧ Good b [] := by
  obtain ⟨s, e, h⟩ := Builder.new_inv 0 false
  unfold new
  rw [e, bind_pure_some]
  exact ⟨_, rfl, h, rfl, rfl, by intro j hj; simp at hj, rfl, by intro j hj; simp at hj⟩

theorem lowBits_zero (k : Nat) : lowBits 0 k = List.replicate k false := by
  unfold lowBits
  apply List.ext_getElem (by simp)
  intro i h1 h2; simp

theorem append1_good (b : Darray64Builder) (ks : List Nat) (k : Nat) (h : Good b ks) (hk : k ≤ 64)
    (hks : ∀ k ∈ ks, k ≤ 64) : ∃ b', append1 b k = some b' ∧ Good b' (ks ++ [k]) := by
  obtain ⟨s1, e1, i1⟩ := Builder.appendBits_inv b.bits _ h.bits 0 k ⟨hk, by simp [Nat.two_pow_pos]⟩
  obtain ⟨s2, e2, i2⟩ := Builder.pushBack_inv s1 _ i1 true
  rw [lowBits_zero, List.append_assoc, ← unary_singleton, ← unary_append] at i2
  have hlast : s2.size - 1 = onePos (ks ++ [k]) ks.length := by
    rw [i2.size, unary_length, onePos_last]; simp; try omega
  have hpos : 1 ≤ s2.size := by rw [i2.size, unary_length]; simp; omega
  have hall : ∀ x ∈ ks ++ [k], x ≤ 64 := by
    intro x hx; rcases List.mem_append.1 hx with h1 | h1
    · exact hks x h1
    · simp at h1; omega
  unfold append1
  simp only [e1, e2, bind_pure_some, subU_eq _ _ hpos, hlast, h.n]
  have hbl' : (if ks.length % 1024 = 0 then b.block ++ [onePos (ks ++ [k]) ks.length] else b.block).length =
      ((ks ++ [k]).length + 1023)/1024 := by
    have := h.bl
    split <;> simp <;> omega
  have hblk' : ∀ j, 1024*j < (ks ++ [k]).length →
      (if ks.length % 1024 = 0 then b.block ++ [onePos (ks ++ [k]) ks.length] else b.block)[j]? = some (onePos (ks ++ [k]) (1024*j)) := by
    intro j hj
    rw [List.length_append, List.length_singleton] at hj
    have hb := h.bl
    rcases Nat.lt_or_ge (1024*j) ks.length with h1 | h1
    · have := h.blk j h1
      rw [onePos_append _ _ _ h1]
      split
      · exact Darray.getElem?_append_some this
      · exact this
    · have hj' : 1024*j = ks.length := by omega
      rw [if_pos (by omega), List.getElem?_append_right (by omega), show j - b.block.length = 0 by omega, hj']; rfl
  generalize (if ks.length % 1024 = 0 then b.block ++ [onePos (ks ++ [k]) ks.length] else b.block) = block at *
  by_cases h64 : ks.length % 64 = 0
  · rw [if_pos h64]
    have hb := hblk' (ks.length/1024) (by simp; omega)
    obtain ⟨o1, o2⟩ := onePos_step (ks ++ [k]) 64 hall (1024*(ks.length/1024)) ks.length (by omega) (by simp)
    simp only [rd, hb, bind_pure_some, subU_eq _ _ o1]
    refine ⟨_, rfl, i2, by simp, hbl', hblk', ?_, ?_⟩
    · have := h.sl; simp; omega
    · intro j hj
      have hs := h.sl
      rw [List.length_append, List.length_singleton] at hj
      simp only []
      rcases Nat.lt_or_ge (64*j) ks.length with h1 | h1
      · rw [onePos_append _ _ _ h1, onePos_append ks [k] (1024*(j/16)) (by omega)]
        exact Darray.getElem?_append_some (h.sub j h1)
      · have hj' : 64*j = ks.length := by omega
        rw [List.getElem?_append_right (by omega), show j - b.subblock.length = 0 by omega, hj',
          show 1024*(j/16) = 1024*(ks.length/1024) by omega]
        simp only [List.getElem?_cons_zero]
        rw [Nat.mod_eq_of_lt]; omega
  · rw [if_neg h64]
    refine ⟨_, rfl, i2, by simp, hbl', hblk', ?_, ?_⟩
    · have := h.sl; simp; omega
    · intro j hj
      rw [List.length_append, List.length_singleton] at hj
      have h1 : 64*j < ks.length := by omega
      rw [onePos_append _ _ _ h1, onePos_append _ _ _ (by omega)]
      exact h.sub j h1

theorem fold_good (ms : List Nat) (b : Darray64Builder) (ks : List Nat) (h : Good b ks) (hk : ∀ k ∈ ks ++ ms, k ≤ 64) :
    ∃ b', ms.foldlM append1 b = some b' ∧ Good b' (ks ++ ms) := by
  induction ms generalizing b ks with
  | nil => exact ⟨b, rfl, by rw [List.append_nil]; exact h⟩
  | cons m ms ih =>
    obtain ⟨b1, e1, h1⟩ := append1_good b ks m h (hk m (by simp)) (fun k hx => hk k (by simp [hx]))
    obtain ⟨b2, e2, h2⟩ := ih b1 (ks ++ [m]) h1 (by rw [List.append_assoc]; exact hk)
    exact ⟨b2, by rw [List.foldlM_cons, e1, bind_pure_some, e2], by rw [List.append_assoc] at h2; exact h2⟩

/-- `select` cut off after `k` words -/
theorem selectWithin_eq (d : Darray64) (b : Darray64Builder) (ks : List Nat) (h : Good b ks) (hd : d = ⟨b.nOnes, BitVector.ofRange (unary ks), b.block, b.subblock⟩)
    (hks : ∀ k ∈ ks, k ≤ 64) (i : Nat) (hi : i < ks.length)
    (k : Nat) (hk : ∀ s, s ≤ onePos ks i → onePos ks i ≤ s + 63 * 65 → onePos ks i < 64 * (k + s/64)) : selectWithin k d i = some (onePos ks i) := by
  subst hd
  have hrep := BitVector.ofRange_rep (unary ks)
  have hlen := hrep.len
  unfold selectWithin
  simp only []
  rw [assertP_eq _ (by rw [h.n]; exact hi), bind_pure_some]
  unfold rd
  rw [h.blk _ (by omega), bind_pure_some, h.sub _ (by omega), bind_pure_some]
  obtain ⟨o1, o2⟩ := onePos_step ks 64 hks (1024*(i/64/16)) (64*(i/64)) (by omega) (by omega)
  rw [show i/1024 = i/64/16 by omega, show onePos ks (1024*(i/64/16)) + (onePos ks (64*(i/64)) - onePos ks (1024*(i/64/16))) = onePos ks (64*(i/64)) by omega]
  obtain ⟨a1, a2⟩ := (isSelect1_iff _ _ _).1 (isSelect1_onePos ks (64*(i/64)) (by omega))
  obtain ⟨b1, b2⟩ := (isSelect1_iff _ _ _).1 (isSelect1_onePos ks i hi)
  have hlt := bitFn_lt _ _ b1
  apply Darray.selectFrom_spec _ (BitVector.ofRange (unary ks)).bits.length (bitFn (unary ks)) _ _ _ _ a1 b1
  · rw [a2, b2]; omega
  · omega
  · obtain ⟨s1, s2⟩ := onePos_step ks 64 hks (64*(i/64)) i (by omega) (by omega)
    refine hk _ s1 ?_
    have : (64+1) * (i - 64*(i/64)) ≤ 65 * 63 := Nat.mul_le_mul_left _ (by omega)
    omega
  · intro j hj
    refine ⟨_, rd_eq _ _ hj, ?_⟩
    intro t ht
    rw [getElem_getLsbD _ _ _ hj ht, hrep.repr.bit]

theorem select_eq (d : Darray64) (b : Darray64Builder) (ks : List Nat) (h : Good b ks) (hd : d = ⟨b.nOnes, BitVector.ofRange (unary ks), b.block, b.subblock⟩)
    (hks : ∀ k ∈ ks, k ≤ 64) (i : Nat) (hi : i < ks.length) : select d i = some (onePos ks i) := by
  refine selectWithin_eq d b ks h hd hks i hi (d.bits.bits.length + 1) fun s _ _ => ?_
  have hlt := bitFn_lt _ _ ((isSelect1_iff _ _ _).1 (isSelect1_onePos ks i hi)).1
  have hlen := (BitVector.ofRange_rep (unary ks)).len
  subst hd
  simp only []
  omega

end Darray64
end Succinct
