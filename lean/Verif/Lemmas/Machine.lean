import Verif.Model.Machine
import Verif.Lemmas.RSBitVector
import Verif.Lemmas.Contract

/-! # The 64-bit transcription follows the model -/
namespace Succinct
namespace Machine
open Broadword
open Succinct.RSBitVector (bind_pure_some)

/-- a number as `uint64_t` -/
abbrev W (n : Nat) : Word := BitVec.ofNat 64 n

theorem W_toNat (n : Nat) (h : n < 2^64) : (W n).toNat = n := by
  simp only [BitVec.toNat_ofNat]; exact Nat.mod_eq_of_lt h

theorem W_of (w : Word) : W w.toNat = w := BitVec.ofNat_toNat 64 w |>.trans (by simp)

/-- one step of the simulation of a computation on numbers by one on words -/
theorem sim_bind {α β α' β' : Type} {e : α → α'} {e' : β → β'} {x : Option α} {m : Option α'} {g : α → Option β}
    {f : α' → Option β'} (h : m = x.map e) (k : ∀ a, x = some a → f (e a) = (g a).map e') : (m >>= f) = (x >>= g).map e' := by
  subst h
  cases x with
  | none => rfl
  | some a => exact k a rfl

theorem sim_assert {β β' : Type} {e' : β → β'} {p q : Prop} [Decidable p] [Decidable q] {g : Unit → Option β} {f : Unit → Option β'}
    (h : p ↔ q) (k : q → f () = (g ()).map e') : (assertP p >>= f) = (assertP q >>= g).map e' := by
  unfold assertP
  by_cases hq : q
  · rw [if_pos hq, if_pos (h.2 hq)]; exact k hq
  · rw [if_neg hq, if_neg (fun c => hq (h.1 c))]; rfl

theorem assert_yes {p : Prop} [Decidable p] (h : p) : assertP p = some () := by unfold assertP; rw [if_pos h]

theorem eq_assert {β : Type} {p q : Prop} [Decidable p] [Decidable q] {g f : Unit → Option β}
    (h : p ↔ q) (k : q → f () = g ()) : (assertP p >>= f) = (assertP q >>= g) := by
  unfold assertP
  by_cases hq : q
  · rw [if_pos hq, if_pos (h.2 hq)]; exact k hq
  · rw [if_neg hq, if_neg (fun c => hq (h.1 c))]; rfl

theorem eq_bind {α β : Type} {x m : Option α} {g f : α → Option β} (h : m = x) (k : ∀ a, x = some a → f a = g a) :
    (m >>= f) = (x >>= g) := by
  subst h
  cases m with
  | none => rfl
  | some a => exact k a rfl

theorem lt_W (a : Word) (n : Nat) (h : n < 2^64) : a < W n ↔ a.toNat < n := by rw [BitVec.lt_def, W_toNat n h]
theorem le_W (a : Word) (n : Nat) (h : n < 2^64) : a ≤ W n ↔ a.toNat ≤ n := by rw [BitVec.le_def, W_toNat n h]
theorem eq_W (a : Word) (n : Nat) (h : n < 2^64) : a = W n ↔ a.toNat = n := by
  rw [← BitVec.toNat_inj, W_toNat n h]

theorem div64 (a : Word) : (a / 64).toNat = a.toNat / 64 := by simp
theorem mod64 (a : Word) : (a % 64).toNat = a.toNat % 64 := by simp
theorem mod64_zero (a : Word) : a % 64 = 0 ↔ a.toNat % 64 = 0 := by rw [← BitVec.toNat_inj, mod64]; simp
theorem sub64 (a : Word) : (64 - a % 64).toNat = 64 - a.toNat % 64 := by
  rw [BitVec.toNat_sub, mod64]
  have := Nat.mod_lt a.toNat (show 0 < 64 by decide)
  rw [show (64 : Word).toNat = 64 from rfl]
  omega
theorem eq64 (a : Word) : a = 64 ↔ a.toNat = 64 := eq_W a 64 (by decide)
theorem eq0 (a : Word) : a = 0 ↔ a.toNat = 0 := eq_W a 0 (by decide)

theorem toNat_add_lt (a b : Word) (h : a.toNat + b.toNat < 2^64) : (a + b).toNat = a.toNat + b.toNat := by
  rw [BitVec.toNat_add, Nat.mod_eq_of_lt h]
theorem toNat_sub_le (a b : Word) (h : b.toNat ≤ a.toNat) : (a - b).toNat = a.toNat - b.toNat := by
  rw [BitVec.toNat_sub]
  have := a.isLt; have := b.isLt
  omega
theorem toNat_mul_lt (a b : Word) (h : a.toNat * b.toNat < 2^64) : (a * b).toNat = a.toNat * b.toNat := by
  rw [BitVec.toNat_mul, Nat.mod_eq_of_lt h]

theorem at_map {α β : Type} (e : α → β) (v : List α) (i : Word) : at_ (v.map e) i = (rd v i.toNat).map e := by
  unfold at_ rd; rw [List.getElem?_map]

theorem rd_lt {α : Type} {v : List α} {i : Nat} {x : α} (h : rd v i = some x) : i < v.length := by
  unfold rd at h
  exact (List.getElem?_eq_some_iff.1 h).1

theorem rd_none {α : Type} {v : List α} {i : Nat} (h : v.length ≤ i) : rd v i = none := List.getElem?_eq_none h

/-! ## `bit_vector` -/

namespace BitVector

/-- the object in memory -/
def enc (v : Succinct.BitVector) : BitVector := ⟨W v.size, v.bits⟩

/-- a bit vector of at most `2^63` bits with as many words as it needs -/
structure Fits (v : Succinct.BitVector) : Prop where
  size : v.size ≤ 2^63
  len : v.bits.length = (v.size + 63) / 64

theorem Fits.of_rep {v : Succinct.BitVector} {l : List Bool} (h : Rep v l) (hl : l.length ≤ 2^63) : Fits v :=
  ⟨by rw [h.size]; exact hl, by rw [h.len, h.size]⟩

theorem access_eq (v : Succinct.BitVector) (h : Fits v) (pos : Word) : access (enc v) pos = v.access pos.toNat := by
  have h1 := h.size; have h2 := h.len
  unfold access Succinct.BitVector.access
  refine eq_assert (lt_W _ _ (by omega)) fun hp => ?_
  simp only []
  refine eq_assert ?_ fun hp => ?_
  · show pos / 64 < W v.bits.length ↔ _
    rw [lt_W _ _ (by omega), div64]
  · show ((rd v.bits (pos / 64).toNat) >>= fun w => shr w (pos % 64).toNat >>= fun s => pure _) = _
    rw [div64, mod64]

theorem getBits_eq (ov : Word → Nat → Word) (v : Succinct.BitVector) (h : Fits v) (pos len : Word) (hlen : len.toNat ≤ 64) :
    getBits ov (enc v) pos len = v.getBits ov pos.toNat len.toNat := by
  have h1 := h.size; have h2 := h.len
  have hp := pos.isLt
  by_cases hov : pos.toNat + len.toNat < 2^64
  · unfold getBits Succinct.BitVector.getBits
    refine eq_assert ?_ fun hp => ?_
    · show pos + len ≤ W v.size ↔ _
      rw [le_W _ _ (by omega), toNat_add_lt _ _ hov]
    · simp only [eq0]
      split
      · rfl
      · have e : pos % 64 + len ≤ 64 ↔ pos.toNat % 64 + len.toNat ≤ 64 := by
          have := Nat.mod_lt pos.toNat (show 0 < 64 by decide)
          rw [show (64 : Word) = W 64 from rfl, le_W _ _ (by decide), toNat_add_lt _ _ (by rw [show W 64 = 64 from rfl, mod64]; omega)]
          rw [show W 64 = 64 from rfl, mod64]
        have b1 : (pos / 64 + 1).toNat = pos.toNat / 64 + 1 := by
          rw [toNat_add_lt _ _ (by rw [div64]; show _ + 1 < _; omega), div64]; rfl
        simp only [e, eq64, at_, enc, div64, mod64, sub64, b1]
        split
        · rfl
        · rfl
  · have e2 : v.getBits ov pos.toNat len.toNat = none := by
      unfold Succinct.BitVector.getBits
      rw [assertP_none (by omega)]; rfl
    rw [e2]
    unfold getBits
    cases assertP (pos + len ≤ (enc v).size) with
    | none => rfl
    | some u =>
      rw [bind_pure_some, if_neg (by rw [eq0]; omega)]
      have hn : at_ (enc v).bits (pos / 64) = none := by
        unfold at_
        rw [div64]
        exact rd_none (by show v.bits.length ≤ _; omega)
      simp only [hn]
      split <;> rfl

theorem getWord_eq (v : Succinct.BitVector) (h : Fits v) (pos : Word) : getWord (enc v) pos = v.getWord pos.toNat := by
  have h1 := h.size; have h2 := h.len
  have hp := pos.isLt
  unfold getWord Succinct.BitVector.getWord
  refine eq_assert (lt_W _ _ (by omega)) fun hp => ?_
  have b1 : (pos / 64 + 1).toNat = pos.toNat / 64 + 1 := by
    rw [toNat_add_lt _ _ (by rw [div64]; show _ + 1 < _; omega), div64]; rfl
  have e : pos / 64 + 1 < vlen v.bits ↔ pos.toNat / 64 + 1 < v.bits.length := by
    unfold vlen
    rw [lt_W _ _ (by omega), b1]
  simp only [eq0, at_, enc, div64, mod64, sub64, b1, e, ne_eq]

theorem predLoop_eq (neg : Bool) (bits : List Word) (hb : bits.length ≤ 2^58) (fuel : Nat) (block word : Word)
    (hf : block.toNat ≤ fuel) (hbl : block.toNat < bits.length) :
    predLoop neg bits fuel block word = (Succinct.BitVector.predLoop neg bits block.toNat word).map W := by
  induction fuel generalizing block word with
  | zero =>
    unfold predLoop Succinct.BitVector.predLoop
    cases hm : msb word with
    | some r =>
      simp only [Option.map_some]
      congr 1
      rw [show block = 0 from (eq0 _).2 (by omega)]; simp
    | none =>
      rw [show block.toNat = 0 by omega]
      simp only [Option.map_none]
      rw [assertP_none (by rw [ne_eq, eq0]; omega)]; rfl
  | succ fuel ih =>
    unfold predLoop Succinct.BitVector.predLoop
    cases hm : msb word with
    | some r =>
      simp only [Option.map_some]
      congr 1
      rw [W, BitVec.ofNat_add, BitVec.ofNat_mul, BitVec.ofNat_toNat, BitVec.setWidth_eq]; rfl
    | none =>
      simp only []
      by_cases h0 : block.toNat = 0
      · rw [h0]
        simp only [Option.map_none]
        rw [assertP_none (by rw [ne_eq, eq0]; omega)]; rfl
      · obtain ⟨k, hk⟩ := Nat.exists_eq_succ_of_ne_zero h0
        have e1 : (block - 1).toNat = k := by
          rw [toNat_sub_le _ _ (by show 1 ≤ _; omega), hk]; rfl
        rw [hk]
        simp only []
        rw [assert_yes (by rw [ne_eq, eq0]; omega), bind_pure_some]
        refine sim_bind (e := id) ?_ fun w hw => ?_
        · unfold at_; rw [e1]; simp
        · have := ih (block - 1) (if neg then ~~~w else w) (by omega) (by omega)
          rw [e1] at this
          exact this

theorem predecessor_eq (neg : Bool) (v : Succinct.BitVector) (h : Fits v) (pos : Word) :
    predecessor neg (enc v) pos = (v.predecessor neg pos.toNat).map W := by
  have h1 := h.size; have h2 := h.len
  unfold predecessor Succinct.BitVector.predecessor
  refine sim_assert (lt_W _ _ (by omega)) fun hp => ?_
  have e : (64 - pos % 64 - 1).toNat = 64 - pos.toNat % 64 - 1 := by
    have := Nat.mod_lt pos.toNat (show 0 < 64 by decide)
    rw [toNat_sub_le _ _ (by rw [sub64]; show 1 ≤ _; omega), sub64]; rfl
  simp only [e]
  refine sim_bind (e := id) (by simp only [at_, enc, div64, Option.map_id_fun, id]) fun w hw => ?_
  refine sim_bind (e := id) (by simp) fun w1 hw1 => ?_
  refine sim_bind (e := id) (by simp) fun w2 hw2 => ?_
  have := predLoop_eq neg v.bits (by omega) v.bits.length (pos / 64) w2 (by rw [div64]; omega) (by rw [div64]; omega)
  rw [div64] at this
  exact this

theorem succLoop_eq (neg : Bool) (bits : List Word) (hb : bits.length ≤ 2^58) (fuel : Nat) (block word : Word)
    (hf : bits.length ≤ fuel + block.toNat + 1) (hbl : block.toNat < bits.length) :
    succLoop neg bits fuel block word = (Succinct.BitVector.succLoop neg (bits.drop (block.toNat + 1)) block.toNat word).map W := by
  induction fuel generalizing block word with
  | zero =>
    unfold succLoop Succinct.BitVector.succLoop
    cases hm : lsb word with
    | some r =>
      simp only [Option.map_some]
      congr 1
      rw [W, BitVec.ofNat_add, BitVec.ofNat_mul, BitVec.ofNat_toNat, BitVec.setWidth_eq]; rfl
    | none =>
      rw [List.drop_eq_nil_of_le (by omega)]
      simp only [Option.map_none]
      cases assertP (block + 1 < vlen bits) <;> rfl
  | succ fuel ih =>
    unfold succLoop Succinct.BitVector.succLoop
    cases hm : lsb word with
    | some r =>
      simp only [Option.map_some]
      congr 1
      rw [W, BitVec.ofNat_add, BitVec.ofNat_mul, BitVec.ofNat_toNat, BitVec.setWidth_eq]; rfl
    | none =>
      have b1 : (block + 1).toNat = block.toNat + 1 := by
        rw [toNat_add_lt _ _ (by show _ + 1 < _; omega)]; rfl
      have e : block + 1 < vlen bits ↔ block.toNat + 1 < bits.length := by
        unfold vlen
        rw [lt_W _ _ (by omega), b1]
      simp only []
      by_cases hn : block.toNat + 1 < bits.length
      · rw [assert_yes (e.2 hn), bind_pure_some, List.drop_eq_getElem_cons hn]
        simp only [at_, b1]
        rw [show rd bits (block.toNat + 1) = some bits[block.toNat + 1] from List.getElem?_eq_getElem hn, bind_pure_some]
        have := ih (block + 1) (if neg then ~~~bits[block.toNat + 1] else bits[block.toNat + 1]) (by omega) (by omega)
        rw [b1] at this
        exact this
      · rw [assertP_none (fun c => hn (e.1 c)), List.drop_eq_nil_of_le (by omega)]
        rfl

theorem successor_eq (neg : Bool) (v : Succinct.BitVector) (h : Fits v) (pos : Word) :
    successor neg (enc v) pos = (v.successor neg pos.toNat).map W := by
  have h1 := h.size; have h2 := h.len
  unfold successor Succinct.BitVector.successor
  refine sim_assert (lt_W _ _ (by omega)) fun hp => ?_
  simp only [mod64]
  refine sim_bind (e := id) (by simp only [at_, enc, div64, Option.map_id_fun, id]) fun w hw => ?_
  refine sim_bind (e := id) (by simp) fun w1 hw1 => ?_
  refine sim_bind (e := id) (by simp) fun w2 hw2 => ?_
  have := succLoop_eq neg v.bits (by omega) v.bits.length (pos / 64) w2 (by rw [div64]; omega) (by rw [div64]; omega)
  rw [div64] at this
  exact this

end BitVector
end Machine
end Succinct
