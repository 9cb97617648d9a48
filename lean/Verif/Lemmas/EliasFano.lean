import Verif.Model.EliasFano
import Verif.Props.Darray
import Verif.Lemmas.Enumerator
import Verif.Lemmas.MsbLsb

/-! Elias-Fano: representation invariant -/
namespace Succinct
open Spec Broadword

/-- the mask of the `l` low bits -/
def maskW (l : Nat) : Word := (1 : Word) <<< l - 1

theorem maskW_bit (l i : Nat) (hl : l < 64) : (maskW l).getLsbD i = decide (i < l) := by
  have h : maskW l = BitVec.ofNat 64 (2^l - 1) := by
    unfold maskW
    apply BitVec.eq_of_toNat_eq
    have h1 : (2:Nat)^l < 2^64 := Nat.pow_lt_pow_right (by omega) hl
    have h2 := Nat.two_pow_pos l
    rw [BitVec.toNat_sub, BitVec.toNat_shiftLeft, BitVec.toNat_ofNat, Nat.shiftLeft_eq]
    rw [show (1 : Word).toNat = 1 from rfl, Nat.one_mul, Nat.mod_eq_of_lt h1, Nat.mod_eq_of_lt (a := 2^l-1) (by omega),
      show 2^64 - 1 + 2^l = (2^l - 1) + 2^64 by omega, Nat.add_mod_right, Nat.mod_eq_of_lt (by omega)]
  rw [h, BitVec.getLsbD_ofNat, Nat.testBit_two_pow_sub_one]
  by_cases h : i < l
  · simp [h]; omega
  · simp [h]

theorem and_maskW_bit (x : Word) (l i : Nat) (hl : l < 64) :
    (x &&& maskW l).getLsbD i = (decide (i < l) && x.getLsbD i) := by
  rw [BitVec.getLsbD_and, maskW_bit l i hl, Bool.and_comm]

theorem and_maskW_toNat (x : Word) (l : Nat) (hl : l < 64) : (x &&& maskW l).toNat = x.toNat % 2^l := by
  apply Nat.eq_of_testBit_eq
  intro i
  rw [BitVec.testBit_toNat, and_maskW_bit x l i hl, Nat.testBit_mod_two_pow, BitVec.testBit_toNat]

theorem lowMask_eq (l : Nat) (hl : l < 64) : EFBuilder.lowMask l = some (maskW l) := by
  unfold EFBuilder.lowMask; rw [shl_eq _ _ hl, bind_pure_some]; rfl

theorem combine_eq (x : Word) (l : Nat) (hl : l < 64) :
    BitVec.ofNat 64 (x.toNat / 2^l) <<< l ||| (x &&& maskW l) = x := by
  apply BitVec.eq_of_getLsbD_eq
  intro i hi
  rw [BitVec.getLsbD_or, and_maskW_bit x l i hl, BitVec.getLsbD_shiftLeft, BitVec.getLsbD_ofNat, Nat.testBit_div_two_pow,
    BitVec.testBit_toNat]
  by_cases h : i < l
  · simp [h]
  · simp [h, hi, show i - l + l = i by omega]; omega

theorem shr_toNat (x : Word) (l : Nat) : (x >>> l).toNat = x.toNat / 2^l := by
  rw [BitVec.toNat_ushiftRight, Nat.shiftRight_eq_div_pow]

/-- `f` has exactly the ones `hs[k] + k`, in this order -/
structure High (f : Nat → Bool) (N : Nat) (hs : List Nat) : Prop where
  one : ∀ k (h : k < hs.length), f (hs[k] + k) = true
  cnt : ∀ k (h : k < hs.length), cnt f (hs[k] + k) = k
  all : Succinct.cnt f N = hs.length

namespace High

theorem nil (N : Nat) : High (fun _ => false) N [] :=
  ⟨by simp, by simp, by rw [cnt_false (fun _ _ => rfl)]; rfl⟩

theorem push {f : Nat → Bool} {N : Nat} {hs : List Nat} (H : High f N hs) (h : Nat) (hge : ∀ x ∈ hs, x ≤ h)
    (hN : h + hs.length < N) (g : Nat → Bool) (hg : ∀ p, g p = if p = h + hs.length then true else f p) :
    High g N (hs ++ [h]) := by
  obtain ⟨h1, h2, h3⟩ := H
  have hlt : ∀ k (hk : k < hs.length), hs[k] + k < h + hs.length := by
    intro k hk; have := hge _ (List.getElem_mem hk); omega
  have hs' : Succinct.cnt f (h + hs.length) = hs.length := by
    have a := cnt_mono f (show h + hs.length ≤ N by omega)
    rcases Nat.eq_zero_or_pos hs.length with h0 | h0
    · omega
    · have b := cnt_lt_of_true (hlt (hs.length - 1) (by omega)) (h1 (hs.length - 1) (by omega))
      have := h2 (hs.length - 1) (by omega)
      omega
  have hgf : ∀ q, q ≤ h + hs.length → Succinct.cnt g q = Succinct.cnt f q := by
    intro q hq; apply cnt_congr; intro i hi; rw [hg, if_neg (by omega)]
  refine ⟨?_, ?_, ?_⟩
  · intro k hk
    rcases Nat.lt_or_ge k hs.length with a | a
    · rw [List.getElem_append_left a, hg]; split
      · rfl
      · exact h1 k a
    · rw [List.getElem_append_right a, hg, if_pos]
      rw [List.length_append, List.length_singleton] at hk
      simp; omega
  · intro k hk
    rcases Nat.lt_or_ge k hs.length with a | a
    · rw [List.getElem_append_left a, hgf _ (Nat.le_of_lt (hlt k a)), h2 k a]
    · rw [List.getElem_append_right a]
      rw [List.length_append, List.length_singleton] at hk
      have : k = hs.length := by omega
      subst this
      simp [hgf _ (Nat.le_refl _), hs']
  · obtain ⟨c, rfl⟩ : ∃ c, N = h + hs.length + (1 + c) := ⟨N - (h + hs.length) - 1, by omega⟩
    have hz := (cnt_eq_iff_false (f := f) (show h + hs.length ≤ h + hs.length + (1+c) by omega)).1 (by omega)
    rw [← Nat.add_assoc, cnt_add, cnt_succ, hgf _ (Nat.le_refl _), hs', hg, if_pos rfl, cnt_false, List.length_append]
    · rfl
    · intro i hi
      rw [hg, if_neg (by omega)]; exact hz _ (by omega) (by omega)

variable {f : Nat → Bool} {N : Nat} {hs : List Nat}

theorem lt_N (H : High f N hs) (k : Nat) (hk : k < hs.length) : hs[k] + k < N := by
  rcases Nat.lt_or_ge (hs[k] + k) N with h | h
  · exact h
  · have := cnt_mono f h
    rw [H.all, H.cnt k hk] at this; omega

/-- every one below `N` is one of those -/
theorem eq_of_one (H : High f N hs) (q : Nat) (hq : q < N) (hf : f q = true) :
    ∃ h : Succinct.cnt f q < hs.length, q = hs[Succinct.cnt f q] + Succinct.cnt f q := by
  have := cnt_lt_of_true hq hf
  rw [H.all] at this
  exact ⟨this, sel_unique hf (H.one _ this) (H.cnt _ this).symm⟩

theorem lt_iff (H : High f N hs) (k : Nat) (hk : k < hs.length) (p : Nat) : hs[k] + k < p ↔ k < Succinct.cnt f p := by
  constructor
  · intro h
    have := cnt_lt_of_true h (H.one k hk)
    rw [H.cnt k hk] at this; exact this
  · intro h
    rcases Nat.lt_or_ge (hs[k]+k) p with a | a
    · exact a
    · have := cnt_mono f a
      rw [H.cnt k hk] at this; omega

/-- zeros before `p` -/
theorem le_of_lt (H : High f N hs) (k : Nat) (hk : k < hs.length) (p : Nat) (h : k < Succinct.cnt f p) :
    hs[k] ≤ p - Succinct.cnt f p := by
  have a := (H.lt_iff k hk p).2 h
  have b := cnt_sub_le f (show hs[k] + k + 1 ≤ p by omega)
  rw [cnt_succ, H.cnt k hk, H.one k hk] at b
  simp at b; omega

theorem lt_of_zero (H : High f N hs) (k : Nat) (hk : k < hs.length) (p : Nat) (hp : f p = false) (h : Succinct.cnt f p ≤ k) :
    p - Succinct.cnt f p < hs[k] := by
  have a : ¬ hs[k] + k < p := by rw [H.lt_iff k hk p]; omega
  have hne : hs[k] + k ≠ p := by intro e; have := H.one k hk; rw [e, hp] at this; simp at this
  have b := cnt_sub_le f (show p + 1 ≤ hs[k] + k by omega)
  rw [cnt_succ, H.cnt k hk, hp] at b
  have := cnt_le f p
  simp at b; omega

end High

theorem flatMap_lowBits_length (xs : List Word) (l : Nat) : (xs.flatMap (lowBits · l)).length = xs.length * l := by
  induction xs with
  | nil => simp
  | cons x xs ih => rw [List.flatMap_cons, List.length_append, ih, lowBits_length, List.length_cons, Nat.succ_mul]; omega

theorem bitFn_flatMap (xs : List Word) (l k i : Nat) (hk : k < xs.length) (hi : i < l) :
    bitFn (xs.flatMap (lowBits · l)) (k * l + i) = xs[k].getLsbD i := by
  induction xs generalizing k with
  | nil => simp at hk
  | cons x xs ih =>
    rw [List.flatMap_cons, bitFn_append, lowBits_length]
    cases k with
    | zero => simp [hi, bitFn_lowBits]
    | succ k =>
      rw [if_neg (by rw [Nat.succ_mul]; omega), show (k+1)*l + i - l = k*l + i by rw [Nat.succ_mul]; omega]
      rw [ih k (by simpa using hk)]; simp

namespace EFBuilder

structure Good (b : EFBuilder) (n : Word) (m l : Nat) (hb : List Bool) (xs : List Word) : Prop where
  hn : b.n = n
  hm : b.m = m
  hl : b.l = l
  pos : b.pos = xs.length
  last : ∀ x, xs.getLast? = some x → b.last = x
  last0 : xs = [] → b.last = 0
  lb : l < 64
  low : Succinct.Inv b.low (xs.flatMap (lowBits · l))
  highInv : Succinct.Inv b.high hb
  len : hb.length = m + 1 + n.toNat / 2^l + 1
  high : High (bitFn hb) hb.length (xs.map fun x => x.toNat / 2^l)
  sorted : xs.Pairwise (· ≤ ·)
  le : ∀ x ∈ xs, x ≤ n
  count : xs.length ≤ m

/-- conditions under which the size of the high part does not wrap -/
def NoWrap (n : Word) (m : Nat) : Prop := m ≤ 2^62 ∧ (m = 0 → n.toNat + 2 < 2^64)

theorem new_good (n : Word) (m : Nat) (h : NoWrap n m) :
    ∃ b l hl, new n m = some b ∧ Good b n m l hl [] := by
  obtain ⟨hm, h0⟩ := h
  have hl : ∃ l, lowLen n m = some l ∧ l < 64 ∧ n.toNat / 2^l ≤ 2^64 - 2 - (m+1) := by
    unfold lowLen
    by_cases hc : m ≠ 0 ∧ n.toNat / m ≠ 0
    · rw [if_pos hc]
      have hq : n.toNat / m < 2^64 := Nat.lt_of_le_of_lt (Nat.div_le_self _ _) n.isLt
      have hne : BitVec.ofNat 64 (n.toNat / m) ≠ 0 := by
        intro e
        have := congrArg BitVec.toNat e
        rw [BitVec.toNat_ofNat, Nat.mod_eq_of_lt hq] at this
        exact hc.2 this
      cases hmsb : msb (BitVec.ofNat 64 (n.toNat / m)) with
      | none => exact absurd ((msb_none _).1 hmsb) hne
      | some i =>
        obtain ⟨i1, i2, i3⟩ := (msb_some _ _).1 hmsb
        refine ⟨i, rfl, i1, ?_⟩
        have hlt : n.toNat / m < 2^(i+1) := by
          apply Nat.lt_pow_two_of_testBit
          intro j hj
          have := i3 j (by omega)
          rw [BitVec.getLsbD_ofNat] at this
          by_cases hj : j < 64
          · simpa [hj] using this
          · apply Nat.testBit_lt_two_pow
            exact Nat.lt_of_lt_of_le hq (Nat.pow_le_pow_right (by omega) (by omega))
        have h2 : n.toNat < 2^i * (2*m) := by
          have := (Nat.div_lt_iff_lt_mul (by omega)).1 hlt
          rw [Nat.pow_succ, Nat.mul_assoc] at this; exact this
        have : n.toNat / 2^i < 2*m := Nat.div_lt_of_lt_mul h2
        omega
    · rw [if_neg hc]
      refine ⟨0, rfl, by omega, ?_⟩
      rw [Nat.pow_zero, Nat.div_one]
      rcases Nat.eq_zero_or_pos m with e | e
      · have := h0 e; omega
      · have : n.toNat / m = 0 := by
          rcases Nat.eq_zero_or_pos (n.toNat / m) with a | a
          · exact a
          · exact absurd ⟨by omega, by omega⟩ hc
        have : n.toNat < m := by
          rcases Nat.div_eq_zero_iff.1 this with a | a <;> omega
        omega
  obtain ⟨l, e, l1, l2⟩ := hl
  obtain ⟨hb, e1, g1⟩ := Builder.new_inv (m + 1 + n.toNat/2^l + 1) false
  obtain ⟨lb, e2, g2⟩ := Builder.new_inv 0 false
  refine ⟨⟨n, m, 0, 0, l, hb, lb⟩, l, List.replicate (m + 1 + n.toNat/2^l + 1) false, ?_, ?_⟩
  · unfold new
    rw [e, bind_pure_some, Nat.shiftRight_eq_div_pow, Nat.mod_eq_of_lt (by omega), e1, bind_pure_some,
      assertP_eq _ l1, bind_pure_some, e2, bind_pure_some]; rfl
  · have hf : bitFn (List.replicate (m + 1 + n.toNat/2^l + 1) false) = fun _ => false := by
      funext p; rw [bitFn_replicate, Bool.and_false]
    exact ⟨rfl, rfl, rfl, rfl, by simp, by simp, l1, g2, g1, by simp, by rw [hf]; exact High.nil _, by simp, by simp, by simp⟩

theorem div_mono (a b : Word) (h : a ≤ b) (l : Nat) : a.toNat / 2^l ≤ b.toNat / 2^l :=
  Nat.div_le_div_right (BitVec.le_def.1 h)

theorem pushBack_good {b : EFBuilder} {n : Word} {m l : Nat} {hl : List Bool} {xs : List Word} (h : Good b n m l hl xs)
    (x : Word) (hx : x ≤ n) (hs : ∀ y ∈ xs, y ≤ x) (hc : xs.length < m) :
    ∃ b' hl', pushBack b x = some b' ∧ Good b' n m l hl' (xs ++ [x]) := by
  have hlast : b.last ≤ x := by
    rcases List.eq_nil_or_concat xs with e | ⟨ys, y, e⟩
    · rw [h.last0 e]; exact BitVec.le_def.2 (Nat.zero_le _)
    · rw [h.last y (by rw [e]; simp)]
      exact hs y (by rw [e]; simp)
  have hlow : ∃ lw, appendLow b x (maskW l) = some lw ∧ Succinct.Inv lw ((xs ++ [x]).flatMap (lowBits · l)) := by
    unfold appendLow
    rw [h.hl, List.flatMap_append, List.flatMap_singleton]
    by_cases h0 : l = 0
    · rw [if_neg (by omega)]
      refine ⟨_, rfl, ?_⟩
      have : lowBits x l = [] := by rw [h0]; rfl
      rw [this, List.append_nil]; exact h.low
    · rw [if_pos h0]
      obtain ⟨s, e, g⟩ := Builder.appendBits_inv b.low _ h.low (x &&& maskW l) l
        ⟨by have := h.lb; omega, by rw [and_maskW_toNat _ _ h.lb]; exact Nat.mod_lt _ (Nat.two_pow_pos l)⟩
      refine ⟨s, e, ?_⟩
      have : lowBits (x &&& maskW l) l = lowBits x l := by
        unfold lowBits
        apply List.map_congr_left
        intro i hi
        rw [and_maskW_bit x l i h.lb, decide_eq_true (List.mem_range.1 hi), Bool.true_and]
      rwa [this] at g
  obtain ⟨lw, e1, g1⟩ := hlow
  have hpos : x.toNat / 2^l + xs.length < hl.length := by
    have := div_mono x n hx l
    rw [h.len]; omega
  obtain ⟨hb, e2, g2⟩ := Builder.set_inv b.high hl h.highInv (x.toNat/2^l + xs.length) true hpos
  refine ⟨{ b with last := x, low := lw, high := hb, pos := b.pos + 1 }, hl.set (x.toNat/2^l + xs.length) true, ?_, ?_⟩
  · unfold pushBack
    rw [assertP_eq _ ⟨hlast, by rw [h.hn]; exact hx⟩, bind_pure_some, h.hl, lowMask_eq _ h.lb, bind_pure_some, e1, bind_pure_some,
      shr_eq _ _ h.lb, bind_pure_some, shr_toNat, h.pos, e2, bind_pure_some, assertP_eq _ (by rw [h.hm]; omega), bind_pure_some]; rfl
  · refine ⟨h.hn, h.hm, h.hl, by simp [h.pos], by simp, by simp, h.lb, g1, g2, by rw [List.length_set]; exact h.len, ?_, ?_, ?_, by simp; omega⟩
    · rw [List.length_set, List.map_append, List.map_singleton]
      apply h.high.push
      · intro y hy
        obtain ⟨z, z1, rfl⟩ := List.mem_map.1 hy
        exact div_mono _ _ (hs z z1) l
      · rw [List.length_map]; exact hpos
      · intro p; rw [bitFn_set _ _ _ hpos, List.length_map]
    · rw [List.pairwise_append]
      exact ⟨h.sorted, by simp, by intro a ha c hc; rw [List.mem_singleton.1 hc]; exact hs a ha⟩
    · intro y hy
      rcases List.mem_append.1 hy with a | a
      · exact h.le y a
      · rw [List.mem_singleton.1 a]; exact hx

theorem fold_good {b : EFBuilder} {n : Word} {m l : Nat} {hl : List Bool} {xs : List Word} (h : Good b n m l hl xs)
    (ys : List Word) (hs : (xs ++ ys).Pairwise (· ≤ ·)) (hle : ∀ y ∈ ys, y ≤ n) (hc : xs.length + ys.length ≤ m) :
    ∃ b' hl', ys.foldlM pushBack b = some b' ∧ Good b' n m l hl' (xs ++ ys) := by
  induction ys generalizing b hl xs with
  | nil => exact ⟨b, hl, rfl, by simpa using h⟩
  | cons y ys ih =>
    rw [List.length_cons] at hc
    obtain ⟨b', hl', e, g⟩ := pushBack_good h y (hle y (by simp))
      (fun z hz => (List.pairwise_append.1 hs).2.2 z hz y (by simp)) (by omega)
    obtain ⟨b2, hl2, e2, g2⟩ := ih g (by simpa using hs) (fun z hz => hle z (by simp [hz])) (by simp; omega)
    refine ⟨b2, hl2, ?_, by simpa using g2⟩
    rw [List.foldlM_cons, e, bind_pure_some, e2]

end EFBuilder
end Succinct
