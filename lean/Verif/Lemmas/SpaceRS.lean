import Verif.Lemmas.SpaceEF
import Verif.Lemmas.BpBuild

/-! Sizes of the parts of `rs_bit_vector` and `bp_vector`. -/
namespace Succinct
open Spec Broadword

namespace RSBitVector

theorem HintsOK.shape {R : Nat → Nat} {nb : Nat} {H : List Nat} (h : HintsOK R nb H) (hmono : ∀ i j, i ≤ j → R i ≤ R j) :
    H.length = max 1 ((R nb + 1023)/1024) ∧ ∀ x ∈ H, x ≤ nb := by
  obtain ⟨m, hl, hj, hm, hR⟩ := h
  refine ⟨?_, ?_⟩
  · rcases Nat.eq_zero_or_pos m with h0 | h0
    · subst h0; omega
    · obtain ⟨i, _, h2, _, h4⟩ := hj (m-1) (by omega)
      have := hmono (i+1) nb (by omega)
      omega
  · intro x hx
    obtain ⟨j, hjl, rfl⟩ := List.getElem_of_mem hx
    rcases Nat.lt_or_ge j m with h | h
    · obtain ⟨i, h1, h2, _⟩ := hj j h
      rw [List.getElem?_eq_getElem hjl] at h1
      simp only [Option.some.injEq] at h1; omega
    · have : j = m := by omega
      subst this
      rw [List.getElem?_eq_getElem hjl] at hm
      simp only [Option.some.injEq] at hm; omega

theorem Table.entries {f : Nat → Bool} {nb : Nat} {pairs : List Nat} (h : Table f nb pairs) (M : Nat) (hM : 2^63 ≤ M)
    (hc : ∀ i, i ≤ nb → cnt f (512*i) < M) : ∀ x ∈ pairs, x < M := by
  intro x hx
  obtain ⟨j, hj, rfl⟩ := List.getElem_of_mem hx
  have hl := h.len
  rcases Nat.mod_two_eq_zero_or_one j with e | e
  · have h1 := h.rank (j/2) (by omega)
    rw [show 2*(j/2) = j by omega, List.getElem?_eq_getElem hj] at h1
    simp only [Option.some.injEq] at h1
    have := hc (j/2) (by omega); omega
  · have h1 := h.sub (j/2) (by omega)
    rw [show 2*(j/2)+1 = j by omega, List.getElem?_eq_getElem hj] at h1
    simp only [Option.some.injEq] at h1
    have := subs_lt f (j/2) 7 (by omega)
    omega

/-- the shape of an `rs_bit_vector` -/
structure Shape (v : RSBitVector) (l : List Bool) (a b : Bool) : Prop where
  bv : v.bv = BitVector.ofRange l
  pairs : v.pairs.length = 2 * ((l.length + 511)/512) + 2
  pairsB : ∀ x ∈ v.pairs, x < 2^63 + l.length
  hints : v.hints.length = if a then max 1 ((l.count true + 1023)/1024) else 0
  hintsB : ∀ x ∈ v.hints, x ≤ l.length
  hints0 : v.hints0.length = if b then max 1 ((512 * ((l.length + 511)/512) - l.count true + 1023)/1024) else 0
  hints0B : ∀ x ∈ v.hints0, x ≤ l.length

theorem cnt_past {l : List Bool} {n : Nat} (h : l.length ≤ n) : cnt (bitFn l) n = l.count true := by
  rw [count_eq_cnt]
  have := (cnt_eq_iff_false (f := bitFn l) h).2 (by
    intro i h1 h2
    rcases Bool.eq_false_or_eq_true (bitFn l i) with e | e
    · have := bitFn_lt _ _ e; omega
    · exact e)
  omega

theorem build_shape {l : List Bool} {a b : Bool} {v : RSBitVector} (h : build (BitVector.ofRange l) a b = some v) : Shape v l a b := by
  obtain ⟨v', e, hbv, hi⟩ := build_inv l a b
  rw [h] at e; cases e
  have hw := hi.rep.len
  have hnb : nblocks v.bv.bits = (l.length + 511)/512 := by unfold nblocks; omega
  have ht := hi.tab
  rw [hnb] at ht
  have hone : v.hints = [] ↔ a = false := by
    unfold build at h
    simp only [Option.bind_eq_bind, Option.bind_eq_some_iff, Option.pure_def] at h
    obtain ⟨nb, _, h⟩ := h
    cases a <;> cases b <;> simp only [Bool.false_eq_true, if_false, if_true, Option.bind_some, Option.bind_eq_some_iff, Option.some.injEq] at h
    · subst h; simp
    · obtain ⟨_, _, rfl⟩ := h; simp
    · obtain ⟨h1, e1, rfl⟩ := h
      unfold buildHints at e1
      simp only [Option.bind_eq_bind, Option.bind_eq_some_iff, Option.pure_def, Option.some.injEq] at e1
      obtain ⟨_, _, rfl⟩ := e1; simp
    · obtain ⟨h1, e1, h0, e0, rfl⟩ := h
      unfold buildHints at e1
      simp only [Option.bind_eq_bind, Option.bind_eq_some_iff, Option.pure_def, Option.some.injEq] at e1
      obtain ⟨_, _, rfl⟩ := e1; simp
  have hzero : v.hints0 = [] ↔ b = false := by
    unfold build at h
    simp only [Option.bind_eq_bind, Option.bind_eq_some_iff, Option.pure_def] at h
    obtain ⟨nb, _, h⟩ := h
    cases a <;> cases b <;> simp only [Bool.false_eq_true, if_false, if_true, Option.bind_some, Option.bind_eq_some_iff, Option.some.injEq] at h
    · subst h; simp
    · obtain ⟨h0, e0, rfl⟩ := h
      unfold buildHints at e0
      simp only [Option.bind_eq_bind, Option.bind_eq_some_iff, Option.pure_def, Option.some.injEq] at e0
      obtain ⟨_, _, rfl⟩ := e0; simp
    · obtain ⟨h1, e1, rfl⟩ := h; simp
    · obtain ⟨h1, e1, h0, e0, rfl⟩ := h
      unfold buildHints at e0
      simp only [Option.bind_eq_bind, Option.bind_eq_some_iff, Option.pure_def, Option.some.injEq] at e0
      obtain ⟨_, _, rfl⟩ := e0; simp
  have H1 : v.hints.length = (if a then max 1 ((l.count true + 1023)/1024) else 0) ∧ ∀ x ∈ v.hints, x ≤ l.length := by
    rcases hi.h1 with e | e
    · rw [e, hone.1 e]; simp
    · have hne : ¬ a = false := by
        intro h; have := hone.2 h; obtain ⟨m, hm, _⟩ := e; rw [this] at hm; simp at hm
      have ha : a = true := by simpa using hne
      obtain ⟨s1, s2⟩ := e.shape (fun i j hij => cnt_mono _ (by omega))
      rw [hnb, cnt_past (by omega)] at s1
      rw [ha, if_pos rfl]
      exact ⟨s1, fun x hx => by have := s2 x hx; omega⟩
  have H0 : v.hints0.length = (if b then max 1 ((512 * ((l.length + 511)/512) - l.count true + 1023)/1024) else 0) ∧ ∀ x ∈ v.hints0, x ≤ l.length := by
    rcases hi.h0 with e | e
    · rw [e, hzero.1 e]; simp
    · have hne : ¬ b = false := by
        intro h; have := hzero.2 h; obtain ⟨m, hm, _⟩ := e; rw [this] at hm; simp at hm
      have hb : b = true := by simpa using hne
      obtain ⟨s1, s2⟩ := e.shape (fun i j hij => cnt_mono _ (by omega))
      have hz := cnt_not (bitFn l) (512 * ((l.length + 511)/512))
      rw [cnt_past (by omega)] at hz
      rw [hnb, hz] at s1
      rw [hb, if_pos rfl]
      exact ⟨s1, fun x hx => by have := s2 x hx; omega⟩
  refine ⟨hbv, ht.len, ?_, H1.1, H1.2, H0.1, H0.2⟩
  apply ht.entries _ (by omega)
  intro i hi
  have h1 := cnt_mono (bitFn l) (show 512*i ≤ 512*((l.length+511)/512) by omega)
  rw [cnt_past (n := 512*((l.length+511)/512)) (by omega)] at h1
  have h2 := List.count_le_length (a := true) (l := l)
  omega

end RSBitVector

namespace BpVector

theorem flushMin_some {mins mins' : List Int} {m : Int} (h : flushMin mins m = some mins') :
    mins' = mins ++ [m] ∧ -2^15 ≤ m ∧ m < 2^15 := by
  unfold flushMin assertP at h
  split at h
  · next h1 =>
    simp only [bind_pure_some] at h
    split at h
    · next h2 =>
      simp only [bind_pure_some, Option.pure_def, Option.some.injEq] at h
      exact ⟨h.symm, by omega, by omega⟩
    · simp at h
  · simp at h

theorem blockLoop_range (nW size : Nat) : ∀ (ws : List Word) (o : Nat) (st st' : BlockState), blockLoop nW size ws o st = some st' →
    (∀ x ∈ st.mins, -2^15 ≤ x ∧ x < 2^15) → ∀ x ∈ st'.mins, -2^15 ≤ x ∧ x < 2^15
  | [], o, st, st', h, hs => by
    simp only [blockLoop, Option.some.injEq] at h; subst h; exact hs
  | w :: ws, o, st, st', h, hs => by
    unfold blockLoop at h
    simp only [Option.bind_eq_bind, Option.bind_eq_some_iff] at h
    obtain ⟨s1, e1, h⟩ := h
    apply blockLoop_range nW size ws _ _ st' h
    simp only []
    unfold blockStart at e1
    split at e1
    · simp only [] at e1
      split at e1
      · simp only [Option.bind_eq_bind, Option.bind_eq_some_iff, Option.pure_def, Option.some.injEq] at e1
        obtain ⟨mins, em, rfl⟩ := e1
        obtain ⟨rfl, r1, r2⟩ := flushMin_some em
        intro x hx
        rcases List.mem_append.1 hx with hx | hx
        · exact hs x hx
        · rw [List.mem_singleton] at hx; subst hx; exact ⟨r1, r2⟩
      · simp only [Option.some.injEq] at e1; subst e1; exact hs
    · simp only [Option.some.injEq] at e1; subst e1; exact hs

theorem blockMins_range {bits : List Word} {size : Nat} {mins : List Int} (h : blockMins bits size = some mins) :
    ∀ x ∈ mins, -2^15 ≤ x ∧ x < 2^15 := by
  unfold blockMins at h
  simp only [Option.bind_eq_bind, Option.bind_eq_some_iff] at h
  obtain ⟨st, e, h⟩ := h
  obtain ⟨rfl, r1, r2⟩ := flushMin_some h
  have := blockLoop_range _ _ bits 0 _ st e (by simp)
  intro x hx
  rcases List.mem_append.1 hx with hx | hx
  · exact this x hx
  · rw [List.mem_singleton] at hx; subst hx; exact ⟨r1, r2⟩

theorem toI32_range (x : Int) : -2^31 ≤ toI32 x ∧ toI32 x < 2^31 := by
  unfold toI32
  have h1 := Int.le_bmod (x := x) (m := 2^32) (by decide)
  have h2 := Int.bmod_lt (x := x) (m := 2^32) (by decide)
  constructor <;> omega

theorem leavesLoop_range (rs : RSBitVector) (mins : List Int) (nB : Nat) : ∀ (k s : Nat) (acc r : List Int),
    leavesLoop rs mins nB k s acc = some r → (∀ x ∈ acc, -2^31 ≤ x ∧ x < 2^31) →
    r.length = acc.length + k ∧ ∀ x ∈ r, -2^31 ≤ x ∧ x < 2^31
  | 0, s, acc, r, h, ha => by
    simp only [leavesLoop, Option.some.injEq] at h; subst h; exact ⟨rfl, ha⟩
  | k+1, s, acc, r, h, ha => by
    unfold leavesLoop at h
    simp only [Option.bind_eq_bind, Option.bind_eq_some_iff] at h
    obtain ⟨x, ex, h⟩ := h
    have hx : -2^31 ≤ x ∧ x < 2^31 := by
      unfold leafMin at ex
      simp only [Option.bind_eq_bind, Option.bind_eq_some_iff, Option.pure_def, Option.some.injEq] at ex
      obtain ⟨_, _, cur, _, u, hu, rfl⟩ := ex
      unfold assertP at hu
      split at hu
      · next hc => have := toI32_range rs.bv.size; omega
      · simp at hu
    obtain ⟨h1, h2⟩ := leavesLoop_range rs mins nB k (s+1) (acc ++ [x]) r h (by
      intro y hy
      rcases List.mem_append.1 hy with hy | hy
      · exact ha y hy
      · rw [List.mem_singleton] at hy; subst hy; exact hx)
    exact ⟨by rw [h1, List.length_append, List.length_singleton]; omega, h2⟩

theorem treeLoop_range : ∀ (k : Nat) (t r : List Int), treeLoop k t = some r → (∀ x ∈ t, -2^31 ≤ x ∧ x < 2^31) →
    r.length = t.length ∧ ∀ x ∈ r, -2^31 ≤ x ∧ x < 2^31
  | 0, t, r, h, ht => by
    simp only [treeLoop, Option.some.injEq] at h; subst h; exact ⟨rfl, ht⟩
  | k+1, t, r, h, ht => by
    unfold treeLoop at h
    simp only [Option.bind_eq_bind, Option.bind_eq_some_iff] at h
    obtain ⟨a, ea, b, eb, t1, e1, h⟩ := h
    have ha := ht a (List.mem_of_getElem? ea)
    have hb := ht b (List.mem_of_getElem? eb)
    have hl := Builder.wr_length e1
    obtain ⟨h1, h2⟩ := treeLoop_range k t1 r h (by
      unfold wr at e1
      split at e1
      · simp only [Option.some.injEq] at e1; subst e1
        intro x hx
        rcases List.mem_or_eq_of_mem_set hx with hx | hx
        · exact ht x hx
        · subst hx; omega
      · simp at e1)
    exact ⟨by rw [h1, hl], h2⟩

theorem completeLeaves_lt (n : Nat) : ∀ (fuel c r : Nat), completeLeaves n fuel c = some r → (c < 2*n ∨ c = 1) → r < 2*n ∨ r = 1 := by
  intro fuel
  induction fuel with
  | zero =>
    intro c r h hc
    unfold completeLeaves at h
    split at h
    · simp at h
    · simp only [Option.some.injEq] at h; subst h; exact hc
  | succ fuel ih =>
    intro c r h hc
    unfold completeLeaves at h
    split at h
    · next hlt => exact ih (c*2) r h (by omega)
    · simp only [Option.some.injEq] at h; subst h; exact hc

/-- the shape of the minima of a `bp_vector` -/
structure Shape (v : BpVector) (rs : RSBitVector) : Prop where
  rsEq : v.rs = rs
  bl : v.blockMin.length = (rs.bv.bits.length + 3)/4 ∨ (rs.bv.size = 0 ∧ v.blockMin.length = 0)
  blk : ∀ x ∈ v.blockMin, -2^15 ≤ x ∧ x < 2^15
  sl : v.superMin.length = v.internalNodes + (rs.bv.bits.length + 127)/128 ∨ (rs.bv.size = 0 ∧ v.superMin.length = 0)
  sup : ∀ x ∈ v.superMin, -2^31 ≤ x ∧ x < 2^31
  int : v.internalNodes ≤ max 1 (2 * ((rs.bv.bits.length + 127)/128) - 1)

theorem buildMinTree_shape {rs : RSBitVector} {v : BpVector} (h : buildMinTree rs = some v) : Shape v rs := by
  unfold buildMinTree at h
  split at h
  · next h0 =>
    simp only [Option.pure_def, Option.some.injEq] at h; subst h
    exact ⟨rfl, Or.inr ⟨h0, rfl⟩, by simp, Or.inr ⟨h0, rfl⟩, by simp, by simp⟩
  · simp only [Option.bind_eq_bind, Option.bind_eq_some_iff, Option.pure_def, Option.some.injEq] at h
    obtain ⟨mins, em, u, hu, int, ei, leaves, el, tree, et, rfl⟩ := h
    have hml : (rs.bv.bits.length + 4 - 1)/4 = mins.length := by unfold assertP at hu; split at hu; assumption; simp at hu
    obtain ⟨l1, l2⟩ := leavesLoop_range _ _ _ _ _ _ _ el (by simp)
    obtain ⟨t1, t2⟩ := treeLoop_range _ _ _ et (by
      intro x hx
      rcases List.mem_append.1 hx with hx | hx
      · rw [List.mem_replicate] at hx; rw [hx.2]; exact toI32_range _
      · exact l2 x hx)
    have hi := completeLeaves_lt _ _ _ _ ei (Or.inr rfl)
    rw [List.length_append, List.length_replicate, l1, List.length_nil] at t1
    exact ⟨rfl, Or.inl (by simp only []; omega), blockMins_range em, Or.inl (by simp only []; omega), t2, by simp only []; omega⟩

end BpVector
end Succinct
