import Verif.Lemmas.EFList
import Verif.Lemmas.Gamma
import Verif.Lemmas.Nibble
import Verif.Lemmas.BpBuild

/-! # What follows when a constructor succeeds (for C73) -/
namespace Succinct
open Broadword
open RSBitVector (bind_pure_some)

theorem assertP_some {p : Prop} [Decidable p] {u : Unit} (h : assertP p = some u) : p := by
  unfold assertP at h
  by_cases hp : p
  · exact hp
  · rw [if_neg hp] at h; cases h

theorem assertP_none {p : Prop} [Decidable p] (h : ¬ p) : assertP p = none := by unfold assertP; rw [if_neg h]

namespace EFBuilder

theorem pushBack_some {b b' : EFBuilder} {x : Word} (h : b.pushBack x = some b') :
    b.last ≤ x ∧ x ≤ b.n ∧ b.pos + 1 ≤ b.m ∧ b'.last = x ∧ b'.n = b.n ∧ b'.m = b.m ∧ b'.pos = b.pos + 1 := by
  unfold pushBack at h
  simp only [Option.bind_eq_bind, Option.bind_eq_some_iff] at h
  obtain ⟨_, h1, _, _, _, _, _, _, _, _, _, h2, h3⟩ := h
  have h1 := assertP_some h1
  have h2 := assertP_some h2
  cases h3
  exact ⟨h1.1, h1.2, h2, rfl, rfl, rfl, rfl⟩

theorem fold_some : ∀ (xs : List Word) (b b' : EFBuilder), xs.foldlM pushBack b = some b' →
    xs.Pairwise (· ≤ ·) ∧ (∀ x ∈ xs, b.last ≤ x ∧ x ≤ b.n) ∧ (b.pos ≤ b.m → b.pos + xs.length ≤ b.m) := by
  intro xs
  induction xs with
  | nil => intro b b' _; exact ⟨List.Pairwise.nil, fun x hx => absurd hx List.not_mem_nil, fun h => h⟩
  | cons x xs ih =>
    intro b b' h
    rw [List.foldlM_cons, Option.bind_eq_bind, Option.bind_eq_some_iff] at h
    obtain ⟨b1, h1, h2⟩ := h
    obtain ⟨p1, p2, p3, p4, p5, p6, p7⟩ := pushBack_some h1
    obtain ⟨i1, i2, i3⟩ := ih b1 b' h2
    rw [p4, p5] at i2
    rw [p6, p7] at i3
    refine ⟨List.Pairwise.cons (fun y hy => (i2 y hy).1) i1, ?_, fun _ => ?_⟩
    · intro y hy
      rcases List.mem_cons.1 hy with rfl | hy
      · exact ⟨p1, p2⟩
      · refine ⟨?_, (i2 y hy).2⟩
        have := BitVec.le_def.1 p1
        have := BitVec.le_def.1 (i2 y hy).1
        rw [BitVec.le_def]; omega
    · have := i3 p3
      rw [List.length_cons]; omega

theorem new_some {n : Word} {m : Nat} {b : EFBuilder} (h : new n m = some b) :
    b.n = n ∧ b.m = m ∧ b.pos = 0 ∧ b.last = 0 := by
  unfold new at h
  simp only [Option.bind_eq_bind, Option.bind_eq_some_iff] at h
  obtain ⟨_, _, _, _, _, _, _, _, h3⟩ := h
  cases h3
  exact ⟨rfl, rfl, rfl, rfl⟩

end EFBuilder

theorem EliasFano.ofSeq_some {n : Word} {m : Nat} {xs : List Word} {wr : Bool} {ef : EliasFano}
    (h : EliasFano.ofSeq n m xs wr = some ef) : xs.Pairwise (· ≤ ·) ∧ (∀ x ∈ xs, x ≤ n) ∧ xs.length ≤ m := by
  unfold EliasFano.ofSeq at h
  simp only [Option.bind_eq_bind, Option.bind_eq_some_iff] at h
  obtain ⟨b0, h0, b1, h1, _⟩ := h
  obtain ⟨n1, n2, n3, _⟩ := EFBuilder.new_some h0
  obtain ⟨f1, f2, f3⟩ := EFBuilder.fold_some xs b0 b1 h1
  rw [n1] at f2
  rw [n2, n3] at f3
  have := f3 (Nat.zero_le _)
  exact ⟨f1, fun x hx => (f2 x hx).2, by omega⟩

namespace EFList

theorem psums_nowrap : ∀ (xs : List Word) (base : Word), (psums base xs).Pairwise (· ≤ ·) → (∀ y ∈ psums base xs, base ≤ y) →
    base.toNat + (xs.map BitVec.toNat).sum < 2^64 := by
  intro xs
  induction xs with
  | nil => intro base _ _; have := base.isLt; simp; omega
  | cons x xs ih =>
    intro base h1 h2
    have hp : psums base (x :: xs) = (base + x) :: psums (base + x) xs := rfl
    rw [hp] at h1 h2
    obtain ⟨h3, h4⟩ := List.pairwise_cons.1 h1
    have := ih (base + x) h4 h3
    have h5 := BitVec.le_def.1 (h2 _ (List.mem_cons_self ..))
    rw [BitVec.toNat_add] at this h5
    have := base.isLt
    have := x.isLt
    rw [List.map_cons, List.sum_cons]
    by_cases hw : base.toNat + x.toNat < 2^64
    · rw [Nat.mod_eq_of_lt hw] at *; omega
    · omega

theorem build_some {xs : List Word} {v : EFList} (h : build xs = some v) : (xs.map BitVec.toNat).sum < 2^64 - 1 := by
  unfold build at h
  simp only [Option.bind_eq_bind, Option.bind_eq_some_iff] at h
  obtain ⟨b0, h0, b1, h1, _⟩ := h
  rw [pushLoop_eq] at h1
  obtain ⟨n1, n2, n3, n4⟩ := EFBuilder.new_some h0
  obtain ⟨f1, f2, f3⟩ := EFBuilder.fold_some _ b0 b1 h1
  rw [n4, n1] at f2
  have hs := psums_nowrap xs 0 f1 (fun y hy => (f2 y hy).1)
  have h00 : (0 : Word).toNat = 0 := rfl
  rw [h00, Nat.zero_add] at hs
  by_contra hn
  have hsum : (xs.map BitVec.toNat).sum = 2^64 - 1 := by omega
  have hfold := foldl_add_toNat xs 0 (by rw [h00, Nat.zero_add]; exact hs)
  rw [h00, Nat.zero_add] at hfold
  have hne : 0 < xs.length := by
    rcases Nat.eq_zero_or_pos xs.length with h | h
    · rw [List.eq_nil_of_length_eq_zero h] at hsum; simp at hsum
    · exact h
  have hl := psums_length 0 xs
  have hm : (psums 0 xs)[xs.length - 1]'(by omega) ∈ psums 0 xs := List.getElem_mem _
  have h6 := BitVec.le_def.1 (f2 _ hm).2
  rw [psums_toNat 0 xs (by rw [h00, Nat.zero_add]; exact hs) _ (by omega), h00, Nat.zero_add, BitVec.toNat_add, hfold, hsum] at h6
  rw [show xs.length - 1 + 1 = xs.length by omega, List.take_of_length_le (by rw [List.length_map]), hsum] at h6
  have h11 : (1 : Word).toNat = 1 := rfl
  rw [h11] at h6
  omega

end EFList

theorem msb_zero : msb (0 : Word) = none := by decide +kernel
theorem msb1_zero : msb1 (0 : Word) = none := by decide +kernel
theorem msb1_one : msb1 (1 : Word) = some 0 := by decide +kernel

theorem add_one_allOnes (x : Word) (h : x = BitVec.allOnes 64) : x + 1 = 0 := by subst h; decide

theorem EFCompressedList.sizeLoop_some : ∀ (xs : List Word) (s t : Nat), sizeLoop xs s = some t → ∀ x ∈ xs, x ≠ BitVec.allOnes 64 := by
  intro xs
  induction xs with
  | nil => intro s t _ x hx; exact absurd hx List.not_mem_nil
  | cons y ys ih =>
    intro s t h x hx
    unfold sizeLoop at h
    rw [Option.bind_eq_bind, Option.bind_eq_some_iff] at h
    obtain ⟨l, h1, h2⟩ := h
    rcases List.mem_cons.1 hx with rfl | hx
    · intro he
      rw [add_one_allOnes x he, msb_zero] at h1; cases h1
    · exact ih _ _ h2 x hx

theorem EFCompressedList.build_some {xs : List Word} {v : EFCompressedList} (h : build xs = some v) : ∀ x ∈ xs, x ≠ BitVec.allOnes 64 := by
  unfold build at h
  rw [Option.bind_eq_bind, Option.bind_eq_some_iff] at h
  obtain ⟨s, h1, _⟩ := h
  exact sizeLoop_some xs 0 s h1

theorem GammaVector.loop_some : ∀ (xs : List Word) (a : Darray64Builder) (b : Builder) (r : Darray64Builder × Builder), loop xs a b = some r →
    ∀ x ∈ xs, x ≠ BitVec.allOnes 64 := by
  intro xs
  induction xs with
  | nil => intro a b r _ x hx; exact absurd hx List.not_mem_nil
  | cons y ys ih =>
    intro a b r h x hx
    unfold loop at h
    simp only [Option.bind_eq_bind, Option.bind_eq_some_iff] at h
    obtain ⟨l, h1, _, _, _, _, _, _, h2⟩ := h
    rcases List.mem_cons.1 hx with rfl | hx
    · intro he
      rw [add_one_allOnes x he, msb1_zero] at h1; cases h1
    · exact ih _ _ _ h2 x hx

theorem GammaVector.build_some {xs : List Word} {v : GammaVec} (h : build xs = some v) : ∀ x ∈ xs, x ≠ BitVec.allOnes 64 := by
  unfold build at h
  simp only [Option.bind_eq_bind, Option.bind_eq_some_iff] at h
  obtain ⟨_, _, _, _, _, _, r, h1, _⟩ := h
  exact loop_some xs _ _ r h1

theorem GammaBitVector.loop_some : ∀ (xs : List Word) (a : Darray64Builder) (b : Builder) (r : Darray64Builder × Builder), loop xs a b = some r →
    ∀ x ∈ xs, x.toNat < 2^64 - 2 := by
  intro xs
  induction xs with
  | nil => intro a b r _ x hx; exact absurd hx List.not_mem_nil
  | cons y ys ih =>
    intro a b r h x hx
    unfold loop at h
    simp only [Option.bind_eq_bind, Option.bind_eq_some_iff] at h
    obtain ⟨l, h1, _, h3, _, _, _, _, _, _, h2⟩ := h
    have h3 := assertP_some h3
    rcases List.mem_cons.1 hx with rfl | hx
    · by_contra hn
      have hlt := x.isLt
      by_cases hc : x.toNat = 2^64 - 2
      · have : x + 2 = 0 := by
          apply BitVec.eq_of_toNat_eq
          rw [BitVec.toNat_add, hc]; rfl
        rw [this, msb1_zero] at h1; cases h1
      · have : x + 2 = 1 := by
          apply BitVec.eq_of_toNat_eq
          rw [BitVec.toNat_add, show x.toNat = 2^64 - 1 by omega]; rfl
        rw [this, msb1_one] at h1; cases h1
        omega
    · exact ih _ _ _ h2 x hx

theorem GammaBitVector.build_some {xs : List Word} {v : GammaVec} (h : build xs = some v) : ∀ x ∈ xs, x.toNat < 2^64 - 2 := by
  unfold build at h
  simp only [Option.bind_eq_bind, Option.bind_eq_some_iff] at h
  obtain ⟨_, _, _, _, _, _, r, h1, _⟩ := h
  exact loop_some xs _ _ r h1

theorem NibbleVector.fold_some : ∀ (xs : List Nat) (s t : NibbleVector.St), xs.foldlM step s = some t → ∀ x ∈ xs, x < 16 := by
  intro xs
  induction xs with
  | nil => intro s t _ x hx; exact absurd hx List.not_mem_nil
  | cons y ys ih =>
    intro s t h x hx
    rw [List.foldlM_cons, Option.bind_eq_bind, Option.bind_eq_some_iff] at h
    obtain ⟨s1, h1, h2⟩ := h
    rcases List.mem_cons.1 hx with rfl | hx
    · unfold step at h1
      rw [Option.bind_eq_bind, Option.bind_eq_some_iff] at h1
      obtain ⟨_, h3, _⟩ := h1
      exact assertP_some h3
    · exact ih _ _ h2 x hx

theorem NibbleVector.build_some {xs : List Nat} {v : NibbleVector} (h : build xs = some v) : ∀ x ∈ xs, x < 16 := by
  unfold build at h
  rw [Option.bind_eq_bind, Option.bind_eq_some_iff] at h
  obtain ⟨s, h1, _⟩ := h
  exact fold_some xs _ s h1

namespace BpVector

theorem i32_some {x y : Int} (h : i32 x = some y) : y = x := by
  unfold i32 at h
  split at h
  · cases h; rfl
  · cases h

theorem superMinLoop_le (mins : List Int) (se : Int) : ∀ (k b : Nat) (cur r : Int), superMinLoop mins se k b cur = some r →
    r ≤ cur ∧ ∀ c m, b ≤ c → c < b + k → mins[c]? = some m → r ≤ se + m := by
  intro k
  induction k with
  | zero => intro b cur r h; cases h; exact ⟨Int.le_refl _, fun c m h1 h2 => by omega⟩
  | succ k ih =>
    intro b cur r h
    unfold superMinLoop at h
    simp only [Option.bind_eq_bind, Option.bind_eq_some_iff] at h
    obtain ⟨m, h1, e, h2, h3⟩ := h
    have he := i32_some h2
    obtain ⟨i1, i2⟩ := ih _ _ _ h3
    refine ⟨by omega, fun c m' hc1 hc2 hm => ?_⟩
    by_cases hcb : c = b
    · subst hcb
      unfold rd at h1
      rw [hm] at h1; cases h1
      omega
    · exact i2 c m' (by omega) (by omega) hm

theorem leavesLoop_some (rs : RSBitVector) (mins : List Int) (nb : Nat) : ∀ (k s : Nat) (acc r : List Int),
    leavesLoop rs mins nb k s acc = some r → ∀ t, s ≤ t → t < s + k → ∃ x, leafMin rs mins nb t = some x := by
  intro k
  induction k with
  | zero => intro s acc r _ t h1 h2; omega
  | succ k ih =>
    intro s acc r h t h1 h2
    unfold leavesLoop at h
    rw [Option.bind_eq_bind, Option.bind_eq_some_iff] at h
    obtain ⟨x, h3, h4⟩ := h
    by_cases hts : t = s
    · subst hts; exact ⟨x, h3⟩
    · exact ih _ _ _ h4 t (by omega) (by omega)

theorem blockExcess_some {rs : RSBitVector} {l : List Bool} (h : RSBitVector.Inv rs l) (hlen : l.length < 2147483584) (b : Nat)
    (hb : 256*b ≤ l.length) {e : Int} (he : blockExcess rs b = some e) : e = exc l (256*b) ∧ 0 ≤ e := by
  have hnb := RSBitVector.nblocks_ge h
  unfold blockExcess at he
  simp only [] at he
  rw [RSBitVector.subBlockRank_eq h.tab (b*4) (by omega), bind_pure_some] at he
  have e1 : (2 * ((cnt (bitFn l) (64*(b*4)) : Nat) : Int) - (b*4*64 : Nat)) = exc l (256*b) := by
    unfold exc excF; rw [show 64*(b*4) = 256*b by omega]; push_cast; omega
  have h1 := excF_le (bitFn l) (256*b)
  have h2 : -((256*b : Nat) : Int) ≤ exc l (256*b) := by unfold exc excF; omega
  simp only [e1] at he
  rw [toI32_eq _ (by omega) (by simp only [exc]; omega), Option.bind_eq_bind, Option.bind_eq_some_iff] at he
  obtain ⟨_, h3, h4⟩ := he
  have h3 := assertP_some h3
  cases h4
  exact ⟨rfl, h3⟩

theorem build_some {l : List Bool} {a b : Bool} {v : BpVector} (hlen : l.length < 2147483584)
    (h : build (BitVector.ofRange l) a b = some v) : ∀ p, p ≤ l.length → 0 ≤ exc l p := by
  unfold build at h
  obtain ⟨rs, e, hbv, hi⟩ := RSBitVector.build_inv l a b
  rw [e, bind_pure_some] at h
  unfold buildMinTree at h
  have hsz : rs.bv.size = l.length := hi.rep.size
  by_cases h0 : l.length = 0
  · intro p hp
    rw [show p = 0 by omega]
    exact Int.le_of_eq (excF_zero _).symm
  rw [if_neg (by omega)] at h
  have hw : rs.bv.bits.length = (l.length+63)/64 := hi.rep.len
  obtain ⟨mins, e1, hb⟩ := blockMins_spec (E := exc l) rs.bv.bits l.length hw (by
    rw [show wbit rs.bv.bits = bitFn l from funext hi.rep.repr.bit]) (by omega)
  rw [hsz, e1, bind_pure_some] at h
  simp only [Option.bind_eq_bind, Option.bind_eq_some_iff] at h
  obtain ⟨_, _, N, _, leaves, h2, _⟩ := h
  intro p hp
  have hnb : (rs.bv.bits.length + 4 - 1)/4 = (l.length + 255)/256 := by omega
  rw [hnb] at h2
  let c := if p = 0 then 0 else (p-1)/256
  have hc : 256*c ≤ p ∧ p ≤ 256*(c+1) ∧ c < (l.length+255)/256 := by
    show 256 * (if p = 0 then 0 else (p-1)/256) ≤ p ∧ p ≤ 256*((if p = 0 then 0 else (p-1)/256)+1) ∧ (if p = 0 then 0 else (p-1)/256) < _
    split <;> omega
  generalize c = c at hc
  obtain ⟨x, h3⟩ := leavesLoop_some _ _ _ _ _ _ _ h2 (c/32) (by omega) (by omega)
  unfold leafMin at h3
  simp only [Option.bind_eq_bind, Option.bind_eq_some_iff] at h3
  obtain ⟨se, g1, r, g2, _, g3, _⟩ := h3
  have g3 := assertP_some g3
  obtain ⟨g4, g5⟩ := blockExcess_some hi hlen _ (by omega) g1
  obtain ⟨m, g6, g7⟩ := hb.ok c hc.2.2
  have g8 := (superMinLoop_le _ _ _ _ _ _ g2).2 c m (by omega) (by omega) g6
  have g9 := (g7 (exc l p)).2 ⟨p, hc.1, by omega, Int.le_refl _⟩
  rw [show 256*(c/32*32) = 8192*(c/32) by omega] at g4
  omega

end BpVector
end Succinct
