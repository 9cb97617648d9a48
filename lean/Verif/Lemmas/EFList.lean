import Verif.Lemmas.EliasFanoE

/-! `elias_fano_list`, `elias_fano_compressed_list` -/
namespace Succinct
open Spec Broadword

namespace EFList

def psums (base : Word) : List Word → List Word
  | [] => []
  | x :: xs => (base + x) :: psums (base + x) xs

theorem psums_length (base : Word) (xs : List Word) : (psums base xs).length = xs.length := by
  induction xs generalizing base with
  | nil => rfl
  | cons x xs ih => simp [psums, ih]

theorem pushLoop_eq (xs : List Word) (base : Word) (b : EFBuilder) :
    pushLoop xs base b = (psums base xs).foldlM EFBuilder.pushBack b := by
  induction xs generalizing base b with
  | nil => rfl
  | cons x xs ih =>
    unfold pushLoop psums
    rw [List.foldlM_cons]
    simp only []
    congr 1
    funext b'
    exact ih _ _

theorem psums_zero (base : Word) (xs : List Word) (h : 0 < xs.length) :
    (psums base xs)[0]'(by rw [psums_length]; exact h) = base + xs[0] := by
  cases xs with
  | nil => simp at h
  | cons x xs => rfl

theorem psums_succ (base : Word) (xs : List Word) (k : Nat) (h : k + 1 < xs.length) :
    (psums base xs)[k+1]'(by rw [psums_length]; exact h) = (psums base xs)[k]'(by rw [psums_length]; omega) + xs[k+1] := by
  induction xs generalizing base k with
  | nil => simp at h
  | cons x xs ih =>
    simp only [psums, List.getElem_cons_succ]
    cases k with
    | zero =>
      rw [psums_zero _ _ (by simpa using h)]; rfl
    | succ k => rw [ih _ k (by simpa using h)]; rfl

theorem psums_toNat (base : Word) (xs : List Word) (hs : base.toNat + (xs.map BitVec.toNat).sum < 2^64) (k : Nat) (hk : k < xs.length) :
    ((psums base xs)[k]'(by rw [psums_length]; exact hk)).toNat = base.toNat + ((xs.map BitVec.toNat).take (k+1)).sum := by
  induction xs generalizing base k with
  | nil => simp at hk
  | cons x xs ih =>
    rw [List.map_cons, List.sum_cons] at hs
    have hb : (base + x).toNat = base.toNat + x.toNat := by rw [BitVec.toNat_add, Nat.mod_eq_of_lt (by omega)]
    simp only [psums, List.map_cons, List.take_succ_cons, List.sum_cons]
    cases k with
    | zero => simp only [List.getElem_cons_zero, hb]; simp
    | succ k =>
      rw [List.getElem_cons_succ, ih _ (by rw [hb]; omega) k (by simpa using hk), hb]; omega

theorem foldl_add_toNat (xs : List Word) (b : Word) (hs : b.toNat + (xs.map BitVec.toNat).sum < 2^64) :
    (xs.foldl (· + ·) b).toNat = b.toNat + (xs.map BitVec.toNat).sum := by
  induction xs generalizing b with
  | nil => simp
  | cons x xs ih =>
    rw [List.map_cons, List.sum_cons] at hs ⊢
    have hb : (b + x).toNat = b.toNat + x.toNat := by rw [BitVec.toNat_add, Nat.mod_eq_of_lt (by omega)]
    rw [List.foldl_cons, ih _ (by rw [hb]; omega), hb]; omega

theorem sum_take_mono (xs : List Nat) (i j : Nat) (h : i ≤ j) : (xs.take i).sum ≤ (xs.take j).sum := by
  obtain ⟨d, rfl⟩ : ∃ d, j = i + d := ⟨j - i, by omega⟩
  rw [List.take_add, List.sum_append]; omega

theorem sum_take_le (xs : List Nat) (i : Nat) : (xs.take i).sum ≤ xs.sum := by
  have := List.take_append_drop i xs
  have h := congrArg List.sum this
  rw [List.sum_append] at h; omega

theorem build_good (xs : List Word) (hs : (xs.map BitVec.toNat).sum < 2^64 - 1) (hl : xs.length ≤ 2^62) :
    ∃ v hb, build xs = some v ∧ v.ef.Good (xs.foldl (· + ·) 0 + 1) (psums 0 xs) hb := by
  have hz : (0 : Word).toNat = 0 := rfl
  have hfold := foldl_add_toNat xs 0 (by rw [hz]; omega)
  have hp := fun k hk => psums_toNat 0 xs (by rw [hz]; omega) k hk
  rw [hz, Nat.zero_add] at hfold
  have hn : (xs.foldl (· + ·) 0 + 1 : Word).toNat = (xs.map BitVec.toNat).sum + 1 := by
    rw [BitVec.toNat_add, hfold, show (1 : Word).toNat = 1 from rfl, Nat.mod_eq_of_lt (by omega)]
  obtain ⟨b0, ll, hb0, e0, g0⟩ := EFBuilder.new_good (xs.foldl (· + ·) 0 + 1) xs.length ⟨hl, by
    intro h; have := List.eq_nil_of_length_eq_zero h; subst this; decide⟩
  obtain ⟨b1, hb1, e1, g1⟩ := EFBuilder.fold_good g0 (psums 0 xs) (by
      rw [List.nil_append, List.pairwise_iff_getElem]
      intro i j hi hj hij
      rw [psums_length] at hi hj
      apply BitVec.le_def.2
      rw [hp i hi, hp j hj]
      have := sum_take_mono (xs.map BitVec.toNat) (i+1) (j+1) (by omega)
      omega)
    (by
      intro y hy
      obtain ⟨k, hk, rfl⟩ := List.getElem_of_mem hy
      rw [psums_length] at hk
      apply BitVec.le_def.2
      rw [hp k hk, hn, hz]
      have := sum_take_le (xs.map BitVec.toNat) (k+1)
      omega)
    (by rw [psums_length]; simp)
  rw [List.nil_append] at g1
  obtain ⟨ef, e2, g2, _⟩ := EliasFano.build_good g1 false
  refine ⟨⟨ef⟩, hb1, ?_, g2⟩
  unfold build
  simp only []
  rw [e0, bind_pure_some, pushLoop_eq, e1, bind_pure_some, e2, bind_pure_some]; rfl

theorem get_eq (ov : Word → Nat → Word) (xs : List Word) (v : EFList) (hb : List Bool) (n : Word) (h : v.ef.Good n (psums 0 xs) hb) (i : Nat)
    (hi : i < xs.length) : get ov v i = some xs[i] := by
  unfold get
  have hl := psums_length 0 xs
  cases i with
  | zero =>
    rw [EliasFano.delta_zero ov h (by omega), psums_zero 0 xs hi]
    congr 1; exact BitVec.zero_add _
  | succ k =>
    rw [EliasFano.delta_succ ov h k (by omega), psums_succ 0 xs k hi]
    congr 1; rw [BitVec.add_comm, BitVec.add_sub_cancel]

end EFList

theorem bitFn_flatMap_code {α : Type} (xs : List α) (c : α → List Bool) (k t : Nat) (hk : k < xs.length)
    (ht : t < (c xs[k]).length) :
    bitFn (xs.flatMap c) (((xs.take k).flatMap c).length + t) = bitFn (c xs[k]) t := by
  induction xs generalizing k with
  | nil => simp at hk
  | cons x xs ih =>
    rw [List.flatMap_cons, bitFn_append]
    cases k with
    | zero => simp only [List.take_zero, List.flatMap_nil, List.length_nil, Nat.zero_add, List.getElem_cons_zero] at ht ⊢; rw [if_pos ht]
    | succ k =>
      rw [List.take_succ_cons, List.flatMap_cons, List.length_append, if_neg (by omega),
        show (c x).length + ((xs.take k).flatMap c).length + t - (c x).length = ((xs.take k).flatMap c).length + t by omega]
      exact ih k (by simpa using hk) (by simpa using ht)

theorem flatMap_take_succ {α : Type} (xs : List α) (c : α → List Bool) (k : Nat) (hk : k < xs.length) :
    ((xs.take (k+1)).flatMap c).length = ((xs.take k).flatMap c).length + (c xs[k]).length := by
  rw [List.take_succ_eq_append_getElem hk, List.flatMap_append, List.length_append, List.flatMap_singleton]

/-- the code of a value without its leading one -/
def tailBits (l : Nat) (val : Word) : List Bool := lowBits (val ^^^ ((1 : Word) <<< l)) l

theorem one_shl_bit (l i : Nat) (hl : l < 64) : ((1 : Word) <<< l).getLsbD i = decide (i = l) := by
  rw [BitVec.getLsbD_shiftLeft, show (1 : Word) = 1#64 from rfl, BitVec.getLsbD_one]
  by_cases h : i = l
  · subst h; simp [hl]
  · by_cases h2 : i < l
    · simp [h, h2]
    · simp [h]; omega

theorem tail_fits (val : Word) (l : Nat) (h : IsMsb val l) : Fits (val ^^^ ((1 : Word) <<< l)) l := by
  obtain ⟨h1, h2, h3⟩ := h
  refine ⟨by omega, ?_⟩
  apply Nat.lt_pow_two_of_testBit
  intro j hj
  rw [BitVec.testBit_toNat, BitVec.getLsbD_xor, one_shl_bit _ _ h1]
  rcases Nat.eq_or_lt_of_le hj with e | e
  · subst e; simp [h2]
  · rw [h3 j e]; simp; omega

/-- the leading one and the tail give the value back -/
theorem tail_back (val : Word) (l : Nat) (h : IsMsb val l) (x : Word)
    (hx : ∀ i, x.getLsbD i = (decide (i < l) && bitFn (tailBits l val) i)) : (1 : Word) <<< l ||| x = val := by
  obtain ⟨h1, h2, h3⟩ := h
  apply BitVec.eq_of_getLsbD_eq
  intro i hi
  rw [BitVec.getLsbD_or, hx, one_shl_bit _ _ h1]
  unfold tailBits
  rw [bitFn_lowBits, BitVec.getLsbD_xor, one_shl_bit _ _ h1]
  rcases Nat.lt_trichotomy i l with a | a | a
  · simp [a, show i ≠ l by omega]
  · subst a; simp [h2]
  · rw [h3 i a]; simp; omega

theorem msb_succ (x : Word) (hx : x ≠ BitVec.allOnes 64) : ∃ l, msb (x + 1) = some l ∧ IsMsb (x+1) l := by
  cases h : msb (x+1) with
  | none =>
    have := (msb_none _).1 h
    exact absurd (by
      apply BitVec.eq_of_toNat_eq
      have h1 := congrArg BitVec.toNat this
      rw [BitVec.toNat_add, show (1 : Word).toNat = 1 from rfl, show (0 : Word).toNat = 0 from rfl] at h1
      rw [BitVec.toNat_allOnes]
      have := x.isLt
      omega) hx
  | some l =>
    obtain ⟨h1, h2, h3⟩ := (msb_some _ _).1 h
    refine ⟨l, rfl, h1, h2, fun j hj => ?_⟩
    by_cases hj' : j < 64
    · exact h3 j hj hj'
    · exact BitVec.getLsbD_of_ge _ _ (by omega)

namespace EFCompressedList

/-- length of the code of `x` -/
def clen (x : Word) : Nat := (msb (x + 1)).getD 0

def code (x : Word) : List Bool := tailBits (clen x) (x + 1)

theorem clen_spec (x : Word) (hx : x ≠ BitVec.allOnes 64) : msb (x+1) = some (clen x) ∧ IsMsb (x+1) (clen x) := by
  obtain ⟨l, e, h⟩ := msb_succ x hx
  unfold clen; rw [e]; exact ⟨rfl, h⟩

theorem code_length (x : Word) : (code x).length = clen x := by simp [code, tailBits]

theorem sizeLoop_eq (xs : List Word) (hx : ∀ x ∈ xs, x ≠ BitVec.allOnes 64) (s : Nat) :
    sizeLoop xs s = some (s + (xs.flatMap code).length) := by
  induction xs generalizing s with
  | nil => rfl
  | cons x xs ih =>
    unfold sizeLoop
    rw [(clen_spec x (hx x (by simp))).1, bind_pure_some, ih (fun y hy => hx y (by simp [hy])), List.flatMap_cons, List.length_append,
      code_length, Nat.add_assoc]

/-- offsets after each value -/
def offs (base : Nat) : List Word → List Word
  | [] => []
  | x :: xs => BitVec.ofNat 64 (base + clen x) :: offs (base + clen x) xs

theorem offs_length (base : Nat) (xs : List Word) : (offs base xs).length = xs.length := by
  induction xs generalizing base with
  | nil => rfl
  | cons x xs ih => simp [offs, ih]

theorem offs_get (base : Nat) (xs : List Word) (k : Nat) (hk : k < xs.length) :
    (offs base xs)[k]'(by rw [offs_length]; exact hk) = BitVec.ofNat 64 (base + ((xs.take (k+1)).flatMap code).length) := by
  induction xs generalizing base k with
  | nil => simp at hk
  | cons x xs ih =>
    simp only [offs, List.take_succ_cons, List.flatMap_cons, List.length_append, code_length]
    cases k with
    | zero => simp
    | succ k => rw [List.getElem_cons_succ, ih _ k (by simpa using hk), Nat.add_assoc]

theorem pushLoop_eq (xs : List Word) (hx : ∀ x ∈ xs, x ≠ BitVec.allOnes 64) (bits : Builder) (l : List Bool) (hi : Succinct.Inv bits l)
    (b : EFBuilder) : ∃ bits', Succinct.Inv bits' (l ++ xs.flatMap code) ∧
      pushLoop xs bits b = ((offs l.length xs).foldlM EFBuilder.pushBack b).map fun b' => (bits', b') := by
  induction xs generalizing bits l b with
  | nil => exact ⟨bits, by simpa using hi, rfl⟩
  | cons x xs ih =>
    obtain ⟨e, hm⟩ := clen_spec x (hx x (by simp))
    obtain ⟨b1, e1, i1⟩ := Builder.appendBits_inv bits l hi _ (clen x) (tail_fits _ _ hm)
    have hlen : b1.size = l.length + clen x := by rw [i1.size]; simp
    unfold pushLoop
    simp only []
    rw [e, bind_pure_some, shl_eq _ _ hm.1, bind_pure_some, e1, bind_pure_some, hlen]
    simp only [offs, List.foldlM_cons]
    cases hp : EFBuilder.pushBack b (BitVec.ofNat 64 (l.length + clen x)) with
    | none =>
      obtain ⟨b2, h2, _⟩ := ih (fun y hy => hx y (by simp [hy])) b1 _ i1 b
      exact ⟨b2, by rw [List.flatMap_cons, ← List.append_assoc]; exact h2, rfl⟩
    | some b' =>
      obtain ⟨b2, h2, h3⟩ := ih (fun y hy => hx y (by simp [hy])) b1 _ i1 b'
      refine ⟨b2, by rw [List.flatMap_cons, ← List.append_assoc]; exact h2, ?_⟩
      rw [bind_pure_some, bind_pure_some, h3, List.length_append, lowBits_length]

theorem clen_lt (x : Word) : clen x < 64 := by
  unfold clen
  cases h : msb (x+1) with
  | none => simp
  | some l => exact ((msb_some _ _).1 h).1

theorem total_le (xs : List Word) : (xs.flatMap code).length ≤ 63 * xs.length := by
  induction xs with
  | nil => simp
  | cons x xs ih =>
    have := clen_lt x
    rw [List.flatMap_cons, List.length_append, code_length, List.length_cons]; omega

theorem take_total_mono (xs : List Word) (i j : Nat) (h : i ≤ j) :
    ((xs.take i).flatMap code).length ≤ ((xs.take j).flatMap code).length := by
  obtain ⟨d, rfl⟩ : ∃ d, j = i + d := ⟨j - i, by omega⟩
  rw [List.take_add, List.flatMap_append, List.length_append]; omega

theorem take_total_le (xs : List Word) (i : Nat) : ((xs.take i).flatMap code).length ≤ (xs.flatMap code).length := by
  have := List.take_append_drop i xs
  have h := congrArg (fun ys => (ys.flatMap code).length) this
  simp only [List.flatMap_append, List.length_append] at h; omega

/-- all stored offsets -/
theorem allOffs_get (xs : List Word) (k : Nat) (hk : k < (0#64 :: offs 0 xs).length) :
    (0#64 :: offs 0 xs)[k] = BitVec.ofNat 64 ((xs.take k).flatMap code).length := by
  cases k with
  | zero => rfl
  | succ k =>
    rw [List.getElem_cons_succ, offs_get _ _ _ (by simpa [offs_length] using hk), Nat.zero_add]

theorem build_good (xs : List Word) (hx : ∀ x ∈ xs, x ≠ BitVec.allOnes 64) (hl : xs.length < 2^57) :
    ∃ v hb n, build xs = some v ∧ v.ef.Good n (0#64 :: offs 0 xs) hb ∧ Rep v.bits (xs.flatMap code) := by
  have ht := total_le xs
  have hn : (BitVec.ofNat 64 (xs.flatMap code).length + 1).toNat = (xs.flatMap code).length + 1 := by
    rw [BitVec.toNat_add, BitVec.toNat_ofNat, show (1 : Word).toNat = 1 from rfl, Nat.mod_eq_of_lt (a := (xs.flatMap code).length) (by omega),
      Nat.mod_eq_of_lt (by omega)]
  have hv : ∀ k (hk : k < (0#64 :: offs 0 xs).length), (0#64 :: offs 0 xs)[k].toNat = ((xs.take k).flatMap code).length := by
    intro k hk
    have := take_total_le xs k
    rw [allOffs_get, BitVec.toNat_ofNat, Nat.mod_eq_of_lt (by omega)]
  obtain ⟨b0, ll, hb0, e0, g0⟩ := EFBuilder.new_good (BitVec.ofNat 64 (xs.flatMap code).length + 1) (xs.length + 1) ⟨by omega, by omega⟩
  obtain ⟨bb, eb, ib⟩ := Builder.new_inv 0 false
  obtain ⟨b1, hb1, e1, g1⟩ := EFBuilder.fold_good g0 (0#64 :: offs 0 xs) (by
      rw [List.nil_append, List.pairwise_iff_getElem]
      intro i j hi hj hij
      apply BitVec.le_def.2
      rw [hv i hi, hv j hj]
      exact take_total_mono xs i j (by omega))
    (by
      intro y hy
      obtain ⟨k, hk, rfl⟩ := List.getElem_of_mem hy
      apply BitVec.le_def.2
      rw [hv k hk, hn]
      have := take_total_le xs k
      omega)
    (by simp [offs_length])
  rw [List.nil_append] at g1
  rw [List.foldlM_cons] at e1
  cases hp : EFBuilder.pushBack b0 0#64 with
  | none => rw [hp] at e1; simp at e1
  | some b' =>
    rw [hp, bind_pure_some] at e1
    obtain ⟨b2, h2, h3⟩ := pushLoop_eq xs hx bb _ ib b'
    obtain ⟨ef, e4, g4, _⟩ := EliasFano.build_good g1 false
    rw [List.replicate_zero, List.nil_append] at h2
    rw [List.replicate_zero, List.length_nil, e1] at h3
    obtain ⟨v, ev, rv⟩ := BitVector.ofBuilder_rep _ _ h2
    refine ⟨⟨ef, v⟩, hb1, _, ?_, g4, rv⟩
    unfold build
    rw [sizeLoop_eq xs hx, bind_pure_some, Nat.zero_add, e0, bind_pure_some, eb, bind_pure_some, ib.size]
    have : BitVec.ofNat 64 (List.replicate 0 false).length = 0#64 := rfl
    rw [this, hp, bind_pure_some, h3, Option.map_some, bind_pure_some]
    simp only []
    rw [e4, bind_pure_some, ev, bind_pure_some]; rfl

theorem get_eq (ov : Word → Nat → Word) (xs : List Word) (hx : ∀ x ∈ xs, x ≠ BitVec.allOnes 64) (hl : xs.length < 2^57)
    (v : EFCompressedList) (n : Word) (hb : List Bool) (h : v.ef.Good n (0#64 :: offs 0 xs) hb) (hr : Rep v.bits (xs.flatMap code))
    (i : Nat) (hi : i < xs.length) : get ov v i = some xs[i] := by
  have ht := total_le xs
  have hlen : (0#64 :: offs 0 xs).length = xs.length + 1 := by simp [offs_length]
  have hv : ∀ k (hk : k < (0#64 :: offs 0 xs).length), (0#64 :: offs 0 xs)[k].toNat = ((xs.take k).flatMap code).length := by
    intro k hk
    have := take_total_le xs k
    rw [allOffs_get, BitVec.toNat_ofNat, Nat.mod_eq_of_lt (by omega)]
  obtain ⟨e, hm⟩ := clen_spec xs[i] (hx _ (List.getElem_mem hi))
  have hs := flatMap_take_succ xs code i hi
  rw [code_length] at hs
  have hsub : ((0#64 :: offs 0 xs)[i+1]'(by omega) - (0#64 :: offs 0 xs)[i]'(by omega)).toNat = clen xs[i] := by
    rw [BitVec.toNat_sub, hv, hv, hs]
    have := take_total_le xs i
    have := clen_lt xs[i]
    omega
  have hle := take_total_le xs (i+1)
  obtain ⟨x, ex, bx⟩ := BitVector.getBits_eq ov hr ((xs.take i).flatMap code).length (clen xs[i]) (by have := hm.1; omega) (by omega)
  unfold get
  rw [EliasFano.selectRange_eq ov h i (by omega), bind_pure_some]
  simp only []
  rw [hsub, shl_eq _ _ hm.1, bind_pure_some, hv, ex, bind_pure_some, tail_back (xs[i] + 1) (clen xs[i]) hm x, BitVec.add_sub_cancel]
  · rfl
  · intro t
    rw [bx]
    by_cases htl : t < clen xs[i]
    · rw [bitFn_flatMap_code xs code i t hi (by rw [code_length]; exact htl)]; rfl
    · simp [htl]

end EFCompressedList
end Succinct
