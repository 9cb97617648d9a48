import Verif.Model.Size32
import Verif.Lemmas.Contract
import Verif.Lemmas.SpaceEF
import Verif.Lemmas.SpaceGamma
import Verif.Lemmas.RSBitVector

/-! # Construction with a `size_t` of 32 bits (for C119) -/
namespace Succinct
open Broadword Spec
open RSBitVector (bind_pure_some)

theorem toSize32_toNat (x : Word) : (toSize32 x).toNat = x.toNat % 2^32 := by
  unfold toSize32
  rw [BitVec.toNat_ofNat]; omega

theorem toSize32_id {x : Word} (h : x.toNat < 2^32) : toSize32 x = x := by
  apply BitVec.eq_of_toNat_eq
  rw [toSize32_toNat, Nat.mod_eq_of_lt h]

theorem toSize32_add (a x : Word) : toSize32 (a + toSize32 x) = toSize32 (a + x) := by
  apply BitVec.eq_of_toNat_eq
  rw [toSize32_toNat, toSize32_toNat, BitVec.toNat_add, BitVec.toNat_add, toSize32_toNat]
  omega

namespace BitVector

/-- the vector with its size cut to 32 bits -/
def cut (v : BitVector) : BitVector := ⟨v.size % 2^32, v.bits⟩

theorem cut_id {v : BitVector} (h : v.size < 2^32) : v.cut = v := by
  unfold cut; rw [Nat.mod_eq_of_lt h]

theorem ofBuilder32_eq (b : Builder) : ofBuilder32 b = (ofBuilder b).map cut := by
  unfold ofBuilder32 ofBuilder
  by_cases h : wordsFor b.size = b.bits.length
  · rw [assertP_eq _ h]; rfl
  · rw [assertP_none h]; rfl

theorem ofBuilder32_small {b : Builder} (h : b.size < 2^32) : ofBuilder32 b = ofBuilder b := by
  unfold ofBuilder32 ofBuilder
  rw [Nat.mod_eq_of_lt h]

theorem rangeLoop32_eq : ∀ (l : List Bool) (bits : List Word) (n m : Nat) (mask cur : Word), m = n % 2^32 →
    rangeLoop32 l bits m mask cur = ((rangeLoop l bits n mask cur).1, (rangeLoop l bits n mask cur).2.1 % 2^32,
      (rangeLoop l bits n mask cur).2.2.1, (rangeLoop l bits n mask cur).2.2.2)
  | [], bits, n, m, mask, cur, h => by subst h; rfl
  | x :: l, bits, n, m, mask, cur, h => by
    subst h
    unfold rangeLoop32 rangeLoop
    simp only []
    split
    · exact rangeLoop32_eq l _ (n+1) _ _ _ (by omega)
    · exact rangeLoop32_eq l _ (n+1) _ _ _ (by omega)

theorem ofRange32_eq (l : List Bool) : ofRange32 l = (ofRange l).cut := by
  unfold ofRange32 ofRange
  rw [rangeLoop32_eq l [] 0 0 1 0 rfl]
  simp only []
  split <;> rfl

end BitVector

theorem RSBitVector.build_cut {v : BitVector} {a b : Bool} {r : RSBitVector} (h : build v a b = some r) :
    build v.cut a b = some { r with bv := v.cut } := by
  unfold build at h ⊢
  simp only [] at h ⊢
  rw [Option.bind_eq_bind, Option.bind_eq_some_iff] at h
  obtain ⟨nb, e1, h⟩ := h
  rw [show v.cut.bits = v.bits from rfl, e1, bind_pure_some]
  generalize buildHints (blockRank (buildPairs v.bits)) nb = A at h ⊢
  generalize buildHints (blockRank0 (buildPairs v.bits)) nb = B at h ⊢
  cases a <;> cases b <;> cases A <;> cases B <;> first | (cases h; rfl) | cases h

namespace EliasFano

theorem build32_small {b : EFBuilder} {wr : Bool} (h1 : b.high.size < 2^32) (h2 : b.low.size < 2^32) : build32 b wr = build b wr := by
  unfold build32 build
  rw [BitVector.ofBuilder32_small h1, BitVector.ofBuilder32_small h2]

theorem build_sizes {b : EFBuilder} {wr : Bool} {ef : EliasFano} (h : build b wr = some ef) :
    ef.high.size = b.high.size ∧ ef.low.size = b.low.size := by
  unfold build at h
  simp only [Option.bind_eq_bind, Option.bind_eq_some_iff, Option.pure_def, Option.some.injEq] at h
  obtain ⟨hv, e1, _, _, h⟩ := h
  have h' : ∃ lv d1 d0, BitVector.ofBuilder b.low = some lv ∧ ef = ⟨b.n, hv, d1, d0, lv, b.l⟩ := by
    cases wr with
    | true =>
      simp only [if_true, Option.bind_eq_some_iff, Option.some.injEq] at h
      obtain ⟨_, _, lv, e, rfl⟩ := h
      exact ⟨lv, _, _, e, rfl⟩
    | false =>
      simp only [Bool.false_eq_true, if_false, Option.bind_some, Option.bind_eq_some_iff, Option.some.injEq] at h
      obtain ⟨lv, e, rfl⟩ := h
      exact ⟨lv, _, _, e, rfl⟩
  obtain ⟨lv, d1, d0, e2, rfl⟩ := h'
  unfold BitVector.ofBuilder at e1 e2
  simp only [Option.bind_eq_bind, Option.bind_eq_some_iff, Option.pure_def, Option.some.injEq] at e1 e2
  obtain ⟨_, _, rfl⟩ := e1
  obtain ⟨_, _, rfl⟩ := e2
  exact ⟨rfl, rfl⟩

theorem ofSeq32_eq (n : Word) (m : Nat) (xs : List Word) (wr : Bool) (ef : EliasFano) (e : ofSeq n m xs wr = some ef) (hm : 0 < m) (hm2 : m < 2^26) :
    ofSeq32 n m xs wr = some ef := by
  have hsh := ofSeq_shape e
  unfold ofSeq at e
  simp only [Option.bind_eq_bind, Option.bind_eq_some_iff] at e
  obtain ⟨b0, e0, b1, e1, e2⟩ := e
  obtain ⟨z1, z2⟩ := build_sizes e2
  have h1 := EFBuilder.lowLen_high hsh.hl hm
  have h2 := hsh.high
  rw [Nat.mod_eq_of_lt (by omega)] at h2
  have h3 := hsh.low
  have h4 := hsh.l64
  have h5 := hsh.cnt
  have : xs.length * ef.l ≤ xs.length * 63 := Nat.mul_le_mul_left _ (by omega)
  unfold ofSeq32
  rw [e0, bind_pure_some, e1, bind_pure_some, build32_small (by omega) (by omega), e2]

end EliasFano

namespace EFList

/-- the values `cur_base` takes -/
def psums32 (base : Word) : List Word → List Word
  | [] => []
  | x :: xs => toSize32 (base + x) :: psums32 (toSize32 (base + x)) xs

theorem pushLoop32_eq (xs : List Word) (base : Word) (b : EFBuilder) :
    pushLoop32 xs base b = (psums32 base xs).foldlM EFBuilder.pushBack b := by
  induction xs generalizing base b with
  | nil => rfl
  | cons x xs ih =>
    unfold pushLoop32 psums32
    rw [List.foldlM_cons]
    simp only []
    congr 1
    funext b'
    exact ih _ _

/-- sum of the values modulo `2^32` -/
def total32 (xs : List Word) : Nat := (xs.map fun x => x.toNat % 2^32).sum

theorem total32_cons (x : Word) (xs : List Word) : total32 (x :: xs) = x.toNat % 2^32 + total32 xs := rfl

theorem psums32_length (base : Word) (xs : List Word) : (psums32 base xs).length = xs.length := by
  induction xs generalizing base with
  | nil => rfl
  | cons x xs ih => simp [psums32, ih]

theorem psums32_eq : ∀ (xs : List Word) (base : Word), base.toNat + total32 xs < 2^32 →
    psums32 base xs = psums base (xs.map toSize32)
  | [], _, _ => rfl
  | x :: xs, base, h => by
    rw [total32_cons] at h
    have e : toSize32 (base + x) = base + toSize32 x := by
      rw [← toSize32_add]
      apply toSize32_id
      rw [BitVec.toNat_add, toSize32_toNat]; omega
    unfold psums32
    rw [List.map_cons]
    unfold psums
    rw [e, psums32_eq xs (base + toSize32 x) (by rw [BitVec.toNat_add, toSize32_toNat]; omega)]

theorem foldl32_eq : ∀ (xs : List Word) (base : Word), base.toNat + total32 xs < 2^32 →
    xs.foldl (fun s x => toSize32 (s + x)) base = (xs.map toSize32).foldl (· + ·) base
  | [], _, _ => rfl
  | x :: xs, base, h => by
    rw [total32_cons] at h
    have e : toSize32 (base + x) = base + toSize32 x := by
      rw [← toSize32_add]
      apply toSize32_id
      rw [BitVec.toNat_add, toSize32_toNat]; omega
    rw [List.map_cons, List.foldl_cons, List.foldl_cons, e]
    exact foldl32_eq xs (base + toSize32 x) (by rw [BitVec.toNat_add, toSize32_toNat]; omega)

theorem total32_map (xs : List Word) : ((xs.map toSize32).map BitVec.toNat).sum = total32 xs := by
  unfold total32
  rw [List.map_map]
  congr 1
  apply List.map_congr_left
  intro x _
  exact toSize32_toNat x

theorem psums32_nowrap : ∀ (xs : List Word) (base : Word), base.toNat < 2^32 → (psums32 base xs).Pairwise (· ≤ ·) →
    (∀ y ∈ psums32 base xs, base ≤ y) → base.toNat + total32 xs < 2^32
  | [], base, hb, _, _ => by simp only [total32, List.map_nil, List.sum_nil]; omega
  | x :: xs, base, hb, h1, h2 => by
    have hp : psums32 base (x :: xs) = toSize32 (base + x) :: psums32 (toSize32 (base + x)) xs := rfl
    rw [hp] at h1 h2
    obtain ⟨h3, h4⟩ := List.pairwise_cons.1 h1
    have := psums32_nowrap xs _ (by rw [toSize32_toNat]; omega) h4 h3
    have h5 := BitVec.le_def.1 (h2 _ (List.mem_cons_self ..))
    rw [toSize32_toNat, BitVec.toNat_add] at this h5
    rw [total32_cons]
    omega

theorem build32_some {xs : List Word} {v : EFList} (h : build32 xs = some v) : total32 xs < 2^32 - 1 := by
  unfold build32 at h
  simp only [Option.bind_eq_bind, Option.bind_eq_some_iff] at h
  obtain ⟨b0, h0, b1, h1, _⟩ := h
  rw [pushLoop32_eq] at h1
  obtain ⟨n1, n2, n3, n4⟩ := EFBuilder.new_some h0
  obtain ⟨f1, f2, f3⟩ := EFBuilder.fold_some _ b0 b1 h1
  rw [n4, n1] at f2
  have h00 : (0 : Word).toNat = 0 := rfl
  have hs := psums32_nowrap xs 0 (by rw [h00]; decide) f1 (fun y hy => (f2 y hy).1)
  rw [h00, Nat.zero_add] at hs
  by_contra hn
  have hsum : total32 xs = 2^32 - 1 := by omega
  have hm := total32_map xs
  rw [psums32_eq xs 0 (by rw [h00]; omega), foldl32_eq xs 0 (by rw [h00]; omega)] at f2
  have hl := psums_length 0 (xs.map toSize32)
  rw [List.length_map] at hl
  have hfold := foldl_add_toNat (xs.map toSize32) 0 (by rw [h00, hm]; omega)
  rw [h00, Nat.zero_add, hm] at hfold
  have hne : 0 < xs.length := by
    rcases Nat.eq_zero_or_pos xs.length with h | h
    · rw [List.eq_nil_of_length_eq_zero h] at hsum; simp [total32] at hsum
    · exact h
  have hmem : (psums 0 (xs.map toSize32))[xs.length - 1]'(by omega) ∈ psums 0 (xs.map toSize32) := List.getElem_mem _
  have h6 := BitVec.le_def.1 (f2 _ hmem).2
  rw [psums_toNat 0 (xs.map toSize32) (by rw [h00, Nat.zero_add, hm]; omega) _ (by rw [List.length_map]; omega), h00, Nat.zero_add,
    toSize32_toNat, BitVec.toNat_add, hfold, hsum] at h6
  rw [show xs.length - 1 + 1 = xs.length by omega, List.take_of_length_le (by rw [List.length_map, List.length_map]),
    hm, hsum] at h6
  have h11 : (1 : Word).toNat = 1 := rfl
  rw [h11] at h6
  omega

theorem build32_eq (xs : List Word) (hs : total32 xs < 2^32 - 1) (hl : xs.length < 2^26) : build32 xs = build (xs.map toSize32) := by
  have h00 : (0 : Word).toNat = 0 := rfl
  have hm := total32_map xs
  obtain ⟨v, hb, e, _⟩ := build_good (xs.map toSize32) (by omega) (by rw [List.length_map]; omega)
  have hsh := build_shape e
  have hfold := foldl_add_toNat (xs.map toSize32) 0 (by rw [h00, hm]; omega)
  rw [h00, Nat.zero_add, hm] at hfold
  have hn : ((xs.map toSize32).foldl (· + ·) 0 + 1 : Word).toNat = total32 xs + 1 := by
    rw [BitVec.toNat_add, hfold, show (1 : Word).toNat = 1 from rfl, Nat.mod_eq_of_lt (by omega)]
  rw [e]
  unfold build at e
  simp only [Option.bind_eq_bind, Option.bind_eq_some_iff, Option.pure_def, Option.some.injEq] at e
  obtain ⟨b0, e0, b1, e1, ef, e2, rfl⟩ := e
  obtain ⟨z1, z2⟩ := EliasFano.build_sizes e2
  have hhi : b1.high.size < 2^32 := by
    rw [← z1, hsh.high, List.length_map]
    have hmod := Nat.mod_le (xs.length + 2 + (List.foldl (· + ·) (0 : Word) (xs.map toSize32) + 1).toNat / 2^ef.l) (2^64)
    refine Nat.lt_of_le_of_lt hmod ?_
    rcases Nat.eq_zero_or_pos xs.length with h | h
    · have hx := List.eq_nil_of_length_eq_zero h
      have hd := Nat.div_le_self (List.foldl (· + ·) (0 : Word) (xs.map toSize32) + 1).toNat (2^ef.l)
      have : total32 xs = 0 := by rw [hx]; rfl
      omega
    · have := EFBuilder.lowLen_high hsh.hl (by rw [List.length_map]; exact h)
      rw [List.length_map] at this
      simp only [] at this ⊢
      omega
  have hlo : b1.low.size < 2^32 := by
    rw [← z2, hsh.low, List.length_map]
    have h64 : ef.l < 64 := hsh.l64
    show xs.length * ef.l < 2^32
    have : xs.length * ef.l ≤ xs.length * 63 := Nat.mul_le_mul_left _ (by omega)
    omega
  unfold build32
  simp only []
  rw [pushLoop_eq] at e1
  rw [foldl32_eq xs 0 (by rw [h00]; omega), toSize32_id (by omega)]
  rw [List.length_map] at e0
  rw [e0, bind_pure_some, pushLoop32_eq, psums32_eq xs 0 (by rw [h00]; omega), e1, bind_pure_some,
    EliasFano.build32_small hhi hlo, e2, bind_pure_some]
  rfl

end EFList

namespace EFCompressedList

/-- the value whose code the second loop stores for `x` -/
def kept (x : Word) : Word := toSize32 (x + 1) - 1

theorem kept_add (x : Word) : kept x + 1 = toSize32 (x + 1) := by
  unfold kept; exact BitVec.sub_add_cancel _ _

theorem pushLoop32_eq : ∀ (xs : List Word) (bits : Builder) (b : EFBuilder), pushLoop32 xs bits b = pushLoop (xs.map kept) bits b
  | [], _, _ => rfl
  | x :: xs, bits, b => by
    unfold pushLoop32
    rw [List.map_cons]
    unfold pushLoop
    simp only []
    rw [kept_add]
    congr 1; funext l
    congr 1; funext one
    congr 1; funext bits'
    congr 1; funext b'
    exact pushLoop32_eq xs bits' b'

theorem sizeLoop32_eq : ∀ (xs : List Word) (s : Nat), s + 63 * xs.length < 2^32 → sizeLoop32 xs s = sizeLoop xs s
  | [], _, _ => rfl
  | x :: xs, s, h => by
    rw [List.length_cons] at h
    unfold sizeLoop32 sizeLoop
    cases hl : msb (x + 1) with
    | none => rfl
    | some l =>
      have := ((msb_some _ _).1 hl).1
      rw [bind_pure_some, bind_pure_some, Nat.mod_eq_of_lt (by omega)]
      exact sizeLoop32_eq xs (s + l) (by omega)

theorem kept_toNat (x : Word) (h : (x.toNat + 1) % 2^32 ≠ 0) : (kept x).toNat = (x.toNat + 1) % 2^32 - 1 := by
  unfold kept
  rw [BitVec.toNat_sub, toSize32_toNat, BitVec.toNat_add, show (1 : Word).toNat = 1 from rfl]
  have := x.isLt
  omega

theorem kept_ok (x : Word) (h : (x.toNat + 1) % 2^32 ≠ 0) : kept x ≠ BitVec.allOnes 64 ∧ x ≠ BitVec.allOnes 64 := by
  have hk := kept_toNat x h
  constructor
  · intro e
    rw [e, BitVec.toNat_allOnes] at hk
    omega
  · intro e
    rw [e, BitVec.toNat_allOnes] at h
    exact h (by decide)

theorem clen_kept (x : Word) (h : (x.toNat + 1) % 2^32 ≠ 0) : clen (kept x) ≤ clen x := by
  obtain ⟨k1, k2⟩ := kept_ok x h
  obtain ⟨e1, _⟩ := clen_spec _ k1
  obtain ⟨e2, _⟩ := clen_spec _ k2
  have h1 := msb_log2 e1
  have h2 := msb_log2 e2
  rw [h1, h2, kept_add, toSize32_toNat, BitVec.toNat_add, show (1 : Word).toNat = 1 from rfl]
  have hx := x.isLt
  have hne : (x.toNat + 1) % 2^64 ≠ 0 := by omega
  rw [Nat.le_log2 hne]
  refine Nat.le_trans (Nat.log2_self_le (by omega)) (Nat.mod_le _ _)

theorem total_kept : ∀ (xs : List Word), (∀ x ∈ xs, (x.toNat + 1) % 2^32 ≠ 0) →
    ((xs.map kept).flatMap code).length ≤ (xs.flatMap code).length
  | [], _ => Nat.le_refl _
  | x :: xs, h => by
    have h1 := total_kept xs (fun y hy => h y (List.mem_cons_of_mem _ hy))
    have h2 := clen_kept x (h x (List.mem_cons_self ..))
    rw [List.map_cons, List.flatMap_cons, List.flatMap_cons, List.length_append, List.length_append, code_length, code_length]
    omega

theorem pushLoop_some : ∀ (xs : List Word) (a : Builder) (b : EFBuilder) (r : Builder × EFBuilder), pushLoop xs a b = some r →
    ∀ x ∈ xs, x + 1 ≠ 0
  | [], _, _, _, _, x, hx => absurd hx List.not_mem_nil
  | y :: ys, a, b, r, h, x, hx => by
    unfold pushLoop at h
    simp only [Option.bind_eq_bind, Option.bind_eq_some_iff] at h
    obtain ⟨l, h1, one, _, bits, _, b', _, h2⟩ := h
    rcases List.mem_cons.1 hx with rfl | hx
    · intro he
      rw [he, msb_zero] at h1; cases h1
    · exact pushLoop_some ys _ _ _ h2 x hx

theorem build32_some {xs : List Word} {v : EFCompressedList} (h : build32 xs = some v) : ∀ x ∈ xs, (x.toNat + 1) % 2^32 ≠ 0 := by
  unfold build32 at h
  simp only [Option.bind_eq_bind, Option.bind_eq_some_iff] at h
  obtain ⟨s, _, b0, _, bits, _, b1, _, r, h1, _⟩ := h
  rw [pushLoop32_eq] at h1
  intro x hx e
  apply pushLoop_some _ _ _ _ h1 (kept x) (List.mem_map_of_mem hx)
  rw [kept_add]
  apply BitVec.eq_of_toNat_eq
  rw [toSize32_toNat, BitVec.toNat_add, show (1 : Word).toNat = 1 from rfl, show (0 : Word).toNat = 0 from rfl]
  omega

theorem build_unfold (vs : List Word) (s : Nat) (b0 b1 b2 : EFBuilder) (bb b3 : Builder) (ef : EliasFano) (v : BitVector)
    (es : sizeLoop32 vs 0 = some s) (e0 : EFBuilder.new (BitVec.ofNat 64 ((s + 1) % 2^32)) (vs.length + 1) = some b0)
    (eb : Builder.new 0 false = some bb) (e1 : EFBuilder.pushBack b0 (BitVec.ofNat 64 bb.size) = some b1)
    (e2 : pushLoop32 vs bb b1 = some (b3, b2)) (e3 : EliasFano.build32 b2 false = some ef) (e4 : BitVector.ofBuilder32 b3 = some v) :
    build32 vs = some ⟨ef, v⟩ := by
  unfold build32
  rw [es, bind_pure_some, e0, bind_pure_some, eb, bind_pure_some, e1, bind_pure_some, e2, bind_pure_some]
  simp only []
  rw [e3, bind_pure_some, e4, bind_pure_some]
  rfl

theorem build32_good (vs : List Word) (hv : ∀ x ∈ vs, (x.toNat + 1) % 2^32 ≠ 0) (hl : vs.length < 2^26) :
    ∃ v hb n, build32 vs = some v ∧ v.ef.Good n (0#64 :: offs 0 (vs.map kept)) hb ∧ Rep v.bits ((vs.map kept).flatMap code) := by
  have ht := total_le vs
  have htk := total_kept vs hv
  have hxs : (vs.map kept).length = vs.length := List.length_map ..
  have hx : ∀ x ∈ vs.map kept, x ≠ BitVec.allOnes 64 := by
    intro x hx
    obtain ⟨y, hy, rfl⟩ := List.mem_map.1 hx
    exact (kept_ok y (hv y hy)).1
  have hx' : ∀ x ∈ vs, x ≠ BitVec.allOnes 64 := fun x hm => (kept_ok x (hv x hm)).2
  have hpl := pushLoop32_eq vs
  generalize vs.map kept = xs at *
  have hn : (BitVec.ofNat 64 (((vs.flatMap code).length + 1) % 2^32)).toNat = (vs.flatMap code).length + 1 := by
    rw [BitVec.toNat_ofNat]; omega
  have hval : ∀ k (hk : k < (0#64 :: offs 0 xs).length), (0#64 :: offs 0 xs)[k].toNat = ((xs.take k).flatMap code).length := by
    intro k hk
    have := take_total_le xs k
    rw [allOffs_get, BitVec.toNat_ofNat, Nat.mod_eq_of_lt (by omega)]
  obtain ⟨b0, ll, hb0, e0, g0⟩ := EFBuilder.new_good (BitVec.ofNat 64 (((vs.flatMap code).length + 1) % 2^32)) (vs.length + 1)
    ⟨by omega, by omega⟩
  obtain ⟨bb, eb, ib⟩ := Builder.new_inv 0 false
  obtain ⟨b1, hb1, e1, g1⟩ := EFBuilder.fold_good g0 (0#64 :: offs 0 xs) (by
      rw [List.nil_append, List.pairwise_iff_getElem]
      intro i j hi hj hij
      apply BitVec.le_def.2
      rw [hval i hi, hval j hj]
      exact take_total_mono xs i j (by omega))
    (by
      intro y hy
      obtain ⟨k, hk, rfl⟩ := List.getElem_of_mem hy
      apply BitVec.le_def.2
      rw [hval k hk, hn]
      have := take_total_le xs k
      omega)
    (by simp [offs_length, hxs])
  rw [List.nil_append] at g1
  rw [List.foldlM_cons] at e1
  have hhi : b1.high.size < 2^32 := by
    rw [g1.highInv.size, g1.len, hn]
    have := Nat.div_le_self ((vs.flatMap code).length + 1) (2^ll)
    omega
  have hlow : b1.low.size < 2^32 := by
    rw [g1.low.size]
    have hf : ∀ (l : Nat) (ys : List Word), (ys.flatMap (lowBits · l)).length = ys.length * l := by
      intro l ys
      induction ys with
      | nil => simp
      | cons y ys ih => rw [List.flatMap_cons, List.length_append, ih, lowBits_length, List.length_cons, Nat.add_mul]; omega
    rw [hf, List.length_cons, offs_length, hxs]
    have : (vs.length + 1) * ll ≤ (vs.length + 1) * 63 := Nat.mul_le_mul_left _ (by have := g1.lb; omega)
    omega
  cases hp : EFBuilder.pushBack b0 0#64 with
  | none => rw [hp] at e1; simp at e1
  | some b' =>
    rw [hp, bind_pure_some] at e1
    obtain ⟨b2, h2, h3⟩ := pushLoop_eq xs hx bb _ ib b'
    obtain ⟨ef, e4, g4, _⟩ := EliasFano.build_good g1 false
    rw [List.replicate_zero, List.nil_append] at h2
    rw [List.replicate_zero, List.length_nil, e1] at h3
    obtain ⟨v, ev, rv⟩ := BitVector.ofBuilder_rep _ _ h2
    have hv2 : b2.size < 2^32 := by rw [h2.size]; omega
    refine ⟨⟨ef, v⟩, hb1, _, ?_, g4, rv⟩
    refine build_unfold vs (vs.flatMap code).length b0 b' b1 bb b2 ef v ?_ e0 eb ?_ ?_ ?_ ?_
    · rw [sizeLoop32_eq vs 0 (by omega), sizeLoop_eq vs hx', Nat.zero_add]
    · rw [ib.size]; exact hp
    · rw [hpl, h3]; rfl
    · rw [EliasFano.build32_small hhi hlow, e4]
    · rw [BitVector.ofBuilder32_small hv2, ev]

end EFCompressedList

/-- the code lengths are below 64 -/
theorem bitsOf32_le (c : Word) : ∀ xs : List Word, EFCompressedList.bitsOf c xs ≤ 63 * xs.length
  | [] => Nat.le_refl _
  | x :: xs => by
    have h1 := bitsOf32_le c xs
    have h2 : Nat.log2 (x + c).toNat < 64 := by
      rcases Nat.eq_zero_or_pos (x + c).toNat with h | h
      · rw [h]; decide
      · exact (Nat.log2_lt (by omega)).2 (x + c).isLt
    simp only [EFCompressedList.bitsOf, List.map_cons, List.sum_cons, List.length_cons] at h1 ⊢
    omega

theorem Darray64.ofBuilder32_small {b : Darray64Builder} (h : b.bits.size < 2^32) : ofBuilder32 b = ofBuilder b := by
  unfold ofBuilder32 ofBuilder
  rw [BitVector.ofBuilder32_small h]

theorem GammaVector.build32_eq (xs : List Word) (hl : xs.length < 2^26) : build32 xs = build xs := by
  unfold build32 build
  cases e0 : Darray64.new with
  | none => rfl
  | some hi0 =>
  cases f0 : Builder.new 0 false with
  | none => rfl
  | some lo0 =>
  rw [bind_pure_some, bind_pure_some, bind_pure_some, bind_pure_some]
  cases e1 : Darray64.append1 hi0 0 with
  | none => rfl
  | some hi1 =>
  rw [bind_pure_some, bind_pure_some]
  cases e2 : loop xs hi1 lo0 with
  | none => rfl
  | some p =>
  obtain ⟨hi2, lo2⟩ := p
  rw [bind_pure_some, bind_pure_some]
  obtain ⟨n1, n2⟩ := Builder.new_shape f0
  obtain ⟨r1, r2, r3⟩ := loop_shape xs hi1 hi2 lo0 lo2 _ _ e2 (Darray64.append1_shape e1 (Darray64.new_shape e0)) n2
  have hb := bitsOf32_le 1 xs
  have h1 := r1.size
  simp only []
  rw [Darray64.ofBuilder32_small (by omega), BitVector.ofBuilder32_small (by omega)]

theorem GammaBitVector.build32_eq (xs : List Word) (hl : xs.length < 2^26) : build32 xs = build xs := by
  unfold build32 build
  cases e0 : Darray64.new with
  | none => rfl
  | some hi0 =>
  cases f0 : Builder.new 0 false with
  | none => rfl
  | some lo0 =>
  rw [bind_pure_some, bind_pure_some, bind_pure_some, bind_pure_some]
  cases e1 : Darray64.append1 hi0 0 with
  | none => rfl
  | some hi1 =>
  rw [bind_pure_some, bind_pure_some]
  cases e2 : loop xs hi1 lo0 with
  | none => rfl
  | some p =>
  obtain ⟨hi2, lo2⟩ := p
  rw [bind_pure_some, bind_pure_some]
  obtain ⟨n1, n2⟩ := Builder.new_shape f0
  obtain ⟨r1, r2, r3⟩ := loop_shape xs hi1 hi2 lo0 lo2 _ _ e2 (Darray64.append1_shape e1 (Darray64.new_shape e0)) n2
  have hb := bitsOf32_le 2 xs
  have h1 := r1.size
  simp only []
  rw [Darray64.ofBuilder32_small (by omega), BitVector.ofBuilder32_small (by omega)]

end Succinct
