import Verif.Model.Broadword
import Verif.Lemmas.Cnt
import Verif.Lemmas.Pack

namespace Succinct
namespace Broadword

/-- number of ones of a byte -/
def bcnt (d : Nat) : Nat := cnt d.testBit 8

private def g1 (d : Nat) : Nat := d - (d &&& 0xaa) / 2
private def g2 (d : Nat) : Nat := (d &&& 0x33) + (d &&& 0xcc) / 4

private theorem g1_ok : ∀ d : Fin 256, (d.val &&& 0xaa) / 2 ≤ d.val ∧ 2 ∣ (d.val &&& 0xaa) ∧ (d.val &&& 0xaa) < 256
    ∧ g1 d.val < 256 := by decide +kernel
private theorem g2_ok : ∀ d : Fin 256, 4 ∣ (d.val &&& 0xcc) ∧ (d.val &&& 0xcc) < 256 ∧ g2 d.val % 16 ≤ 6 ∧
    g2 d.val / 16 ≤ 6 := by decide +kernel
private theorem g3_ok : ∀ d : Fin 256, g2 (g1 d.val) % 16 + g2 (g1 d.val) / 16 = bcnt d.val := by
  decide +kernel
private theorem bcnt_le' (d : Nat) : bcnt d ≤ 8 := cnt_le _ _

theorem bcnt_le (d : Nat) : bcnt d ≤ 8 := bcnt_le' d

private theorem stepA (ds : List Nat) (h : ∀ d ∈ ds, d < 256) (hl : ds.length = 8) :
    pack 8 ds - (pack 8 ds &&& 0xaaaaaaaaaaaaaaaa) / 2 = pack 8 (ds.map g1) := by
  have e1 : (0xaaaaaaaaaaaaaaaa : Nat) = pack 8 (ds.map fun _ => 0xaa) := by
    rw [List.map_const', hl]; rfl
  rw [e1, pack_land 8 _ _ (by simp) h (by simp), List.zipWith_map_right, List.zipWith_self]
  rw [(pack_div 8 2 (by omega) _ ?_).1, List.map_map]
  · have := (pack_sub_map 8 (fun d => d) (fun d => (d &&& 0xaa)/2) ds
      (fun d hd => (g1_ok ⟨d, h d hd⟩).1)).2
    rw [List.map_id'] at this
    exact this
  · intro d hd
    simp only [List.mem_map] at hd
    obtain ⟨a, ha, rfl⟩ := hd
    exact (g1_ok ⟨a, h a ha⟩).2.1

private theorem stepB (ds : List Nat) (h : ∀ d ∈ ds, d < 256) (hl : ds.length = 8) :
    (pack 8 ds &&& 0x3333333333333333) + (pack 8 ds &&& 0xcccccccccccccccc) / 4 = pack 8 (ds.map g2) := by
  have e1 : (0x3333333333333333 : Nat) = pack 8 (ds.map fun _ => 0x33) := by
    rw [List.map_const', hl]; rfl
  have e2 : (0xcccccccccccccccc : Nat) = pack 8 (ds.map fun _ => 0xcc) := by
    rw [List.map_const', hl]; rfl
  rw [e1, e2, pack_land 8 _ _ (by simp) h (by simp), pack_land 8 _ _ (by simp) h (by simp),
    List.zipWith_map_right, List.zipWith_self, List.zipWith_map_right, List.zipWith_self]
  rw [(pack_div 8 4 (by omega) _ ?_).1, List.map_map]
  · rw [pack_add 8 _ _ (by simp), List.zipWith_map, List.zipWith_self]; rfl
  · intro d hd
    simp only [List.mem_map] at hd
    obtain ⟨a, ha, rfl⟩ := hd
    exact (g2_ok ⟨a, h a ha⟩).1

private theorem and15 {a : Nat} (h : a ≤ 15) : a &&& 15 = a := by
  rw [show 15 = 2^4 - 1 from rfl, Nat.and_two_pow_sub_one_eq_mod, Nat.mod_eq_of_lt]
  omega

private theorem list8 {α} (l : List α) (h : l.length = 8) :
    ∃ a b c d e f g i, l = [a,b,c,d,e,f,g,i] := by
  match l, h with
  | [a,b,c,d,e,f,g,i], _ => exact ⟨a,b,c,d,e,f,g,i,rfl⟩

private theorem pack84 (w : Nat) (ls hs : List Nat) (hl : ls.length = hs.length) :
    pack (2*w) (List.zipWith (fun l h => l + 2^w*h) ls hs) = pack w ((List.zipWith (fun l h => [l, h]) ls hs).flatten) := by
  induction ls generalizing hs with
  | nil => simp
  | cons l ls ih => cases hs with
    | nil => simp at hl
    | cons h hs =>
      simp only [List.zipWith_cons_cons, pack_cons, List.flatten_cons, List.cons_append, List.nil_append]
      rw [ih hs (by simpa using hl), Nat.two_mul, Nat.pow_add]; ring

private theorem pack_tail (w : Nat) (d : Nat) (ds : List Nat) (h : d < 2^w) :
    pack w (d :: ds) / 2^w = pack w ds := by
  rw [pack_cons, Nat.add_mul_div_left _ _ (Nat.two_pow_pos w), Nat.div_eq_of_lt h, Nat.zero_add]

private theorem pack_append_zero (w : Nat) (ds : List Nat) : pack w (ds ++ [0]) = pack w ds := by
  induction ds with
  | nil => simp
  | cons d ds ih => simp [ih]

private theorem stepC (ds : List Nat) (h : ∀ d ∈ ds, d % 16 ≤ 6 ∧ d / 16 ≤ 6) (hl : ds.length = 8) :
    (pack 8 ds + pack 8 ds / 16) &&& 0x0f0f0f0f0f0f0f0f = pack 8 (ds.map fun d => d % 16 + d / 16) := by
  have e1 : pack 8 ds = pack 4 ((List.zipWith (fun l h => [l, h]) (ds.map (· % 16)) (ds.map (· / 16))).flatten) := by
    rw [← pack84 4 _ _ (by simp), List.zipWith_map, List.zipWith_self]
    congr 1
    rw [List.map_congr_left (g := fun x => x) (fun a _ => by omega), List.map_id']
  have e2 : pack 8 (ds.map fun d => d % 16 + d / 16) = pack 4 ((List.zipWith (fun l h => [l, h])
      (ds.map fun d => d % 16 + d / 16) (ds.map fun _ => 0)).flatten) := by
    rw [← pack84 4 _ _ (by simp), List.zipWith_map, List.zipWith_self]
    simp
  rw [e1, e2]
  obtain ⟨a,b,c,d,e,f,g,i,rfl⟩ := list8 ds hl
  simp only [List.mem_cons, List.not_mem_nil, or_false, forall_eq_or_imp, forall_eq] at h
  simp only [List.map_cons, List.map_nil, List.zipWith_cons_cons, List.zipWith_nil_left, List.flatten_cons, List.flatten_nil,
    List.cons_append, List.nil_append]
  generalize a % 16 = a0, a / 16 = a1, b % 16 = b0, b / 16 = b1, c % 16 = c0, c / 16 = c1, d % 16 = d0, d / 16 = d1 at *
  generalize e % 16 = e0, e / 16 = e1, f % 16 = f0, f / 16 = f1, g % 16 = g0, g / 16 = g1, i % 16 = i0, i / 16 = i1 at *
  obtain ⟨⟨_,_⟩,⟨_,_⟩,⟨_,_⟩,⟨_,_⟩,⟨_,_⟩,⟨_,_⟩,⟨_,_⟩,⟨_,_⟩⟩ := h
  rw [show (16:Nat) = 2^4 from rfl, pack_tail 4 a0 _ (by omega),
    ← pack_append_zero 4 [a1, _, _, _, _, _, _, _, _, _, _, _, _, _, _]]
  have key3 : (0x0f0f0f0f0f0f0f0f : Nat) = pack 4 [15,0,15,0,15,0,15,0,15,0,15,0,15,0,15,0] := rfl
  simp only [List.cons_append, List.nil_append]
  rw [pack_add _ _ _ (by simp), key3]
  rw [pack_land _ _ _ (by simp) ?_ (by simp)]
  · simp only [List.zipWith_cons_cons, List.zipWith_nil_left, Nat.and_zero]
    rw [and15 (by omega), and15 (by omega), and15 (by omega),
      and15 (by omega), and15 (by omega), and15 (by omega),
      and15 (by omega), and15 (by omega)]
  · simp only [List.zipWith_cons_cons, List.zipWith_nil_left, List.mem_cons, List.not_mem_nil, or_false, forall_eq_or_imp, forall_eq]
    omega

/-- `byte_counts` puts the number of ones of each byte into that byte -/
theorem byteCounts_toNat (x : Word) :
    (byteCounts x).toNat = pack 8 ((digitsOf 8 8 x.toNat).map bcnt) := by
  have hx : x.toNat = pack 8 (digitsOf 8 8 x.toNat) := by
    rw [pack_digitsOf, Nat.mod_eq_of_lt]; exact x.isLt
  have hd := digitsOf_lt 8 8 x.toNat
  have hl := digitsOf_length 8 8 x.toNat
  generalize digitsOf 8 8 x.toNat = ds at *
  have hd' : ∀ d ∈ ds, d < 256 := hd
  -- first step
  have A := stepA ds hd' hl
  have hd1 : ∀ d ∈ ds.map g1, d < 256 := by
    intro d hd
    obtain ⟨a, ha, rfl⟩ := List.mem_map.mp hd
    exact (g1_ok ⟨a, hd' a ha⟩).2.2.2
  have B := stepB (ds.map g1) hd1 (by simpa using hl)
  have hd2 : ∀ d ∈ (ds.map g1).map g2, d % 16 ≤ 6 ∧ d / 16 ≤ 6 := by
    intro d hd
    obtain ⟨a, ha, rfl⟩ := List.mem_map.mp hd
    exact (g2_ok ⟨a, hd1 a ha⟩).2.2
  have C := stepC _ hd2 (by simpa using hl)
  have hx1 : (x - ((x &&& (0xa#64 * onesStep4)) >>> 1)).toNat = pack 8 (ds.map g1) := by
    have e : (0xa#64 * onesStep4) = 0xaaaaaaaaaaaaaaaa#64 := by decide
    rw [e, BitVec.toNat_sub_of_le, BitVec.toNat_ushiftRight, BitVec.toNat_and, hx, ← A]
    · simp [Nat.shiftRight_eq_div_pow]
    · rw [BitVec.le_def, BitVec.toNat_ushiftRight, BitVec.toNat_and, Nat.shiftRight_eq_div_pow]
      exact Nat.le_trans (Nat.div_le_self _ _) Nat.and_le_left
  have hlt1 := pack_lt 8 _ hd1
  unfold byteCounts
  simp only []
  generalize (x - ((x &&& (0xa#64 * onesStep4)) >>> 1)) = x1 at *
  have m2 : (pack 8 ((ds.map g1).map g2)) < 2^63 := by
    have := hd2
    obtain ⟨a,b,c,d,e,f,g,i,hh⟩ := list8 ((ds.map g1).map g2) (by simpa using hl)
    rw [hh] at this ⊢
    simp only [List.mem_cons, List.not_mem_nil, or_false, forall_eq_or_imp, forall_eq] at this
    simp only [pack_cons, pack_nil]; omega
  have hx2 : ((x1 &&& (3#64 * onesStep4)) + ((x1 >>> 2) &&& (3#64 * onesStep4))).toNat
      = pack 8 ((ds.map g1).map g2) := by
    have e : (3#64 * onesStep4) = 0x3333333333333333#64 := by decide
    have e2 : (x1 >>> 2) &&& 0x3333333333333333#64 = (x1 &&& 0xcccccccccccccccc#64) >>> 2 := by
      rw [BitVec.ushiftRight_and_distrib]; congr 1
    rw [e, e2, BitVec.toNat_add, BitVec.toNat_and, BitVec.toNat_ushiftRight, BitVec.toNat_and, hx1,
      Nat.shiftRight_eq_div_pow]
    show (_ + _ ) % _ = _
    have B' : (pack 8 (List.map g1 ds) &&& BitVec.toNat 0x3333333333333333#64) + (pack 8 (List.map g1 ds) &&& BitVec.toNat 0xcccccccccccccccc#64) / 2^2 = _ := B
    rw [B', Nat.mod_eq_of_lt (by omega)]
  generalize ((x1 &&& (3#64 * onesStep4)) + ((x1 >>> 2) &&& (3#64 * onesStep4))) = x2 at *
  have e : (0x0f#64 * onesStep8) = 0x0f0f0f0f0f0f0f0f#64 := by decide
  rw [e, BitVec.toNat_and, BitVec.toNat_add, BitVec.toNat_ushiftRight, hx2, Nat.shiftRight_eq_div_pow,
    Nat.mod_eq_of_lt (by omega)]
  have C' : (pack 8 ((ds.map g1).map g2) + pack 8 ((ds.map g1).map g2) / 2^4) &&& BitVec.toNat 0x0f0f0f0f0f0f0f0f#64 = _ := C
  rw [C', List.map_map, List.map_map]
  congr 1
  apply List.map_congr_left
  intro d hdm
  exact g3_ok ⟨d, hd' d hdm⟩

/-- ones of the `i`-th byte of a word -/
theorem bcnt_byte (x : Nat) (i : Nat) :
    bcnt (x / 2^(8*i) % 2^8) = cnt (fun t => x.testBit (8*i + t)) 8 := by
  unfold bcnt
  apply cnt_congr
  intro t ht
  rw [Nat.testBit_mod_two_pow, Nat.testBit_div_two_pow]
  simp [ht, Nat.add_comm]

theorem digits8 (x : Nat) : digitsOf 8 8 x = [x / 2^(8*0) % 2^8, x / 2^(8*1) % 2^8, x / 2^(8*2) % 2^8,
    x / 2^(8*3) % 2^8, x / 2^(8*4) % 2^8, x / 2^(8*5) % 2^8, x / 2^(8*6) % 2^8, x / 2^(8*7) % 2^8] := by
  simp [digitsOf, Nat.div_div_eq_div_mul]

theorem byteCounts_toNat' (x : Word) :
    (byteCounts x).toNat = pack 8 ((List.range 8).map fun i => cnt (fun t => x.getLsbD (8*i + t)) 8) := by
  rw [byteCounts_toNat, digits8]
  simp only [List.map_cons, List.map_nil, bcnt_byte, BitVec.testBit_toNat]
  rfl

/-- the running sums of byte counts -/
theorem byteSums_toNat (x : Word) :
    (byteSums x).toNat = pack 8 ((List.range 8).map fun i => cnt x.getLsbD (8*(i+1))) := by
  unfold byteSums
  rw [BitVec.toNat_mul, byteCounts_toNat']
  have h1 : onesStep8.toNat = pack 8 (List.replicate 8 1) := by decide
  rw [h1]
  have S : ∀ i, cnt x.getLsbD (8*(i+1)) = cnt x.getLsbD (8*i) + cnt (fun t => x.getLsbD (8*i + t)) 8 := by
    intro i; rw [Nat.mul_succ, cnt_add]
  have key := packZ_mul_ones 8 0 (((List.range 8).map fun i => cnt (fun t => x.getLsbD (8*i + t)) 8).map Int.ofNat)
  rw [packZ_ofNat] at key
  simp only [List.length_map, List.length_range, Int.zero_add] at key
  have lt := pack_lt 8 ((List.range 8).map fun i => cnt x.getLsbD (8*(i+1))) (by
    intro d hd
    obtain ⟨i, hi, rfl⟩ := List.mem_map.mp hd
    have := cnt_le x.getLsbD (8*(i+1))
    simp at hi; omega)
  have e : packZ 8 (psums 0 (((List.range 8).map fun i => cnt (fun t => x.getLsbD (8*i + t)) 8).map Int.ofNat))
      = (pack 8 ((List.range 8).map fun i => cnt x.getLsbD (8*(i+1))) : Nat) := by
    rw [← packZ_ofNat]
    congr 1
    have r8 : List.range 8 = [0,1,2,3,4,5,6,7] := rfl
    simp only [r8, List.map_cons, List.map_nil, psums, S 7, S 6, S 5, S 4, S 3, S 2, S 1, S 0]
    simp
  rw [e] at key
  rw [List.length_map, List.length_range] at lt
  have key' : pack 8 ((List.range 8).map fun i => cnt (fun t => x.getLsbD (8*i + t)) 8) * pack 8 (List.replicate 8 1) % 2^(8*8)
    = pack 8 ((List.range 8).map fun i => cnt x.getLsbD (8*(i+1))) % 2^(8*8) := by
    exact_mod_cast key
  rw [show 2^64 = 2^(8*8) from rfl, key', Nat.mod_eq_of_lt lt]

theorem sums_lt (x : Word) : ∀ d ∈ (List.range 8).map (fun i => cnt x.getLsbD (8*(i+1))), d < 2^8 := by
  intro d hd
  obtain ⟨i, hi, rfl⟩ := List.mem_map.mp hd
  have := cnt_le x.getLsbD (8*(i+1))
  simp at hi; omega

theorem popcount_eq (x : Word) : popcount x = cnt x.getLsbD 64 := by
  have h := byteSums_toNat x
  have hd := pack_digit 8 _ (sums_lt x) 7 (by simp)
  rw [← h] at hd
  simp only [List.getElem_map, List.getElem_range] at hd
  have e : popcount x = (byteSums x).toNat / 2^(8*7) := by
    unfold popcount bytesSum byteSums
    rw [BitVec.toNat_ushiftRight, Nat.shiftRight_eq_div_pow]
  have := (byteSums x).isLt
  rw [e, ← hd, Nat.mod_eq_of_lt]
  omega

theorem popcountIntrinsic_eq (x : Word) : popcountIntrinsic x = cnt x.getLsbD 64 := by
  unfold popcountIntrinsic
  suffices h : ∀ n, ((List.range n).filter fun i => x.getLsbD i).length = cnt x.getLsbD n from h 64
  intro n
  induction n with
  | zero => simp
  | succ n ih =>
    rw [List.range_succ, List.filter_append, List.length_append, ih, cnt_succ]
    cases h : x.getLsbD n <;> simp [h]

theorem popcount_le (x : Word) : popcount x ≤ 64 := by rw [popcount_eq]; exact cnt_le _ _

end Broadword
end Succinct
