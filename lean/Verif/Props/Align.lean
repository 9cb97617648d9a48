import Verif.Lemmas.Align
import Verif.Props.Space
import Verif.Props.Mapper

/-! # C82: exactly when a mapped structure is aligned

`C51` is about all objects of a class; here, for the objects the constructors build, exactly those are singled out whose elements all lie at multiples
of their size once the image is mapped at an 8-byte aligned address. -/
namespace Succinct
open Spec Mapper

/-- **C82** (`bp_vector`): the number of blocks of 256 bits is even. -/
theorem C82_bp_vector (l : List Bool) (a b : Bool) (hl : Bal l) (hlen : l.length < 2^31) (h0 : 0 < l.length) :
    ∃ v, BpVector.build (BitVector.ofRange l) a b = some v ∧ (ElementsAligned Codec.bpVector v ↔ (l.length + 255)/256 % 2 = 0) := by
  obtain ⟨v, e, h1, ⟨H, h2, h3⟩, _⟩ := C55_bp_vector_space l a b hl hlen h0
  refine ⟨v, e, ?_⟩
  have hp : 0 < 2^H := Nat.two_pow_pos H
  rw [Codec.bpVector_aligned v (bp_fits e (by omega)), h1, h2]
  omega

theorem tree_lengths {α : Type} (comp : α → α → Bool) (v : List α) (hv : v.length < 2^30 - 1) :
    ∃ t, CartesianTree.build comp v = some t ∧ t.bp.blockMin.length = (2 * v.length + 2 + 255)/256 ∧ 0 < t.bp.superMin.length := by
  obtain ⟨b, l, e1, e2, hb, hl⟩ := C37_balanced comp v 0 false
  obtain ⟨t, _, e, _⟩ := C37_size comp v hv
  have e0 := e
  unfold CartesianTree.build CartesianTree.ofBuilder at e
  simp only [Option.bind_eq_bind, Option.bind_eq_some_iff, Option.pure_def, Option.some.injEq] at e e1
  obtain ⟨s0, f0, s1, f1, b', f2, bv, f3, v', f4, rfl⟩ := e
  obtain ⟨s1', ⟨s0', g0, g1⟩, g2⟩ := e1
  obtain rfl : s0' = s0 := Option.some.inj (g0.symm.trans f0)
  obtain rfl : s1' = s1 := Option.some.inj (g1.symm.trans f1)
  obtain rfl : b' = b := Option.some.inj (f2.symm.trans g2)
  obtain rfl : bv = BitVector.ofRange l := Option.some.inj (f3.symm.trans e2)
  obtain ⟨w, e, h1, ⟨H, h2, h3⟩, _⟩ := C55_bp_vector_space l _ _ hb (by omega) (by omega)
  rw [f4] at e
  cases e
  have hp : 0 < 2^H := Nat.two_pow_pos H
  exact ⟨_, e0, by rw [← hl]; exact h1, by show 0 < v'.superMin.length; omega⟩

/-- **C82** (`cartesian_tree`) over `n` values: it has `2n + 2` parentheses. -/
theorem C82_cartesian_tree {α : Type} (comp : α → α → Bool) (v : List α) (hv : v.length < 2^30 - 1) :
    ∃ t, CartesianTree.build comp v = some t ∧ (ElementsAligned Codec.cartesianTree t ↔ (2 * v.length + 2 + 255)/256 % 2 = 0) := by
  obtain ⟨t, e, h1, h2⟩ := tree_lengths comp v hv
  refine ⟨t, e, ?_⟩
  rw [Codec.cartesianTree_aligned t (cartesian_fits hv e), h1]
  omega

/-- **C82** (`topk_vector` over `mappable_vector<uint64_t>`) -/
theorem C82_topk_vector (v : List Nat) (hv : v.length < 2^30 - 1) (h64 : ∀ x ∈ v, x < 2^64) :
    ∃ t, TopK.build ⟨fun a b => decide (a < b), fun a b => decide (a = b)⟩ v = some t ∧
      (ElementsAligned (Codec.topK (Codec.vu64 "m_v")) t ↔ (2 * v.length + 2 + 255)/256 % 2 = 0) := by
  obtain ⟨t, e, h1, h2⟩ := tree_lengths (fun x y : Nat => decide (y < x)) v hv
  refine ⟨⟨v, t⟩, by unfold TopK.build; rw [e]; rfl, ?_⟩
  rw [Codec.topK_aligned _ ⟨⟨by simp only []; omega, h64⟩, cartesian_fits hv e⟩]
  show t.bp.superMin.length = 0 ∨ t.bp.blockMin.length % 2 = 0 ↔ _
  rw [h1]
  omega

/-- **C82** (`darray`): no position has gone to the overflow list, or the number of subblocks of 32 is a multiple of 4. -/
theorem C82_darray (l : List Bool) (neg : Bool) (hl : l.length < 2^60) :
    ∃ d, Darray.build neg (BitVector.ofRange l) = some d ∧
      (ElementsAligned Codec.darray d ↔ d.inv.overflow = [] ∨ (l.count (!neg) + 31)/32 % 4 = 0) := by
  obtain ⟨d, e, _, h2, _⟩ := C56_darray_space l neg
  refine ⟨d, e, ?_⟩
  rw [Codec.darray_aligned d (Codec.darray_build_fits e hl), h2, List.length_eq_zero_iff]

theorem build_norank {b : EFBuilder} {ef : EliasFano} (h : EliasFano.build b false = some ef) : ef.d0 = ⟨0, ⟨[], [], []⟩⟩ := by
  unfold EliasFano.build at h
  simp only [Option.bind_eq_bind, Option.bind_eq_some_iff, Option.pure_def] at h
  obtain ⟨hv, _, d1, _, h⟩ := h
  split at h
  · rename_i h'; exact absurd h' (by simp)
  · simp only [Option.bind_eq_some_iff, Option.some.injEq] at h
    obtain ⟨d0, rfl, lv, _, rfl⟩ := h
    rfl

theorem efCond_norank {ef : EliasFano} (h : ef.d0 = ⟨0, ⟨[], [], []⟩⟩) :
    efCond ef ↔ ef.d1.inv.subblock.length % 4 = 0 ∨ (ef.d1.inv.overflow = [] ∧ ef.low.bits.length = 0) := by
  unfold efCond
  rw [h, ← List.length_eq_zero_iff]
  simp only [List.length_nil, Nat.add_zero, true_or, true_and]
  omega

theorem log_zero {n q : Nat} (hp : 0 < n) : n * Nat.log2 q = 0 ↔ q < 2 := by
  rw [Nat.mul_eq_zero]
  constructor
  · intro hh
    rcases hh with hh | hh
    · omega
    · by_contra hge
      have := (Nat.le_log2 (n := q) (k := 1) (by omega)).2 (by omega)
      omega
  · intro hh
    right
    obtain rfl | rfl : q = 0 ∨ q = 1 := by omega
    · decide
    · decide

theorem words_zero (n : Nat) : (n + 63)/64 = 0 ↔ n = 0 := by omega

/-- **C82** (`elias_fano` without rank index) of `k` values, `k > 0`: the number of subblocks of 32 is a multiple of 4, or nothing has gone to the
overflow list and there are no low bits. -/
theorem C82_elias_fano (n : Word) (m : Nat) (xs : List Word) (h : Storable n m xs) (hm : 0 < m) (hm2 : m < 2^54) (h0 : xs ≠ []) :
    ∃ ef, EliasFano.ofSeq n m xs false = some ef ∧ (ElementsAligned Codec.eliasFano ef ↔
      (xs.length + 31)/32 % 4 = 0 ∨ (ef.d1.inv.overflow = [] ∧ n.toNat / m < 2)) := by
  obtain ⟨ef, e, h1, _, _, h4, _, _, h7, _⟩ := C53_elias_fano_space n m xs h hm false
  refine ⟨ef, e, ?_⟩
  have s := EliasFano.ofSeq_shape e
  have hc := s.cnt
  have e2 := e
  unfold EliasFano.ofSeq at e2
  simp only [Option.bind_eq_bind, Option.bind_eq_some_iff] at e2
  obtain ⟨_, _, _, _, e2⟩ := e2
  rw [Codec.eliasFano_aligned ef (Codec.eliasFano_fits s (Codec.shape_high s hm (by omega)) (Codec.shape_low s (by omega))), efCond_norank (build_norank e2),
    h7, h4]
  unfold words
  rw [words_zero, h1]
  have hp := List.length_pos_iff.2 h0
  rw [log_zero hp]

/-- **C82** (`elias_fano` with rank index): with `z` zeros among the high bits, it also has subblocks for these. -/
theorem C82_elias_fano_rank (n : Word) (m : Nat) (xs : List Word) (h : Storable n m xs) (hm : 0 < m) (hm2 : m < 2^54) (h0 : xs ≠ []) :
    ∃ ef z, EliasFano.ofSeq n m xs true = some ef ∧ z + xs.length = ef.high.size ∧ (ElementsAligned Codec.eliasFano ef ↔
      (xs.length + 31)/32 % 4 = 0 ∧ ((z + 31)/32 % 4 = 0 ∨ (ef.d0.inv.overflow = [] ∧ n.toNat / m < 2))) := by
  obtain ⟨ef, e, h1, h2, _, h4, _, _, h7, _⟩ := C53_elias_fano_space n m xs h hm true
  have s := EliasFano.ofSeq_shape e
  have hc := s.cnt
  have e2 := e
  unfold EliasFano.ofSeq at e2
  simp only [Option.bind_eq_bind, Option.bind_eq_some_iff] at e2
  obtain ⟨_, _, _, _, e2⟩ := e2
  obtain ⟨_, e3, _, hones, _⟩ := C20_select n m xs h true
  rw [e] at e3
  cases e3
  unfold EliasFano.numOnes at hones
  have hz : ef.d0.positions + ef.d1.positions = ef.high.size := by
    unfold EliasFano.build at e2
    simp only [Option.bind_eq_bind, Option.bind_eq_some_iff, Option.pure_def] at e2
    obtain ⟨hv, e5, d1, e6, h'⟩ := e2
    rw [if_pos (by trivial)] at h'
    simp only [Option.bind_eq_some_iff, Option.some.injEq] at h'
    obtain ⟨d0, e7, lv, _, rfl⟩ := h'
    have hw := s.highW
    have hs : hv.size ≤ 64 * hv.bits.length := by simp only [] at hw; omega
    obtain ⟨d, g1, g2, _⟩ := Darray.build_spec true hv hs
    obtain ⟨d', g3, g4, _⟩ := Darray.build_spec false hv hs
    rw [e7] at g1; cases g1
    rw [e6] at g3; cases g3
    show d0.positions + d1.positions = hv.size
    rw [g2, g4]
    have h5 := cnt_not_add (Darray.gbit false hv.bits) hv.size
    have h6 : (fun i => !Darray.gbit false hv.bits i) = Darray.gbit true hv.bits := by
      funext i
      unfold Darray.gbit
      cases wbit hv.bits i <;> rfl
    rw [h6] at h5
    exact h5
  refine ⟨ef, ef.d0.positions, e, by omega, ?_⟩
  have hp := List.length_pos_iff.2 h0
  have hzpos : 0 < ef.d0.positions := by
    generalize n.toNat / 2 ^ (n.toNat / m).log2 = q at h2
    omega
  rw [Codec.eliasFano_aligned ef (Codec.eliasFano_fits s (Codec.shape_high s hm (by omega)) (Codec.shape_low s (by omega)))]
  unfold efCond
  rw [h7, s.d0s, s.d0b, h4]
  unfold words
  rw [words_zero, h1, log_zero hp, List.length_eq_zero_iff, List.length_eq_zero_iff]
  by_cases c1 : (xs.length + 31)/32 % 4 = 0
  · have c2 : ((xs.length + 31)/32 + (ef.d0.positions + 31)/32) % 4 = 0 ↔ (ef.d0.positions + 31)/32 % 4 = 0 := by omega
    simp only [c1, c2, or_true, true_and]
    by_cases c3 : (ef.d0.positions + 31)/32 % 4 = 0
    · simp [c3]
    · simp [c3]
  · simp only [c1, or_false, false_and, iff_false]
    rintro ⟨_, hb, _⟩
    omega

/-- **C82** (`elias_fano_list`) of `k > 0` values -/
theorem C82_list (v : List Word) (hs : (v.map BitVec.toNat).sum < 2^64 - 1) (hl : v.length < 2^54) (h0 : v ≠ []) :
    ∃ t, EFList.build v = some t ∧ (ElementsAligned Codec.efList t ↔
      (v.length + 31)/32 % 4 = 0 ∨ (t.ef.d1.inv.overflow = [] ∧ ((v.map BitVec.toNat).sum + 1) / v.length < 2)) := by
  have hp := List.length_pos_iff.2 h0
  obtain ⟨t, e, h1, _, h3, _⟩ := C53_list_space v hs (by omega) hp
  obtain ⟨_, e', hsz, _⟩ := C26_list v hs (by omega)
  rw [e] at e'
  cases e'
  refine ⟨t, e, ?_⟩
  have s := EFList.build_shape e
  have e2 := e
  unfold EFList.build at e2
  simp only [Option.bind_eq_bind, Option.bind_eq_some_iff, Option.pure_def, Option.some.injEq] at e2
  obtain ⟨b0, _, b1, _, ef, e2, rfl⟩ := e2
  have hd := s.d1s
  have hsz : ef.d1.positions = v.length := hsz
  rw [Codec.efList_aligned _ (show Codec.eliasFano.fits ef from Codec.eliasFano_fits s (Codec.shape_high s hp (by omega)) (Codec.shape_low s hl)),
    efCond_norank (build_norank e2), hd, h3]
  unfold words
  rw [words_zero, h1, log_zero hp]
  simp only [hsz]

theorem sum_zero_iff (v : List Word) (k : Nat) : (v.map fun x => Nat.log2 (x.toNat + k)).sum = 0 ↔ ∀ x ∈ v, x.toNat + k < 2 := by
  induction v with
  | nil => simp
  | cons x v ih =>
    rw [List.map_cons, List.sum_cons, List.forall_mem_cons, ← ih, Nat.add_eq_zero_iff]
    refine and_congr ?_ Iff.rfl
    have := log_zero (n := 1) (q := x.toNat + k) (by omega)
    rw [← this, Nat.one_mul]

/-- **C82** (`elias_fano_compressed_list`): one that holds a nonzero value is never aligned, as the words of `m_bits` start at an odd offset. -/
theorem C82_compressed_list (v : List Word) (hv : ∀ x ∈ v, x ≠ BitVec.allOnes 64) (hl : v.length < 2^53) (h0 : ∃ x ∈ v, x ≠ 0) :
    ∃ t, EFCompressedList.build v = some t ∧ ¬ ElementsAligned Codec.efCompressedList t := by
  obtain ⟨t, e, h1, h2, _⟩ := C57_compressed_list_space v hv (by omega)
  obtain ⟨s, s1, s2⟩ := EFCompressedList.build_shape e
  have ht := bitsOf_le 1 v
  refine ⟨t, e, ?_⟩
  rw [Codec.efCompressedList_aligned t ⟨Codec.eliasFano_fits s (Codec.shape_high s (by omega) (by omega)) (Codec.shape_low s (by omega)),
     Codec.bitVector_fits (by simp only []; omega) (by simp only []; omega)⟩]
  rintro ⟨_, h⟩
  rw [h2] at h
  unfold words at h
  rw [words_zero, h1, sum_zero_iff] at h
  obtain ⟨x, hx, hx0⟩ := h0
  have := h x hx
  exact hx0 (BitVec.eq_of_toNat_eq (by show _ = 0; omega))

/-- **C82** (`gamma_vector`): all values are 0, or the number of subblocks of 64 is a multiple of 4. -/
theorem C82_gamma_vector (v : List Word) (hv : ∀ x ∈ v, x ≠ BitVec.allOnes 64) (hl : v.length < 2^53) :
    ∃ g, GammaVector.build v = some g ∧ (ElementsAligned Codec.gammaVector g ↔ (∀ x ∈ v, x = 0) ∨ (v.length + 1 + 63)/64 % 4 = 0) := by
  obtain ⟨g, e, h1, _, h3, _, _, h6⟩ := C57_gamma_vector_space v hv
  obtain ⟨s, s1, s2⟩ := GammaVector.build_shape e
  have ht := bitsOf_le 1 v
  refine ⟨g, e, ?_⟩
  rw [Codec.gammaVector_aligned g ⟨Codec.darray64_fits s (by omega), Codec.bitVector_fits (by simp only []; omega) (by simp only []; omega)⟩, h6, h3]
  unfold words
  rw [words_zero, h1, sum_zero_iff]
  refine or_congr ?_ Iff.rfl
  constructor
  · intro h x hx
    have := h x hx
    exact BitVec.eq_of_toNat_eq (by show _ = 0; omega)
  · intro h x hx
    rw [h x hx]; decide

/-- **C82** (`gamma_bit_vector`): it is empty, or the number of subblocks of 64 is a multiple of 4. -/
theorem C82_gamma_bit_vector (v : List Word) (hv : ∀ x ∈ v, x.toNat < 2^64 - 2) (hl : v.length < 2^53) :
    ∃ g, GammaBitVector.build v = some g ∧ (ElementsAligned Codec.gammaBitVector g ↔ v = [] ∨ (v.length + 1 + 63)/64 % 4 = 0) := by
  obtain ⟨g, e, h1, _, h3, _, _, h6⟩ := C57_gamma_bit_vector_space v hv
  obtain ⟨s, s1, s2⟩ := GammaBitVector.build_shape e
  have ht := bitsOf_le 2 v
  refine ⟨g, e, ?_⟩
  rw [Codec.gammaBitVector_aligned g ⟨Codec.darray64_fits s (by omega), Codec.bitVector_fits (by simp only []; omega) (by simp only []; omega)⟩, h6, h3]
  unfold words
  rw [words_zero, h1, sum_zero_iff]
  refine or_congr ?_ Iff.rfl
  constructor
  · intro h
    cases v with
    | nil => rfl
    | cons x v => have := h x (by simp); omega
  · rintro rfl x hx; cases hx

/-- The other four classes are aligned for every object. -/
theorem C82_always (bv : BitVector) (h1 : Codec.bitVector.fits bv) (rs : RSBitVector) (h2 : Codec.rsBitVector.fits rs)
    (d : Darray64) (h3 : Codec.darray64.fits d) (nv : NibbleVector) (h4 : Codec.nibbleVector.fits nv) :
    ElementsAligned Codec.bitVector bv ∧ ElementsAligned Codec.rsBitVector rs ∧ ElementsAligned Codec.darray64 d ∧ ElementsAligned Codec.nibbleVector nv := by
  obtain ⟨a1, a2, a3, a4⟩ := C51_aligned_partial
  have key : ∀ {α : Type} {c : Codec α} {x : α}, Aligned c → c.fits x → ElementsAligned c x := by
    intro α c x ha hf flags mf name out m n ho hm p hp i _
    rw [Nat.add_mul_mod_self_right]
    exact ha x hf flags mf name out m n ho hm p hp
  exact ⟨key a1 h1, key a2 h2, key a3 h3, key a4 h4⟩

/-- 127 values give 256 parentheses, one block: misaligned; 128 to 255 values are fine -/
example : (2 * 127 + 2 + 255)/256 % 2 = 1 ∧ (2 * 128 + 2 + 255)/256 % 2 = 0 ∧ (2 * 255 + 2 + 255)/256 % 2 = 0 := by decide
/-- the two pairs of `bpWitness` -/
example : ¬ ElementsAligned Codec.bpVector bpWitness := by
  obtain ⟨v, e, h⟩ := C82_bp_vector [true, true, false, false] false true (bal_deep 2) (by decide) (by decide)
  rw [bpWitness_built] at e
  cases e
  rw [h]; decide
/-- 192 values: `(192 + 64)/64 = 4` subblocks, aligned -/
example : ∃ g, GammaVector.build (List.replicate 192 5) = some g ∧ ElementsAligned Codec.gammaVector g := by
  obtain ⟨g, e, h⟩ := C82_gamma_vector (List.replicate 192 5) (fun x hx => by rw [List.eq_of_mem_replicate hx]; decide) (by rw [List.length_replicate]; decide)
  exact ⟨g, e, h.2 (Or.inr (by rw [List.length_replicate]))⟩

end Succinct
