import Verif.Lemmas.ReleaseMake
import Verif.Lemmas.MachineSeq
import Verif.Model.ReleaseSeq

/-! # C112: the constructors of the integer sequences with assertions compiled out -/
namespace Succinct
open Spec Release
open RSBitVector (bind_pure_some)

theorem Release.psums_prefix (v : List Word) : EFList.psums 0 v = prefixSums v := by
  have key : ∀ (v : List Word) (base : Word), EFList.psums base v =
      (List.range v.length).map fun k => base + BitVec.ofNat 64 ((v.take (k + 1)).map BitVec.toNat).sum := by
    intro v
    induction v with
    | nil => intro _; rfl
    | cons x v ih =>
      intro base
      rw [EFList.psums, ih, List.length_cons, List.range_succ_eq_map, List.map_cons, List.map_map]
      congr 1
      · simp
      · apply List.map_congr_left
        intro k _
        simp only [Function.comp_apply, Nat.succ_eq_add_one, List.take_succ_cons, List.map_cons, List.sum_cons, BitVec.ofNat_add, BitVec.ofNat_toNat,
          BitVec.setWidth_eq]
        rw [BitVec.add_assoc]
  rw [key, prefixSums]
  apply List.map_congr_left
  intro k _
  exact BitVec.zero_add _

theorem Release.foldl_sum (v : List Word) : v.foldl (· + ·) 0 = BitVec.ofNat 64 (v.map BitVec.toNat).sum := by
  have key : ∀ (v : List Word) (s : Word), v.foldl (· + ·) s = s + BitVec.ofNat 64 (v.map BitVec.toNat).sum := by
    intro v
    induction v with
    | nil => intro s; simp
    | cons x v ih =>
      intro s
      rw [List.foldl_cons, ih, List.map_cons, List.sum_cons, BitVec.ofNat_add, BitVec.add_assoc]
      simp
  rw [key]
  exact BitVec.zero_add _

/-- **C112.** `elias_fano_list` from any values: the constructor works in 64-bit arithmetic.  It is undefined behaviour exactly if a mark of
some prefix sum falls outside of the words of the high part, and the values come back exactly if the high parts of the prefix sums
do not decrease and stay inside. -/
theorem C112_list (v : List Word) (hl : v.length ≤ 2^62) :
    let n := ((v.map BitVec.toNat).sum + 1) % 2^64
    let w := lowWidth n v.length
    ((eflBuild v).isSome ↔ ∀ p ∈ markPos w (prefixSums v), p < roundUp (highSize n v.length)) ∧
    ∀ t, eflBuild v = some t → ∀ ov, (∀ k, t.get ov k = v[k]?) ↔
      (prefixSums v).Pairwise (fun x y => x.toNat / 2^w ≤ y.toNat / 2^w) ∧
      ∀ (k : Nat) (x : Word), (prefixSums v)[k]? = some x → x.toNat / 2^w + k < highSize n v.length := by
  have hn : (v.foldl (· + ·) 0 + 1 : Word).toNat = ((v.map BitVec.toNat).sum + 1) % 2^64 := by
    rw [foldl_sum, BitVec.toNat_add, BitVec.toNat_ofNat, Nat.mod_add_mod]; rfl
  have h0 : v.length = 0 → (v.foldl (· + ·) 0 + 1 : Word).toNat + 2 < 2^64 := by
    intro h
    rw [List.length_eq_zero_iff.1 h]
    decide
  dsimp only
  rw [← hn, eflBuild_eq, psums_prefix]
  refine ⟨by rw [Option.isSome_map]; exact C110_push _ _ _ _ hl h0, fun t ht ov => ?_⟩
  rw [Option.map_eq_some_iff] at ht
  obtain ⟨ef, he, rfl⟩ := ht
  rw [← C110_order _ _ _ _ hl h0 ef he ov]
  have hd := delta_eq hl h0 he ov
  have hget : ∀ k, EFList.get ov ⟨ef⟩ k = ef.delta ov k := fun _ => rfl
  have hpl : (prefixSums v).length = v.length := by simp [prefixSums]
  have z : ∀ h : 0 < v.length, (prefixSums v)[0]? = some v[0] := fun h => by
    rw [List.getElem?_eq_getElem (by omega)]
    simp only [← psums_prefix]
    rw [EFList.psums_zero 0 v h]
    congr 1
    exact BitVec.zero_add _
  have sc : ∀ k (h : k + 1 < v.length), ∃ y, (prefixSums v)[k]? = some y ∧ (prefixSums v)[k + 1]? = some (y + v[k + 1]) := fun k h => by
    refine ⟨(prefixSums v)[k]'(by omega), List.getElem?_eq_getElem _, ?_⟩
    rw [List.getElem?_eq_getElem (by omega)]
    simp only [← psums_prefix]
    rw [EFList.psums_succ 0 v k h]
  constructor
  · intro h k
    induction k with
    | zero =>
      have := h 0
      rw [hget, hd, if_pos rfl] at this
      rw [this]
      rcases Nat.eq_zero_or_pos v.length with c | c
      · rw [List.getElem?_eq_none (by omega), List.getElem?_eq_none (by omega)]
      · rw [z c, List.getElem?_eq_getElem c]
    | succ k ih =>
      have := h (k + 1)
      rw [hget, hd, if_neg (by omega), Nat.add_sub_cancel, ih] at this
      rcases Nat.lt_or_ge (k + 1) v.length with c | c
      · obtain ⟨y, y1, y2⟩ := sc k c
        rw [y1, List.getElem?_eq_getElem c] at this
        rw [y2]
        cases hs : ef.select ov (k + 1) with
        | none => rw [hs] at this; cases this
        | some s =>
          rw [hs, Option.bind_some, Option.map_some] at this
          have := Option.some.inj this
          rw [← this]
          congr 1
          bv_omega
      · rw [List.getElem?_eq_none c] at this
        rw [List.getElem?_eq_none (by omega)]
        cases hs : ef.select ov (k + 1) with
        | none => rfl
        | some s =>
          rw [hs, Option.bind_some] at this
          -- a value behind the last one: the previous one is selected as well
          exfalso
          have hm := (C110_select _ _ _ _ hl h0 ef he).2.2 ov (k + 1) s
          obtain ⟨_, x, _, hx, _⟩ := hm.1 hs
          rw [List.getElem?_eq_none (by omega)] at hx
          cases hx
  · intro h k
    rw [hget, hd]
    cases k with
    | zero =>
      rw [if_pos rfl, h 0]
      rcases Nat.eq_zero_or_pos v.length with c | c
      · rw [List.getElem?_eq_none (by omega), List.getElem?_eq_none (by omega)]
      · rw [z c, List.getElem?_eq_getElem c]
    | succ k =>
      rw [if_neg (by omega), Nat.add_sub_cancel, h, h]
      rcases Nat.lt_or_ge (k + 1) v.length with c | c
      · obtain ⟨y, y1, y2⟩ := sc k c
        rw [y1, y2, List.getElem?_eq_getElem c, Option.bind_some, Option.map_some]
        congr 1
        bv_omega
      · rw [List.getElem?_eq_none c, List.getElem?_eq_none (l := prefixSums v) (by omega)]; rfl

/-- **C112.** What the constructors with assertions build, those without build as well. -/
theorem C112_same_answers (v : List Word) :
    (∀ t, EFList.build v = some t → eflBuild v = some t) ∧ (∀ t, EFCompressedList.build v = some t → efclBuild v = some t) ∧
    (v.length < 2^57 → (∀ g, GammaVector.build v = some g → gvBuild v = some g) ∧ ∀ g, GammaBitVector.build v = some g → gbvBuild v = some g) := by
  refine ⟨fun t h => ?_, fun t h => ?_, fun hl => ⟨fun g h => ?_, fun g h => ?_⟩⟩
  · unfold EFList.build at h
    simp only [Option.bind_eq_bind, Option.bind_eq_some_iff] at h
    obtain ⟨b, e1, b', e2, ef, e3, e4⟩ := h
    rw [EFList.pushLoop_eq] at e2
    obtain ⟨f1, f2⟩ := efNew_of_new e1
    unfold eflBuild
    dsimp only
    rw [f1, bind_pure_some, eflPush_eq, efFold_of_fold _ _ _ f2 e2, bind_pure_some, efBuild_of_build e3]
    exact e4
  · unfold EFCompressedList.build at h
    simp only [Option.bind_eq_bind, Option.bind_eq_some_iff] at h
    obtain ⟨s, e1, b, e2, bits, e3, b1, e4, ⟨bits', b2⟩, e5, ef, e6, bv, e7, e8⟩ := h
    obtain ⟨f1, f2⟩ := efNew_of_new e2
    obtain ⟨f3, f4⟩ := efPush_of_push f2 e4
    unfold efclBuild
    dsimp only
    rw [sizeLoop_of _ _ _ e1, f1, bind_pure_some, e3, bind_pure_some, f3, bind_pure_some, efclPush_of _ _ _ _ f4 e5, bind_pure_some]
    dsimp only at e6 e7 ⊢
    rw [efBuild_of_build e6, ← bitVector_of_ofBuilder e7]
    exact e8
  · unfold GammaVector.build at h
    simp only [Option.bind_eq_bind, Option.bind_eq_some_iff] at h
    obtain ⟨d, e1, b, e2, d1, e3, ⟨d2, b2⟩, e4, d3, e5, bv, e6, e7⟩ := h
    have hz : d.bits.size = 0 := by
      unfold Darray64.new at e1
      rw [e2, bind_pure_some] at e1
      obtain rfl := Option.some.inj e1
      obtain ⟨b', eb, ib⟩ := Builder.new_inv 0 false
      rw [e2] at eb
      obtain rfl := Option.some.inj eb
      exact ib.size
    obtain ⟨f1, f2⟩ := d64Append1_of e3 (by omega)
    unfold gvBuild
    rw [e1, bind_pure_some, e2, bind_pure_some, f1, bind_pure_some, gvLoop_of _ _ _ _ e4 (by omega), bind_pure_some]
    dsimp only at e5 e6 ⊢
    unfold Darray64.ofBuilder at e5
    rw [Option.bind_eq_bind, Option.bind_eq_some_iff] at e5
    obtain ⟨hv, g1, g2⟩ := e5
    rw [← bitVector_of_ofBuilder e6]
    unfold d64OfBuilder
    rw [← bitVector_of_ofBuilder g1, Option.some.inj g2]
    exact e7
  · unfold GammaBitVector.build at h
    simp only [Option.bind_eq_bind, Option.bind_eq_some_iff] at h
    obtain ⟨d, e1, b, e2, d1, e3, ⟨d2, b2⟩, e4, d3, e5, bv, e6, e7⟩ := h
    have hz : d.bits.size = 0 := by
      unfold Darray64.new at e1
      rw [e2, bind_pure_some] at e1
      obtain rfl := Option.some.inj e1
      obtain ⟨b', eb, ib⟩ := Builder.new_inv 0 false
      rw [e2] at eb
      obtain rfl := Option.some.inj eb
      exact ib.size
    obtain ⟨f1, f2⟩ := d64Append1_of e3 (by omega)
    unfold gbvBuild
    rw [e1, bind_pure_some, e2, bind_pure_some, f1, bind_pure_some, gbvLoop_of _ _ _ _ e4 (by omega), bind_pure_some]
    dsimp only at e5 e6 ⊢
    unfold Darray64.ofBuilder at e5
    rw [Option.bind_eq_bind, Option.bind_eq_some_iff] at e5
    obtain ⟨hv, g1, g2⟩ := e5
    rw [← bitVector_of_ofBuilder e6]
    unfold d64OfBuilder
    rw [← bitVector_of_ofBuilder g1, Option.some.inj g2]
    exact e7

/-- **C112.** `elias_fano_compressed_list` and `gamma_vector`: the value `2^64 - 1`, which the assertions reject, is undefined behaviour
wherever it stands; without it, the values come back. -/
theorem C112_largest (v : List Word) (hl : v.length < 2^57) :
    (if BitVec.allOnes 64 ∈ v then efclBuild v = none else ∃ t, efclBuild v = some t ∧ ∀ ov k, k < v.length → t.get ov k = v[k]?) ∧
    (if BitVec.allOnes 64 ∈ v then gvBuild v = none else ∃ g, gvBuild v = some g ∧ ∀ ov k, k < v.length → GammaVector.get ov g k = v[k]?) := by
  by_cases h : BitVec.allOnes 64 ∈ v
  · rw [if_pos h, if_pos h]
    constructor
    · unfold efclBuild
      dsimp only
      cases efNew (BitVec.ofNat 64 (v.foldl (fun s x => s + Release.msb1 (x + 1)) 0) + 1) (v.length + 1) with
      | none => rfl
      | some b =>
        rw [bind_pure_some]
        cases Builder.new 0 false with
        | none => rfl
        | some bits =>
          rw [bind_pure_some]
          cases efPush b (BitVec.ofNat 64 bits.size) with
          | none => rfl
          | some b' => rw [bind_pure_some, efclPush_none _ _ _ h]; rfl
    · unfold gvBuild
      cases Darray64.new with
      | none => rfl
      | some d =>
        rw [bind_pure_some]
        cases Builder.new 0 false with
        | none => rfl
        | some low =>
          rw [bind_pure_some]
          cases d64Append1 d 0 with
          | none => rfl
          | some d' => rw [bind_pure_some, gvLoop_none _ _ _ h]; rfl
  · rw [if_neg h, if_neg h]
    have hx : ∀ x ∈ v, x ≠ BitVec.allOnes 64 := fun x hx hc => h (hc ▸ hx)
    constructor
    · obtain ⟨t, hb, n, e, g, r⟩ := EFCompressedList.build_good v hx hl
      refine ⟨t, (C112_same_answers v).2.1 t e, fun ov k hk => ?_⟩
      rw [EFCompressedList.get_eq ov v hx hl t n hb g r k hk, List.getElem?_eq_getElem hk]
    · obtain ⟨g, e, gg⟩ := GammaVector.build_good v hx
      refine ⟨g, ((C112_same_answers v).2.2 hl).1 g e, fun ov k hk => ?_⟩
      rw [GammaVector.get_eq ov gg k hk, List.getElem?_eq_getElem hk]

/-- **C112.** `gamma_bit_vector`: of the two values that the assertions reject, `2^64 - 2` is undefined behaviour, `2^64 - 1` is not: the
constructor finishes and reports as many values as it got. -/
theorem C112_gamma_bit_vector (v : List Word) :
    (BitVec.ofNat 64 (2^64 - 2) ∈ v → gbvBuild v = none) ∧
    (BitVec.ofNat 64 (2^64 - 2) ∉ v → ∃ g, gbvBuild v = some g ∧ g.size = some v.length) ∧
    (v.length < 2^57 → (∀ x ∈ v, x.toNat < 2^64 - 2) → ∃ g, gbvBuild v = some g ∧ ∀ ov k, k < v.length → GammaBitVector.get ov g k = v[k]?) := by
  obtain ⟨low, e2, i2⟩ := Builder.new_inv 0 false
  have e1 : Darray64.new = some ⟨0, low, [], []⟩ := by
    unfold Darray64.new
    rw [e2]; rfl
  have hlive : Live low := Or.inl (by rw [i2.size]; rfl)
  refine ⟨fun h => ?_, fun h => ?_, fun hl h => ?_⟩
  · unfold gbvBuild
    rw [e1, bind_pure_some, e2, bind_pure_some]
    cases d64Append1 ⟨0, low, [], []⟩ 0 with
    | none => rfl
    | some d' => rw [bind_pure_some, gbvLoop_none _ _ _ h]; rfl
  · obtain ⟨d, e3, d1, d2, d3⟩ : ∃ d, d64Append1 ⟨0, low, [], []⟩ 0 = some d ∧ (d.bits.bits ≠ [] ∧ d.bits.cur = some (d.bits.bits.length - 1)) ∧
        d.block.length = (d.nOnes + 1023) / 1024 ∧ d.nOnes = 1 := by
      have : low = ⟨[], 0, none⟩ := by
        have h : Builder.new 0 false = some ⟨[], 0, none⟩ := by decide +kernel
        exact Option.some.inj (e2.symm.trans h)
      subst this
      exact ⟨⟨1, ⟨[1], 1, some 0⟩, [0], [0]⟩, rfl, ⟨by simp, rfl⟩, rfl, rfl⟩
    obtain ⟨r, e4, e5⟩ := gbvLoop_live v d low h d1 d2 hlive
    refine ⟨⟨d64OfBuilder r.1, bitVector r.2⟩, ?_, ?_⟩
    · unfold gbvBuild
      rw [e1, bind_pure_some, e2, bind_pure_some, e3, bind_pure_some, e4]
      rfl
    · unfold GammaVec.size
      show subU r.1.nOnes 1 = _
      rw [e5, d3, subU_eq _ _ (by omega)]
      congr 1; omega
  · obtain ⟨g, e, gg, hp⟩ := GammaBitVector.build_good v h
    refine ⟨g, ((C112_same_answers v).2.2 hl).2 g e, fun ov k hk => ?_⟩
    rw [GammaBitVector.get_eq ov gg hp k hk, List.getElem?_eq_getElem hk]

/-- **C112.** After `2^64 - 1` other values of the `gamma_bit_vector` come back changed, also with reads that check nothing (C104). -/
theorem C112_gamma_bit_vector_false :
    (gbvBuild ([5, BitVec.allOnes 64, 7] ++ List.replicate 20 100)).map (fun g => (g.size,
      (List.range 4).map fun i => Release.gbvGet (fun _ _ => 0) (Machine.GammaVec.enc g) (Machine.W i))) =
      some (some 23, [some 5, none, some 9, some 88]) := by decide +kernel

/-- **C112.** An `elias_fano_list` whose sum does not fit in 64 bits: the first is undefined behaviour, the second has lost a value and
changed another, the third comes back as it was. -/
theorem C112_list_false :
    eflBuild [BitVec.ofNat 64 (2^63), BitVec.ofNat 64 (2^63)] = none ∧
    (eflBuild [3, 10, 5, BitVec.ofNat 64 (2^64 - 9), 2]).map (fun t => (t.size, (List.range 5).map fun k => t.get (fun _ _ => 0) k)) =
      some (4, [some 3, some 10, some 1, some 3, none]) ∧
    (eflBuild [BitVec.ofNat 64 (2^39 + 100), BitVec.ofNat 64 (2^64 - 5)]).map (fun t => (t.size, (List.range 2).map fun k => t.get (fun _ _ => 0) k)) =
      some (2, [some (BitVec.ofNat 64 (2^39 + 100)), some (BitVec.ofNat 64 (2^64 - 5))]) ∧
    EFList.build [BitVec.ofNat 64 (2^39 + 100), BitVec.ofNat 64 (2^64 - 5)] = none := by decide +kernel

example : (efclBuild [4, 0, 1000, 7]).map (fun t => (List.range 4).map fun k => t.get (fun _ _ => 0) k) = some [some 4, some 0, some 1000, some 7] ∧
    (gvBuild [4, 0, 1000, 7]).map (fun g => (List.range 4).map fun k => GammaVector.get (fun _ _ => 0) g k) = some [some 4, some 0, some 1000, some 7] ∧
    gvBuild [4, BitVec.allOnes 64, 7] = none ∧ efclBuild [4, BitVec.allOnes 64, 7] = none ∧ gbvBuild [4, BitVec.ofNat 64 (2^64 - 2), 7] = none := by
  decide +kernel

end Succinct
