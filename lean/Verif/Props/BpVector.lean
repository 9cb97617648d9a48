import Verif.Lemmas.BpRmqTree
import Verif.Lemmas.Parens

/-!
# C31-C35, C50: `bp_vector`

`ov` is the unspecified value of an over-wide shift.  `bp_vector` is built from the bit vector holding
`l`, with any combination of the optional select hints.
-/
namespace Succinct
open Spec
open BpVector (exc Good)
open RSBitVector (bind_pure_some)

/-- **C31**: in a `bp_vector` over a balanced sequence of fewer than `2^31` bits, `find_close` of an
opening parenthesis is its matching closing parenthesis. -/
theorem C31_find_close (ov : Word → Nat → Word) (l : List Bool) (hints hints0 : Bool) (hl : Bal l) (hlen : l.length < 2^31) :
    ∃ v, BpVector.build (BitVector.ofRange l) hints hints0 = some v ∧
      ∀ i, l[i]? = some true → ∃ j, v.findClose ov i = some j ∧ Matching l i j := by
  have hd := Bal.dyck hl
  have hg := hd.good hlen
  obtain ⟨v, e, _, hi⟩ := BpVector.build_inv l hints hints0 hg
  refine ⟨v, e, fun i hb => ?_⟩
  obtain ⟨j, hj⟩ := exists_close hd i hb
  refine ⟨j, ?_, hj⟩
  obtain ⟨h1, h2, h3, h4, h5⟩ := (matching_iff l i j).1 hj
  exact BpVector.findClose_spec ov hi hg i j h1 h2 h3 h4 h5

/-- **C32**: `find_open` of a closing parenthesis is its matching opening parenthesis, and `find_open`
and `find_close` are mutually inverse. -/
theorem C32_find_open (ov : Word → Nat → Word) (l : List Bool) (hints hints0 : Bool) (hl : Bal l) (hlen : l.length < 2^31) :
    ∃ v, BpVector.build (BitVector.ofRange l) hints hints0 = some v ∧
      (∀ j, l[j]? = some false → ∃ i, v.findOpen ov j = some i ∧ Matching l i j) ∧
      (∀ i, l[i]? = some true → (v.findClose ov i >>= v.findOpen ov) = some i) ∧
      (∀ j, l[j]? = some false → (v.findOpen ov j >>= v.findClose ov) = some j) := by
  have hd := Bal.dyck hl
  have hg := hd.good hlen
  obtain ⟨v, e, _, hi⟩ := BpVector.build_inv l hints hints0 hg
  have hopen : ∀ i j, Matching l i j → v.findOpen ov j = some i := by
    intro i j hm
    obtain ⟨h1, h2, h3, h4, h5⟩ := (matching_iff l i j).1 hm
    have hbj : bitFn l j = false := by
      have := bitFn_getElem? l j h2; rw [hm.2.2.1] at this; simpa using this.symm
    have hEj : exc l (j+1) = exc l j - 1 := by
      have := excF_succ (bitFn l) j; rw [hbj] at this; simp at this; simp only [exc]; omega
    exact BpVector.findOpen_spec ov hi hg j i h1 h2 (by omega) (fun q q1 q2 => by have := h5 q q1 q2; omega)
  have hclose : ∀ i j, Matching l i j → v.findClose ov i = some j := by
    intro i j hm
    obtain ⟨h1, h2, h3, h4, h5⟩ := (matching_iff l i j).1 hm
    exact BpVector.findClose_spec ov hi hg i j h1 h2 h3 h4 h5
  refine ⟨v, e, fun j hb => ?_, fun i hb => ?_, fun j hb => ?_⟩
  · obtain ⟨i, hm⟩ := exists_open hd j hb
    exact ⟨i, hopen i j hm, hm⟩
  · obtain ⟨j, hm⟩ := exists_close hd i hb
    rw [hclose i j hm, bind_pure_some, hopen i j hm]
  · obtain ⟨i, hm⟩ := exists_open hd j hb
    rw [hopen i j hm, bind_pure_some, hclose i j hm]

/-- **C33**: `enclose` of an opening parenthesis lying inside some other pair is the opening parenthesis
of the nearest pair strictly containing its own. -/
theorem C33_enclose (ov : Word → Nat → Word) (l : List Bool) (hints hints0 : Bool) (hl : Bal l) (hlen : l.length < 2^31) :
    ∃ v, BpVector.build (BitVector.ofRange l) hints hints0 = some v ∧
      ∀ i j, Matching l i j → (∃ p q, Matching l p q ∧ p < i ∧ i < q) → ∃ p, v.enclose ov i = some p ∧ IsEnclose l i j p := by
  have hd := Bal.dyck hl
  have hg := hd.good hlen
  obtain ⟨v, e, _, hi⟩ := BpVector.build_inv l hints hints0 hg
  refine ⟨v, e, fun i j hm ⟨p0, q0, h0, hp, hq⟩ => ?_⟩
  obtain ⟨p, h1, h2, h3, h4⟩ := exists_enclose hd hm h0 hp hq
  obtain ⟨m1, m2, m3, _, _⟩ := (matching_iff l i j).1 hm
  exact ⟨p, BpVector.enclose_spec ov hi hg i p h2 (by omega) m3 h3 h4, h1⟩

theorem BpVector.buildMinTree_rs {rs : RSBitVector} {v : BpVector} (h : BpVector.buildMinTree rs = some v) : v.rs = rs := by
  unfold BpVector.buildMinTree at h
  split at h
  · cases h; rfl
  · simp only [Option.bind_eq_bind, Option.bind_eq_some_iff] at h
    obtain ⟨_, _, _, _, _, _, _, _, _, _, h⟩ := h
    cases h; rfl

theorem BpVector.build_rs {bv : BitVector} {a b : Bool} {v : BpVector} (h : BpVector.build bv a b = some v) :
    RSBitVector.build bv a b = some v.rs := by
  unfold BpVector.build at h
  rw [Option.bind_eq_bind, Option.bind_eq_some_iff] at h
  obtain ⟨rs, h1, h2⟩ := h
  rw [BpVector.buildMinTree_rs h2]; exact h1

/-- **C34**: `excess(pos)` is the number of opening minus the number of closing parentheses before `pos`,
for every bit sequence, balanced or not, from which a `bp_vector` can be built. -/
theorem C34_excess (l : List Bool) (hints hints0 : Bool) (hlen : l.length < 2^31) (v : BpVector)
    (hv : BpVector.build (BitVector.ofRange l) hints hints0 = some v) (pos : Nat) (hp : pos ≤ l.length) :
    v.excess pos = some (Spec.excess l pos) := by
  obtain ⟨rs, e1, _, e2⟩ := RSBitVector.build_inv l hints hints0
  rw [BpVector.build_rs hv] at e1
  cases e1
  unfold BpVector.excess
  rw [RSBitVector.rank_eq e2 pos hp, bind_pure_some, spec_excess_eq l pos hp]
  have h1 := excF_le (bitFn l) pos
  have h2 := excF_ge (bitFn l) pos
  unfold exc
  unfold excF at *
  rw [toI32_eq _ (by omega) (by omega)]
  rfl

/-- the hypothesis of `C34_excess` holds for every prefix-nonnegative sequence, balanced or not -/
theorem C34_build (l : List Bool) (hints hints0 : Bool) (hlen : l.length < 2147483584) (hpre : ∀ p, p ≤ l.length → 0 ≤ Spec.excess l p) :
    ∃ v, BpVector.build (BitVector.ofRange l) hints hints0 = some v := by
  obtain ⟨v, e, _⟩ := BpVector.build_inv l hints hints0 ⟨⟨fun p hp => by rw [← spec_excess_eq l p hp]; exact hpre p hp,
    fun p hp => by have := excF_le (bitFn l) p; simp only [exc]; omega, by omega⟩, BpVector.wide_of_lt (by omega)⟩
  exact ⟨v, e⟩

/-- **C35**: `excess_rmq(a, b, e)` returns the leftmost position of minimal excess in `[a, b]` and stores
that excess in `e`. -/
theorem C35_excess_rmq (l : List Bool) (hints hints0 : Bool) (hl : Bal l) (hlen : l.length < 2^31) :
    ∃ v, BpVector.build (BitVector.ofRange l) hints hints0 = some v ∧
      ∀ a b, a ≤ b → b ≤ l.length → ∃ p, v.excessRmq a b = some (p, Spec.excess l p) ∧ IsExcessRmq l a b p := by
  have hg := (Bal.dyck hl).good hlen
  obtain ⟨v, e, _, hi⟩ := BpVector.build_inv l hints hints0 hg
  refine ⟨v, e, fun a b hab hb => ?_⟩
  obtain ⟨i, m, h1, h2, h3, h4, h5, h6⟩ := BpVector.excessRmq_spec hi hg a b hab hb
  have hs := fun q (hq : q ≤ l.length) => spec_excess_eq l q hq
  refine ⟨i, by rw [h1, hs i (by omega), h4], h2, h3, fun q q1 q2 => ?_, fun q q1 q2 => ?_⟩
  · rw [hs i (by omega), hs q (by omega), h4]; exact h5 q q1 q2
  · rw [hs i (by omega), hs q (by omega), h4]; exact h6 q q1 q2

/-- **C35**, for every sequence of nonnegative excess below `2147483584`, balanced or not -/
theorem C35_excess_rmq_prefix (l : List Bool) (hints hints0 : Bool) (hpre : ∀ p, p ≤ l.length → 0 ≤ Spec.excess l p ∧ Spec.excess l p < 2147483584)
    (hlen : l.length < 2^31) :
    ∃ v, BpVector.build (BitVector.ofRange l) hints hints0 = some v ∧
      ∀ a b, a ≤ b → b ≤ l.length → ∃ p, v.excessRmq a b = some (p, Spec.excess l p) ∧ IsExcessRmq l a b p := by
  have hs := fun q (hq : q ≤ l.length) => spec_excess_eq l q hq
  have hg : Good l := ⟨⟨fun p hp => by rw [← hs p hp]; exact (hpre p hp).1, fun p hp => by rw [← hs p hp]; exact (hpre p hp).2, by omega⟩, BpVector.wide_of_lt (by omega)⟩
  obtain ⟨v, e, _, hi⟩ := BpVector.build_inv l hints hints0 hg
  refine ⟨v, e, fun a b hab hb => ?_⟩
  obtain ⟨i, m, h1, h2, h3, h4, h5, h6⟩ := BpVector.excessRmq_spec hi hg a b hab hb
  refine ⟨i, by rw [h1, hs i (by omega), h4], h2, h3, fun q q1 q2 => ?_, fun q q1 q2 => ?_⟩
  · rw [hs i (by omega), hs q (by omega), h4]; exact h5 q q1 q2
  · rw [hs i (by omega), hs q (by omega), h4]; exact h6 q q1 q2

/-! ## C50 -/

/-- no `bp_vector` whose size is between `2^31` and `2^32` can be built: the assertion
`cur_super_min < excess_t(size())` (`bp_vector.cpp:689`) compares with a negative number -/
theorem BpVector.build_large (bv : BitVector) (a b : Bool) (h1 : 2^31 ≤ bv.size) (h2 : bv.size ≤ 2^32) (h3 : bv.bits ≠ []) :
    BpVector.build bv a b = none := by
  cases hr : RSBitVector.build bv a b with
  | none => unfold BpVector.build; rw [hr]; rfl
  | some rs =>
    have hbv : rs.bv = bv := by
      unfold RSBitVector.build at hr
      cases a <;> cases b <;> simp only [Option.bind_eq_bind, Option.bind_eq_some_iff, if_true, Bool.false_eq_true, if_false] at hr <;>
        (obtain ⟨_, _, _, _, _, _, hr⟩ := hr; cases hr; rfl)
    unfold BpVector.build
    rw [hr, bind_pure_some]
    unfold BpVector.buildMinTree
    rw [hbv, if_neg (by omega)]
    cases hm : BpVector.blockMins bv.bits bv.size with
    | none => rfl
    | some mins =>
      rw [bind_pure_some]
      simp only []
      have hneg : toI32 (bv.size : Int) ≤ 0 := by
        unfold toI32
        rw [Int.bmod_def]
        split <;> omega
      have hleaf : ∀ n s, BpVector.leafMin rs mins n s = none := by
        intro n s
        unfold BpVector.leafMin
        cases BpVector.blockExcess rs (s*32) with
        | none => rfl
        | some e =>
          rw [bind_pure_some, hbv]
          cases BpVector.superMinLoop mins e (min ((s+1)*32) n - s*32) (s*32) (toI32 bv.size) with
          | none => rfl
          | some c =>
            rw [bind_pure_some]
            unfold assertP
            rw [if_neg (by omega)]; rfl
      have hpos : 0 < bv.bits.length := List.length_pos_iff.2 h3
      cases hx : assertP ((bv.bits.length + 4 - 1)/4 = mins.length) with
      | none => rfl
      | some _ =>
        rw [bind_pure_some]
        cases hc : BpVector.completeLeaves (((bv.bits.length + 4 - 1)/4 + 32 - 1)/32) (((bv.bits.length + 4 - 1)/4 + 32 - 1)/32) 1 with
        | none => rfl
        | some c =>
          rw [bind_pure_some]
          obtain ⟨k, hk⟩ : ∃ k, ((bv.bits.length + 4 - 1)/4 + 32 - 1)/32 = k+1 := ⟨((bv.bits.length + 4 - 1)/4 + 32 - 1)/32 - 1, by omega⟩
          rw [hk]
          unfold BpVector.leavesLoop
          rw [hleaf]
          rfl

theorem bal_pairs (n : Nat) : Bal (List.replicate n [true, false]).flatten := by
  induction n with
  | zero => exact Bal.nil
  | succ n ih =>
    rw [List.replicate_succ, List.flatten_cons]
    exact Bal.node Bal.nil ih

/-- **C50** is false: for the balanced sequence `()()()...` of `2^31` bits, whose excess is
always below the documented limit `2^31`, construction fails (an assertion
is violated; with `NDEBUG` the tree is filled with negative minima).  The same happens for every balanced
sequence whose length is between `2^31` and `2^32` bits. -/
theorem C50_large_false :
    (∃ l, Bal l ∧ (∀ p, p ≤ l.length → Spec.excess l p < 2^31) ∧ ∀ a b, BpVector.build (BitVector.ofRange l) a b = none) ∧
    ∀ l, 2^31 ≤ l.length → l.length ≤ 2^32 → ∀ a b, BpVector.build (BitVector.ofRange l) a b = none := by
  have hall : ∀ l : List Bool, 2^31 ≤ l.length → l.length ≤ 2^32 → ∀ a b, BpVector.build (BitVector.ofRange l) a b = none := by
    intro l h1 h2 a b
    have hrep := BitVector.ofRange_rep l
    refine BpVector.build_large _ a b (by rw [hrep.size]; exact h1) (by rw [hrep.size]; exact h2) (fun h => ?_)
    have := hrep.len
    rw [h, List.length_nil] at this
    omega
  refine ⟨⟨(List.replicate (2^30) [true, false]).flatten, bal_pairs _, ?_, ?_⟩, hall⟩
  · intro p hp
    have hlen : (List.replicate (2^30) [true, false]).flatten.length = 2^31 := by
      rw [List.length_flatten, List.map_replicate, List.sum_replicate_nat]; rfl
    generalize hL : (List.replicate (2^30) [true, false]).flatten = L at *
    have hd : Dyck L := by rw [← hL]; exact Bal.dyck (bal_pairs _)
    rw [spec_excess_eq L p hp]
    have h1 := excF_le (bitFn L) p
    have h2 := (excF_diff (bitFn L) hp).2
    have h3 := hd.zero
    simp only [exc] at *
    omega
  · have hlen : (List.replicate (2^30) [true, false]).flatten.length = 2^31 := by
      rw [List.length_flatten, List.map_replicate, List.sum_replicate_nat]; rfl
    generalize (List.replicate (2^30) [true, false]).flatten = L at *
    exact hall _ (by omega) (by omega)

/-- **C50**, the part that holds below `2^31` bits: all queries are correct whatever the depth.  Sequences of `2^31` bits or
more: `C50_any_length_partial`. -/
theorem C50_depth_partial (ov : Word → Nat → Word) (l : List Bool) (hints hints0 : Bool) (hl : Bal l) (hlen : l.length < 2^31) :
    ∃ v, BpVector.build (BitVector.ofRange l) hints hints0 = some v ∧
      (∀ i j, Matching l i j → v.findClose ov i = some j ∧ v.findOpen ov j = some i) ∧
      (∀ a b, a ≤ b → b ≤ l.length → ∃ p, v.excessRmq a b = some (p, Spec.excess l p) ∧ IsExcessRmq l a b p) := by
  obtain ⟨v, e, h1⟩ := C31_find_close ov l hints hints0 hl hlen
  obtain ⟨v', e', h2, _⟩ := C32_find_open ov l hints hints0 hl hlen
  obtain ⟨v'', e'', h3⟩ := C35_excess_rmq l hints hints0 hl hlen
  rw [e] at e' e''
  cases e'; cases e''
  refine ⟨v, e, fun i j hm => ?_, h3⟩
  obtain ⟨j', c1, c2⟩ := h1 i hm.2.1
  obtain ⟨i', d1, d2⟩ := h2 j hm.2.2.1
  cases matching_unique_close hm c2
  cases matching_unique_open hm d2
  exact ⟨c1, d1⟩

/-- **C50**, for sequences of any length whose excess stays below `2^31 - 64`.  A `bp_vector` can be built exactly if every superblock of
8192 bits contains a position whose excess is below the size converted to `int32_t`; and if it can be built, all queries are
correct.  Missing: the sequences for which it cannot be built, where the claim is false (`C50_large_false`, `C50_shallow_false`), and the
excesses from `2^31 - 64` on, where the padding that `excess_rmq` adds to a word may overflow `int32_t`. -/
theorem C50_any_length_partial (ov : Word → Nat → Word) (l : List Bool) (hints hints0 : Bool) (hl : Bal l) (hlen : l.length < 2^64)
    (hexc : ∀ p, p ≤ l.length → Spec.excess l p < 2^31 - 64) :
    ((∃ v, BpVector.build (BitVector.ofRange l) hints hints0 = some v) ↔
      ∀ s, 8192*s < l.length → ∃ p, 8192*s ≤ p ∧ p ≤ 8192*(s+1) ∧ p ≤ l.length ∧ Spec.excess l p < Int.bmod l.length (2^32)) ∧
    ∀ v, BpVector.build (BitVector.ofRange l) hints hints0 = some v →
      (∀ i j, Matching l i j → v.findClose ov i = some j ∧ v.findOpen ov j = some i) ∧
      (∀ i j, Matching l i j → (∃ p q, Matching l p q ∧ p < i ∧ i < q) → ∃ p, v.enclose ov i = some p ∧ IsEnclose l i j p) ∧
      (∀ p, p ≤ l.length → v.excess p = some (Spec.excess l p)) ∧
      (∀ a b, a ≤ b → b ≤ l.length → ∃ p, v.excessRmq a b = some (p, Spec.excess l p) ∧ IsExcessRmq l a b p) := by
  have hd := Bal.dyck hl
  have hs := fun q (hq : q ≤ l.length) => spec_excess_eq l q hq
  have hsm : ∀ p, p ≤ l.length → exc l p < 2147483584 := fun p hp => by rw [← hs p hp]; exact hexc p hp
  have hgood : (∀ s, 8192*s < l.length → BpVector.SM (exc l) l.length s (toI32 l.length - 1)) → Good l :=
    fun h => ⟨⟨hd.nonneg, hsm, hlen⟩, h⟩
  refine ⟨⟨?_, fun h => ?_⟩, fun v hv => ?_⟩
  · rintro ⟨v, hv⟩ s hs0
    obtain ⟨p, p1, p2, p3, p4⟩ := BpVector.build_wide l hints hints0 hd.nonneg hsm v hv s hs0
    exact ⟨p, p1, p2, p3, by rw [hs p p3]; unfold toI32 at p4; omega⟩
  · obtain ⟨v, e, _⟩ := BpVector.build_inv l hints hints0 (hgood fun s hs0 => by
      obtain ⟨p, p1, p2, p3, p4⟩ := h s hs0
      exact ⟨p, p1, p2, p3, by rw [hs p p3] at p4; unfold toI32; omega⟩)
    exact ⟨v, e⟩
  · have hg := hgood (BpVector.build_wide l hints hints0 hd.nonneg hsm v hv)
    obtain ⟨v', e, _, hi⟩ := BpVector.build_inv l hints hints0 hg
    rw [hv] at e
    cases e
    refine ⟨fun i j hm => ?_, fun i j hm ⟨p0, q0, h0, hp, hq⟩ => ?_, fun p hp => ?_, fun a b hab hb => ?_⟩
    · obtain ⟨h1, h2, h3, h4, h5⟩ := (matching_iff l i j).1 hm
      have hbj : bitFn l j = false := by
        have := bitFn_getElem? l j h2; rw [hm.2.2.1] at this; simpa using this.symm
      have hEj : exc l (j+1) = exc l j - 1 := by
        have := excF_succ (bitFn l) j; rw [hbj] at this; simp at this; simp only [exc]; omega
      exact ⟨BpVector.findClose_spec ov hi hg i j h1 h2 h3 h4 h5,
        BpVector.findOpen_spec ov hi hg j i h1 h2 (by omega) (fun q q1 q2 => by have := h5 q q1 q2; omega)⟩
    · obtain ⟨p, h1, h2, h3, h4⟩ := exists_enclose hd hm h0 hp hq
      obtain ⟨m1, m2, m3, _, _⟩ := (matching_iff l i j).1 hm
      exact ⟨p, BpVector.enclose_spec ov hi hg i p h2 (by omega) m3 h3 h4, h1⟩
    · rw [BpVector.excess_eq hi.toInv0 hg.toMild p hp, hs p hp]
    · obtain ⟨i, m, h1, h2, h3, h4, h5, h6⟩ := BpVector.excessRmq_spec hi hg a b hab hb
      refine ⟨i, by rw [h1, hs i (by omega), h4], h2, h3, fun q q1 q2 => ?_, fun q q1 q2 => ?_⟩
      · rw [hs i (by omega), hs q (by omega), h4]; exact h5 q q1 q2
      · rw [hs i (by omega), hs q (by omega), h4]; exact h6 q q1 q2

theorem length_pairs (n : Nat) : (List.replicate n [true, false]).flatten.length = 2*n := by
  rw [List.length_flatten, List.map_replicate, List.sum_replicate_nat]; simp; omega

/-- the excess of `()()()...` is 0 at even positions and at most 1 -/
theorem excess_pairs (n : Nat) : ∀ p, p ≤ 2*n → Spec.excess (List.replicate n [true, false]).flatten p = (p % 2 : Nat) := by
  induction n with
  | zero => intro p hp; rw [show p = 0 by omega]; rfl
  | succ n ih =>
    intro p hp
    rw [List.replicate_succ, List.flatten_cons]
    match p with
    | 0 => rfl
    | 1 => rfl
    | p+2 =>
      have := ih p (by omega)
      unfold Spec.excess at this ⊢
      simp only [List.cons_append, List.nil_append, List.take_succ_cons, List.count_cons] at this ⊢
      simp at this ⊢
      omega

/-- `C50_any_length_partial` covers vectors of more than `2^32` bits: `()()()...` of `2^32 + 2` bits can be built and all queries are correct -/
example : let l := (List.replicate (2^31 + 1) [true, false]).flatten
    l.length = 2^32 + 2 ∧ Bal l ∧ ∃ v, BpVector.build (BitVector.ofRange l) true false = some v ∧ ∀ i j, Matching l i j → v.findClose (fun _ _ => 0) i = some j := by
  intro l
  have hlen : l.length = 2^32 + 2 := (length_pairs _).trans (by omega)
  have hx : ∀ p, p ≤ l.length → Spec.excess l p = (p % 2 : Nat) := fun p hp => excess_pairs _ p (by rw [hlen] at hp; omega)
  have h := C50_any_length_partial (fun _ _ => 0) l true false (bal_pairs _) (by rw [hlen]; omega) (fun p hp => by rw [hx p hp]; omega)
  obtain ⟨v, hv⟩ := h.1.2 (fun s hs => ⟨8192*s, by omega, by omega, by omega, by
    rw [hx _ (by omega), hlen, show Int.bmod ((2^32+2 : Nat) : Int) (2^32) = 2 by decide +kernel]; omega⟩)
  exact ⟨hlen, bal_pairs _, v, hv, fun i j hm => ((h.2 v hv).1 i j hm).1⟩

theorem Spec.excess_cons (b : Bool) (l : List Bool) (p : Nat) : Spec.excess (b :: l) (p+1) = (if b then 1 else -1) + Spec.excess l p := by
  unfold Spec.excess
  rw [List.take_succ_cons]
  cases b <;> simp <;> omega

theorem Spec.excess_append_left (l r : List Bool) (p : Nat) (hp : p ≤ l.length) : Spec.excess (l ++ r) p = Spec.excess l p := by
  unfold Spec.excess
  rw [List.take_append_of_le_length hp]

/-- `((()()()...))` cannot be built if its size is 2 as an `int32_t` -/
theorem shallow_none (P : List Bool) (n N : Nat) (hn : 2*n + 4 = N) (hP : P.length = 2*n) (hX : ∀ p, p ≤ 2*n → Spec.excess P p = (p % 2 : Nat))
    (hB : Bal P) (h1 : 16386 ≤ N) (h2 : N < 2^64) (hm : Int.bmod N (2^32) = 2) :
    ∃ l, Bal l ∧ l.length = N ∧ (∀ p, p ≤ l.length → Spec.excess l p ≤ 3) ∧ ∀ a b, BpVector.build (BitVector.ofRange l) a b = none := by
  have hbal : Bal (true :: (true :: P ++ [false]) ++ [false]) := Bal.node (b := []) (Bal.node (b := []) hB Bal.nil) Bal.nil
  have hlen : (true :: (true :: P ++ [false]) ++ [false]).length = N := by
    simp only [List.length_append, List.length_cons, List.length_nil, hP]; omega
  have hmid : ∀ p, p ≤ 2*n → Spec.excess (true :: (true :: P ++ [false]) ++ [false]) (p+2) = 2 + (p % 2 : Nat) := by
    intro p hp
    rw [show true :: (true :: P ++ [false]) ++ [false] = true :: true :: (P ++ [false, false]) by simp, Spec.excess_cons, Spec.excess_cons,
      Spec.excess_append_left _ _ _ (by omega), hX p hp]
    simp; omega
  have h0 : Spec.excess (true :: (true :: P ++ [false]) ++ [false]) 0 ≤ 3 := by simp [Spec.excess]
  have h01 : Spec.excess (true :: (true :: P ++ [false]) ++ [false]) 1 ≤ 3 := by simp [Spec.excess]
  generalize true :: (true :: P ++ [false]) ++ [false] = L at *
  have hle : ∀ p, p ≤ N → Spec.excess L p ≤ 3 := by
    intro p hp
    by_cases hp2 : p < 2
    · rcases (by omega : p = 0 ∨ p = 1) with rfl | rfl
      · exact h0
      · exact h01
    · by_cases h : p - 2 ≤ 2*n
      · have := hmid (p-2) h
        rw [show p - 2 + 2 = p by omega] at this
        omega
      · have h1 := (Bal.dyck hbal).zero
        rw [spec_excess_eq _ _ (by omega)]
        have h2 := (excF_diff (bitFn L) (show p ≤ L.length by omega)).2
        simp only [exc] at h1 ⊢
        omega
  refine ⟨L, hbal, hlen, fun p hp => hle p (by omega), fun a b => ?_⟩
  rw [Option.eq_none_iff_forall_ne_some]
  intro v hv
  have h := (C50_any_length_partial (fun _ _ => 0) L a b hbal (by omega) (fun p hp => by have := hle p (by omega); omega)).1.1 ⟨v, hv⟩
  obtain ⟨p, p1, p2, p3, p4⟩ := h 1 (by omega)
  have := hmid (p-2) (by omega)
  rw [show p - 2 + 2 = p by omega] at this
  rw [hlen, hm] at p4
  omega

/-- **C50** is false beyond `2^32` bits, too, even for depth 3: `((()()()...))` of `2^32 + 2` bits cannot be built -/
theorem C50_shallow_false : ∃ l, Bal l ∧ l.length = 2^32 + 2 ∧ (∀ p, p ≤ l.length → Spec.excess l p ≤ 3) ∧
    ∀ a b, BpVector.build (BitVector.ofRange l) a b = none := by
  have hm : Int.bmod ((2^32 + 2 : Nat) : Int) (2^32) = 2 := by decide +kernel
  obtain ⟨n, hn⟩ : ∃ n, 2*n + 4 = 2^32 + 2 := ⟨2147483647, by omega⟩
  have h1 : 16386 ≤ 2^32 + 2 := by omega
  have h2 : 2^32 + 2 < 2^64 := by omega
  generalize 2^32 + 2 = N at hm hn h1 h2 ⊢
  exact shallow_none _ n N hn (length_pairs n) (excess_pairs n) (bal_pairs n) h1 h2 hm

/-! ## Concrete cases -/

/-- `(()())()` is balanced -/
theorem bal_example : Bal [true, true, false, true, false, false, true, false] :=
  Bal.node (a := [true, false, true, false]) (b := [true, false])
    (Bal.node (a := []) (b := [true, false]) Bal.nil (Bal.node (a := []) (b := []) Bal.nil Bal.nil))
    (Bal.node (a := []) (b := []) Bal.nil Bal.nil)

/-- `C31`, `C32`, `C33`: the sequence meets the hypotheses, position 0 matches 5, and 3 is enclosed by 0 -/
example : ∃ v, BpVector.build (BitVector.ofRange [true, true, false, true, false, false, true, false]) true false = some v ∧
    v.findClose (fun _ _ => 0) 0 = some 5 ∧ v.findOpen (fun _ _ => 0) 5 = some 0 ∧ v.enclose (fun _ _ => 0) 3 = some 0 ∧
    v.excess 2 = some 2 ∧ v.excessRmq 1 5 = some (1, 1) := by
  exact ⟨_, rfl, by decide +kernel, by decide +kernel, by decide +kernel, by decide +kernel, by decide +kernel⟩

example : Matching [true, true, false, true, false, false, true, false] 0 5 :=
  ⟨by decide, rfl, rfl, Bal.node (a := []) (b := [true, false]) Bal.nil (Bal.node (a := []) (b := []) Bal.nil Bal.nil)⟩

/-- `C33`: an inner pair -/
example : ∃ p q, Matching [true, true, false, true, false, false, true, false] p q ∧ p < 3 ∧ 3 < q :=
  ⟨0, 5, ⟨by decide, rfl, rfl, Bal.node (a := []) (b := [true, false]) Bal.nil (Bal.node (a := []) (b := []) Bal.nil Bal.nil)⟩, by decide, by decide⟩

/-- `C35`: leftmost minimum, not any minimum -/
example : IsExcessRmq [true, true, false, true, false, false, true, false] 5 8 6 := by
  refine ⟨by decide, by decide, ?_, ?_⟩ <;> decide

/-- deep sequences are balanced, too, so `C31` covers answers thousands of blocks away -/
theorem bal_deep (n : Nat) : Bal (List.replicate n true ++ List.replicate n false) := by
  induction n with
  | zero => exact Bal.nil
  | succ n ih =>
    have : List.replicate (n+1) true ++ List.replicate (n+1) false = true :: (List.replicate n true ++ List.replicate n false) ++ false :: [] := by
      rw [List.replicate_succ, List.replicate_succ', List.cons_append, ← List.append_assoc]; rfl
    rw [this]
    exact Bal.node ih Bal.nil

example : Matching (List.replicate 1000000 true ++ List.replicate 1000000 false) 0 1999999 := by
  have hd := Bal.dyck (bal_deep 1000000)
  obtain ⟨j, hj⟩ := exists_close hd 0 (by rw [List.getElem?_append_left (by rw [List.length_replicate]; omega), List.getElem?_replicate, if_pos (by omega)])
  have := (matching_iff _ _ _).1 hj
  obtain ⟨h1, h2, h3, h4, h5⟩ := this
  rw [List.length_append, List.length_replicate, List.length_replicate] at h2
  rcases Nat.lt_or_ge j 1999999 with hh | hh
  · exfalso
    have hE : exc (List.replicate 1000000 true ++ List.replicate 1000000 false) (j+1) = 0 := by rw [h4]; exact excF_zero _
    have hz := hd.zero
    rw [List.length_append, List.length_replicate, List.length_replicate] at hz
    by_cases hj2 : j + 1 ≤ 1000000
    · have := excF_true (f := bitFn (List.replicate 1000000 true ++ List.replicate 1000000 false)) (Nat.zero_le (j+1)) (fun i _ h => by
        rw [bitFn_append, List.length_replicate, if_pos (by omega), bitFn_replicate]; simp; omega)
      rw [excF_zero] at this; simp only [exc] at hE; omega
    · have := excF_false (f := bitFn (List.replicate 1000000 true ++ List.replicate 1000000 false)) (show j+1 ≤ 1000000+1000000 by omega) (fun i h _ => by
        rw [bitFn_append, List.length_replicate, if_neg (by omega), bitFn_replicate]; simp)
      simp only [exc] at hE hz; omega
  · have : j = 1999999 := by omega
    subst this; exact hj

end Succinct
