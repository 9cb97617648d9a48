import Verif.Lemmas.ReleaseFano

/-! # C110: compressed sequences built without assertions

`n` is the universe and `m` the capacity given to the builder, with the conditions of C20-C24 under which the size of the high part does not
wrap. -/
namespace Succinct
open Spec Release
open RSBitVector (bind_pure_some)

theorem Release.combine_toNat (d : Nat) (x : Word) (w : Nat) (hw : w < 64) :
    (BitVec.ofNat 64 d <<< w ||| (x &&& maskW w)).toNat = (d * 2^w + x.toNat % 2^w) % 2^64 := by
  apply Nat.eq_of_testBit_eq
  intro i
  rw [BitVec.testBit_toNat, BitVec.getLsbD_or, and_maskW_bit x w i hw, BitVec.getLsbD_shiftLeft, BitVec.getLsbD_ofNat, Nat.testBit_mod_two_pow,
    Nat.mul_comm d, Nat.testBit_two_pow_mul_add _ (Nat.mod_lt _ (Nat.two_pow_pos w)), Nat.testBit_mod_two_pow]
  by_cases h1 : i < 64
  · by_cases h2 : i < w
    · rw [if_pos h2]; simp [h1, h2, BitVec.testBit_toNat]
    · rw [if_neg h2]
      have : i - w < 64 := by omega
      simp [h1, h2, this]
  · by_cases h2 : i < w
    · omega
    · simp [h1, h2]

theorem Release.efOfSeq_good (n : Word) (m : Nat) (xs : List Word) (wr : Bool) (hm : m ≤ 2^62) (h0 : m = 0 → n.toNat + 2 < 2^64) :
    ((∀ p ∈ markPos (lowWidth n.toNat m) xs, p < roundUp (highSize n.toNat m)) →
      ∃ ef, efOfSeq n m xs wr = some ef ∧ ef.size = n ∧ ef.numOnes = (markList (highSize n.toNat m) (markPos (lowWidth n.toNat m) xs)).length ∧
      ∀ ov k, ef.select ov k = (markList (highSize n.toNat m) (markPos (lowWidth n.toNat m) xs))[k]?.bind fun q => xs[k]?.map fun x =>
        BitVec.ofNat 64 (q - k) <<< lowWidth n.toNat m ||| (x &&& maskW (lowWidth n.toNat m))) ∧
    ((efOfSeq n m xs wr).isSome → ∀ p ∈ markPos (lowWidth n.toNat m) xs, p < roundUp (highSize n.toNat m)) := by
  obtain ⟨b, r, e, g, _⟩ := efNew_good n m ⟨hm, h0⟩
  obtain ⟨f1, f2⟩ := efFold_good n m xs g (by simp [markPos])
  rw [List.nil_append] at f1 f2
  unfold efOfSeq
  rw [e, bind_pure_some]
  refine ⟨fun hp => ?_, fun hp => f2 ?_⟩
  · obtain ⟨b', r', e', g'⟩ := f1 hp
    rw [e', bind_pure_some]
    exact efBuild_good g' wr
  · cases hq : xs.foldlM efPush b with
    | none => rw [hq] at hp; cases hp
    | some _ => rfl

/-- **C110.** Any values may be pushed, in any order and number: the builder checks nothing.  This is undefined behaviour exactly if some
mark falls outside of the words of the high part. -/
theorem C110_push (n : Word) (m : Nat) (xs : List Word) (wr : Bool) (hm : m ≤ 2^62) (h0 : m = 0 → n.toNat + 2 < 2^64) :
    (efOfSeq n m xs wr).isSome ↔ ∀ p ∈ markPos (lowWidth n.toNat m) xs, p < roundUp (highSize n.toNat m) := by
  obtain ⟨h1, h2⟩ := efOfSeq_good n m xs wr hm h0
  refine ⟨h2, fun h => ?_⟩
  obtain ⟨ef, e, _⟩ := h1 h
  rw [e]; rfl

/-- **C110.** The resulting sequence: as many values as there are distinct marks inside the high part, the `k`-th composed of the `k`-th
smallest mark and of the low bits of the `k`-th value pushed. -/
theorem C110_select (n : Word) (m : Nat) (xs : List Word) (wr : Bool) (hm : m ≤ 2^62) (h0 : m = 0 → n.toNat + 2 < 2^64) (ef : EliasFano)
    (h : efOfSeq n m xs wr = some ef) :
    let w := lowWidth n.toNat m
    let l := marks (highSize n.toNat m) (markPos w xs)
    ef.size = n ∧ ef.numOnes = l.count true ∧
      ∀ ov k (r : Word), ef.select ov k = some r ↔
        ∃ q x, IsSelect1 l k q ∧ xs[k]? = some x ∧ r.toNat = ((q - k) * 2^w + x.toNat % 2^w) % 2^64 := by
  obtain ⟨h1, h2⟩ := efOfSeq_good n m xs wr hm h0
  have lb := (lowLen_eq n m).2
  obtain ⟨ef', e, g1, g2, g3⟩ := h1 (h2 (by rw [h]; rfl))
  rw [h] at e
  cases Option.some.inj e
  refine ⟨g1, g2.trans (count_marks _ _).symm, fun ov k r => ?_⟩
  rw [g3]
  simp only [Option.bind_eq_some_iff, Option.map_eq_some_iff, isSelect_marks]
  constructor
  · rintro ⟨q, hq, x, hx, rfl⟩
    exact ⟨q, x, hq, hx, combine_toNat _ _ _ lb⟩
  · rintro ⟨q, x, hq, hx, hr⟩
    exact ⟨q, hq, x, hx, BitVec.eq_of_toNat_eq (by rw [combine_toNat _ _ _ lb, hr])⟩

theorem Release.gap {M : List Nat} (h : M.Pairwise (· < ·)) (i d : Nat) (hd : i + d < M.length) : M[i] + d ≤ M[i + d] := by
  induction d with
  | zero => exact Nat.le_refl _
  | succ d ih =>
    have := List.pairwise_iff_getElem.1 h (i + d) (i + d + 1) (by omega) (by omega) (by omega)
    have := ih (by omega)
    show _ ≤ M[i + d + 1]
    omega

/-- **C110.** The values come back as they were pushed exactly if their high parts do not decrease and stay inside; the order of the low
parts, and whether the values are at most `n`, do not matter. -/
theorem C110_order (n : Word) (m : Nat) (xs : List Word) (wr : Bool) (hm : m ≤ 2^62) (h0 : m = 0 → n.toNat + 2 < 2^64) (ef : EliasFano)
    (h : efOfSeq n m xs wr = some ef) (ov : Word → Nat → Word) :
    (∀ k, ef.select ov k = xs[k]?) ↔
      xs.Pairwise (fun x y => x.toNat / 2^lowWidth n.toNat m ≤ y.toNat / 2^lowWidth n.toNat m) ∧
      ∀ (k : Nat) (x : Word), xs[k]? = some x → x.toNat / 2^lowWidth n.toNat m + k < highSize n.toNat m := by
  obtain ⟨h1, h2⟩ := efOfSeq_good n m xs wr hm h0
  have lb := (lowLen_eq n m).2
  obtain ⟨_, _, _, _, hN⟩ := efNew_good n m ⟨hm, h0⟩
  obtain ⟨ef', e, _, _, g3⟩ := h1 (h2 (by rw [h]; rfl))
  rw [h] at e
  cases Option.some.inj e
  clear h1 h2 h h0 hm
  generalize lowWidth n.toNat m = w at *
  generalize highSize n.toNat m = N at *
  have hps : ∀ (k : Nat) (x : Word), xs[k]? = some x → (markPos w xs)[k]? = some ((x.toNat / 2^w + k) % 2^64) := by
    intro k x hx
    unfold markPos
    rw [List.getElem?_mapIdx, hx]; rfl
  have hpl : (markPos w xs).length = xs.length := by simp [markPos]
  generalize markPos w xs = ps at *
  have hsort := markList_sorted N ps
  have hsub := markList_subperm N ps
  constructor
  · intro hall
    have hq : ∀ (k : Nat) (x : Word), xs[k]? = some x → ∃ q, (markList N ps)[k]? = some q ∧ x.toNat / 2^w + k ≤ q := by
      intro k x hx
      have := hall k
      rw [g3, hx] at this
      simp only [Option.bind_eq_some_iff, Option.map_some] at this
      obtain ⟨q, q1, q2⟩ := this
      refine ⟨q, q1, ?_⟩
      have hv := congrArg BitVec.toNat (Option.some.inj q2)
      rw [combine_toNat _ _ _ lb] at hv
      have hle : x.toNat ≤ (q - k) * 2^w + x.toNat % 2^w := by
        have := Nat.mod_le ((q - k) * 2^w + x.toNat % 2^w) (2^64)
        omega
      have hdm := Nat.div_add_mod x.toNat (2^w)
      have h3 : 2^w * (x.toNat / 2^w) ≤ 2^w * (q - k) := by rw [Nat.mul_comm (2^w) (q - k)]; omega
      have h4 := Nat.le_of_mul_le_mul_left h3 (Nat.two_pow_pos w)
      have hkq : k ≤ q := by
        obtain ⟨hk, hkq⟩ := List.getElem?_eq_some_iff.1 q1
        have := gap hsort 0 k (by omega)
        simp only [Nat.zero_add] at this
        omega
      omega
    have hML : (markList N ps).length = ps.length := by
      have h1 := hsub.length_le
      have h2 : ps.length ≤ (markList N ps).length := by
        rcases Nat.lt_or_ge (markList N ps).length ps.length with hlt | hge
        · obtain ⟨q, q1, _⟩ := hq (markList N ps).length xs[(markList N ps).length] (List.getElem?_eq_getElem (by omega))
          rw [List.getElem?_eq_none (Nat.le_refl _)] at q1
          cases q1
        · exact hge
      omega
    have hperm := hsub.perm_of_length_le (by omega)
    have heq : ps = markList N ps := by
      apply eq_of_sum_le _ _ hML.symm
      · intro k a b ha hb
        have hk := (List.getElem?_eq_some_iff.1 ha).1
        have hx := List.getElem?_eq_getElem (show k < xs.length by omega)
        obtain ⟨q, q1, q2⟩ := hq k _ hx
        rw [hps k _ hx] at ha
        rw [hb] at q1
        cases ha; cases q1
        exact Nat.le_trans (Nat.mod_le _ _) q2
      · rw [hperm.sum_nat]
    have hex : ∀ (k : Nat) (x : Word), xs[k]? = some x → (markList N ps)[k]? = some (x.toNat / 2^w + k) := by
      intro k x hx
      obtain ⟨q, q1, q2⟩ := hq k x hx
      have h3 := hps k x hx
      rw [heq] at h3
      rw [← heq] at q1
      rw [← heq] at h3
      rw [h3] at q1
      have := Nat.mod_le (x.toNat / 2^w + k) (2^64)
      rw [← heq, h3]
      have := Option.some.inj q1
      congr 1
      omega
    refine ⟨?_, ?_⟩
    · rw [List.pairwise_iff_getElem]
      intro i j hi hj hij
      have e1 := hex i _ (List.getElem?_eq_getElem hi)
      have e2 := hex j _ (List.getElem?_eq_getElem hj)
      obtain ⟨l1, e1⟩ := List.getElem?_eq_some_iff.1 e1
      obtain ⟨l2, e2⟩ := List.getElem?_eq_some_iff.1 e2
      have := gap hsort i (j - i) (by omega)
      rw [e1] at this
      have h5 : (markList N ps)[i + (j - i)]'(by omega) = (markList N ps)[j] := by congr 1; omega
      rw [h5, e2] at this
      omega
    · intro k x hx
      exact ((mem_markList N ps _).1 (List.mem_of_getElem? (hex k x hx))).1
  · rintro ⟨hpw, hin⟩
    have hps' : ∀ (k : Nat) (x : Word), xs[k]? = some x → ps[k]? = some (x.toNat / 2^w + k) := by
      intro k x hx
      rw [hps k x hx, Nat.mod_eq_of_lt]
      exact Nat.lt_trans (hin k x hx) hN
    have hlt : ps.Pairwise (· < ·) := by
      rw [List.pairwise_iff_getElem]
      intro i j hi hj hij
      have h1 := List.getElem?_eq_some_iff.1 (hps' i _ (List.getElem?_eq_getElem (by omega)))
      have h2 := List.getElem?_eq_some_iff.1 (hps' j _ (List.getElem?_eq_getElem (by omega)))
      obtain ⟨_, h1⟩ := h1
      obtain ⟨_, h2⟩ := h2
      have := List.pairwise_iff_getElem.1 hpw i j (by omega) (by omega) hij
      rw [h1, h2]
      omega
    have heq : markList N ps = ps := by
      refine List.Perm.eq_of_pairwise (le := (· < ·)) (fun a b _ _ h1 h2 => absurd h2 (Nat.lt_asymm h1)) hsort hlt ?_
      rw [List.perm_ext_iff_of_nodup (markList_nodup N ps) (hlt.imp fun h => Nat.ne_of_lt h)]
      intro a
      rw [mem_markList]
      refine ⟨fun h => h.2, fun h => ⟨?_, h⟩⟩
      obtain ⟨k, hk, rfl⟩ := List.getElem_of_mem h
      have hx := List.getElem?_eq_getElem (show k < xs.length by omega)
      have h1 := List.getElem?_eq_some_iff.1 (hps' k _ hx)
      obtain ⟨_, h1⟩ := h1
      rw [h1]
      exact hin k _ hx
    intro k
    rw [g3, heq]
    cases hx : xs[k]? with
    | none =>
      cases ps[k]? <;> rfl
    | some x =>
      rw [hps' k x hx, Option.bind_some, Option.map_some, Nat.add_sub_cancel, combine_eq _ _ lb]

/-- values out of order, but with non-decreasing high parts, and values of the last word, above the universe, still inside -/
example : (efOfSeq 100 4 [13, 10, 50, 49] true).map (fun ef => (ef.l, (List.range 5).map fun k => ef.select (fun _ _ => 0) k)) =
    some (4, [some 13, some 10, some 50, some 49, none]) := by decide +kernel

example : markPos 4 [90, 10, 50, 95] = [5, 1, 5, 8] ∧ lowWidth 100 4 = 4 ∧ highSize 100 4 = 12 := by decide +kernel

/-- **C110.** Otherwise values appear that nobody stored: of 90, 10, 50, 95 remain 26, 74 and 98.  Values beyond the universe or the
capacity may be lost. -/
theorem C110_unsorted_false :
    (efOfSeq 100 4 [90, 10, 50, 95] true).map (fun ef => (ef.numOnes, (List.range 4).map fun k => ef.select (fun _ _ => 0) k)) =
      some (3, [some 26, some 74, some 98, none]) ∧
    (efOfSeq 100 4 [10, 20, 300] true).map (fun ef => (ef.numOnes, (List.range 3).map fun k => ef.select (fun _ _ => 0) k)) =
      some (2, [some 10, some 20, none]) ∧
    (efOfSeq 100 4 [10, 20, 30, 40, 50, 60, 100] true).map (fun ef => ef.numOnes) = some 6 ∧
    efOfSeq 100 4 [10, 20, 70000] true = none := by decide +kernel

theorem Release.set_some {b b' : Builder} {pos : Nat} {x : Bool} (h : b.set pos x = some b') :
    pos / 64 < b.bits.length ∧ b'.bits.length = b.bits.length := by
  unfold Builder.set at h
  dsimp only at h
  rw [shl_eq _ _ (by omega), bind_pure_some] at h
  rcases Nat.lt_or_ge (pos / 64) b.bits.length with hw | hw
  · refine ⟨hw, ?_⟩
    rw [rd_eq _ _ hw, bind_pure_some, wr_eq _ _ _ hw, bind_pure_some, shl_eq _ _ (by omega), bind_pure_some, rd_eq _ _ (by simpa using hw),
      bind_pure_some, wr_eq _ _ _ (by simpa using hw), bind_pure_some] at h
    cases Option.some.inj h
    simp
  · have : rd b.bits (pos / 64) = none := List.getElem?_eq_none (by omega)
    rw [this] at h; cases h

theorem Release.efNew_of_new {n : Word} {m : Nat} {b : EFBuilder} (hb : EFBuilder.new n m = some b) :
    efNew n m = some b ∧ b.high.bits.length ≤ 2^58 := by
  unfold EFBuilder.new at hb
  obtain ⟨hl, hl2⟩ := lowLen_eq n m
  obtain ⟨hi, e1, g1⟩ := Builder.new_inv (((m + 1) + (n.toNat >>> lowWidth n.toNat m) + 1) % 2^64) false
  obtain ⟨lo, e2, g2⟩ := Builder.new_inv 0 false
  rw [hl, bind_pure_some, e1, bind_pure_some, assertP_eq _ hl2, bind_pure_some, e2, bind_pure_some] at hb
  cases Option.some.inj hb
  refine ⟨?_, ?_⟩
  · unfold efNew
    rw [hl, bind_pure_some, e1, bind_pure_some, e2, bind_pure_some]; rfl
  · show hi.bits.length ≤ _
    have h1 := g1.len
    rw [List.length_replicate] at h1
    have := Nat.mod_lt ((m + 1) + (n.toNat >>> lowWidth n.toNat m) + 1) (show 2^64 > 0 by decide)
    omega

theorem Release.efPush_of_push {b b' : EFBuilder} {x : Word} (hb : b.high.bits.length ≤ 2^58) (hp : b.pushBack x = some b') :
    efPush b x = some b' ∧ b'.high.bits.length ≤ 2^58 := by
  unfold EFBuilder.pushBack at hp
  simp only [Option.bind_eq_bind, Option.bind_eq_some_iff] at hp
  obtain ⟨_, _, mask, p1, low, p2, hh, p3, high, p4, _, _, p5⟩ := hp
  obtain ⟨s1, s2⟩ := set_some p4
  have hap : efAppendLow b x mask = some low := by
    unfold EFBuilder.appendLow at p2
    unfold efAppendLow
    by_cases h0 : b.l ≠ 0
    · rw [if_pos h0] at p2 ⊢
      unfold Builder.appendBits at p2
      rw [Option.bind_eq_bind, Option.bind_eq_some_iff] at p2
      obtain ⟨_, _, p2⟩ := p2
      exact p2
    · rw [if_neg h0] at p2 ⊢; exact p2
  cases Option.some.inj p5
  refine ⟨?_, by rw [← s2] at hb; exact hb⟩
  unfold efPush
  rw [p1, bind_pure_some, hap, bind_pure_some, p3, bind_pure_some, Nat.mod_eq_of_lt (by omega), p4, bind_pure_some]
  rfl

theorem Release.bitVector_of_ofBuilder {b : Builder} {v : BitVector} (hv : BitVector.ofBuilder b = some v) : v = bitVector b := by
  unfold BitVector.ofBuilder at hv
  rw [Option.bind_eq_bind, Option.bind_eq_some_iff] at hv
  obtain ⟨_, _, hv⟩ := hv
  exact (Option.some.inj hv).symm

theorem Release.efBuild_of_build {b : EFBuilder} {wr : Bool} {ef : EliasFano} (e3 : EliasFano.build b wr = some ef) :
    efBuild b wr = some ef := by
  unfold EliasFano.build at e3
  rw [Option.bind_eq_bind, Option.bind_eq_some_iff] at e3
  obtain ⟨hi, q1, e3⟩ := e3
  rw [Option.bind_eq_bind, Option.bind_eq_some_iff] at e3
  obtain ⟨d1, q2, e3⟩ := e3
  cases bitVector_of_ofBuilder q1
  unfold efBuild
  rw [q2, bind_pure_some]
  cases wr with
  | false =>
    rw [if_neg (by simp), Option.bind_some] at e3
    simp only [Option.bind_eq_some_iff] at e3
    obtain ⟨lo, q3, e3⟩ := e3
    cases bitVector_of_ofBuilder q3
    rw [if_neg (by simp), bind_pure_some]
    exact e3
  | true =>
    rw [if_pos rfl] at e3
    simp only [Option.bind_eq_some_iff] at e3
    obtain ⟨d0, q4, lo, q3, e3⟩ := e3
    cases bitVector_of_ofBuilder q3
    rw [if_pos rfl, q4, bind_pure_some]
    exact e3

theorem Release.efFold_of_fold (xs : List Word) (b b' : EFBuilder) (hl : b.high.bits.length ≤ 2^58) (hb : xs.foldlM EFBuilder.pushBack b = some b') :
    xs.foldlM efPush b = some b' := by
  induction xs generalizing b with
  | nil => exact hb
  | cons x xs ih =>
    rw [List.foldlM_cons, Option.bind_eq_bind, Option.bind_eq_some_iff] at hb
    obtain ⟨b1, h1, h2⟩ := hb
    obtain ⟨f1, f2⟩ := efPush_of_push hl h1
    rw [List.foldlM_cons, f1, bind_pure_some]
    exact ih _ f2 h2

theorem Release.efFill_of_fill (bv : BitVector) (k i : Nat) (b b' : EFBuilder) (hl : b.high.bits.length ≤ 2^58)
    (hb : EliasFano.fillLoop bv k i b = some b') : efFill bv k i b = some b' := by
  induction k generalizing i b with
  | zero => exact hb
  | succ k ih =>
    unfold EliasFano.fillLoop at hb
    simp only [Option.bind_eq_bind, Option.bind_eq_some_iff] at hb
    obtain ⟨j, h1, b1, h2, h3⟩ := hb
    obtain ⟨f1, f2⟩ := efPush_of_push hl h2
    have h4 : bSuccessor1 bv i = some j := by
      unfold BitVector.successor at h1
      rw [Option.bind_eq_bind, Option.bind_eq_some_iff] at h1
      obtain ⟨_, _, h1⟩ := h1
      exact h1
    unfold efFill
    rw [h4, bind_pure_some, f1, bind_pure_some]
    exact ih _ _ f2 h3

/-- **C110.** What the constructors with assertions build, those without build as well; in particular all that can be stored (C20-C25). -/
theorem C110_same_answers (wr : Bool) (ef : EliasFano) :
    (∀ n m xs, EliasFano.ofSeq n m xs wr = some ef → efOfSeq n m xs wr = some ef) ∧
    (∀ b, EliasFano.ofBitmap b wr = some ef → efOfBitmap b wr = some ef) := by
  refine ⟨fun n m xs h => ?_, fun b h => ?_⟩
  · unfold EliasFano.ofSeq at h
    simp only [Option.bind_eq_bind, Option.bind_eq_some_iff] at h
    obtain ⟨b, e1, b', e2, e3⟩ := h
    obtain ⟨f1, f2⟩ := efNew_of_new e1
    unfold efOfSeq
    rw [f1, bind_pure_some, efFold_of_fold _ _ _ f2 e2, bind_pure_some]
    exact efBuild_of_build e3
  · unfold EliasFano.ofBitmap at h
    simp only [Option.bind_eq_bind, Option.bind_eq_some_iff] at h
    obtain ⟨bv, e0, eb, e1, eb', e2, e3⟩ := h
    cases bitVector_of_ofBuilder e0
    obtain ⟨f1, f2⟩ := efNew_of_new e1
    unfold efOfBitmap
    dsimp only
    rw [f1, bind_pure_some, efFill_of_fill _ _ _ _ _ f2 e2, bind_pure_some]
    exact efBuild_of_build e3

example : EliasFano.ofSeq 30 6 exampleSeq true = efOfSeq 30 6 exampleSeq true ∧ (efOfSeq 30 6 exampleSeq true).isSome = true := by decide +kernel

theorem Release.bSuccessor1_eq (v : BitVector) (pos : Nat) (h : pos < 64 * v.bits.length) :
    bSuccessor1 v pos = BitVector.successor false ⟨64 * v.bits.length, v.bits⟩ pos := by
  unfold bSuccessor1 BitVector.successor
  dsimp only
  rw [assertP_eq _ h, bind_pure_some]
  rfl

theorem Release.efFill_eq {v : BitVector} {l : List Bool} (h : Rep ⟨64 * v.bits.length, v.bits⟩ l) (k i : Nat) (b : EFBuilder)
    (hk : cnt (bitFn l) i + k = cnt (bitFn l) l.length) (hi : i ≤ l.length) :
    efFill v k i b = ((onesIn (bitFn l) i l.length).map (BitVec.ofNat 64)).foldlM efPush b := by
  have hsz : 64 * v.bits.length = l.length := h.size
  induction k generalizing i b with
  | zero =>
    rw [onesIn_nil ((cnt_eq_iff_false hi).1 (by omega))]; rfl
  | succ k ih =>
    obtain ⟨p, p1, p2, p3⟩ := sel_exists (show cnt (bitFn l) i < cnt (bitFn l) l.length by omega)
    have hip : i ≤ p := by
      rcases Nat.lt_or_ge p i with a | a
      · have := cnt_lt_of_true a p2; omega
      · exact a
    have hz := (cnt_eq_iff_false hip).1 p3.symm
    have hs : bSuccessor1 v i = some p := by
      rw [bSuccessor1_eq v i (by omega)]
      have := BitVector.successor_cases false h i (by omega)
      have hw : l.length ≤ 64 * wordsFor l.length := by rw [wordsFor_eq]; omega
      revert this
      cases BitVector.successor false ⟨64 * v.bits.length, v.bits⟩ i with
      | none => intro this; have := this p hip (by omega); rw [Bool.false_xor, p2] at this; simp at this
      | some q =>
        rintro ⟨q1, q0, q2, q3⟩
        rw [Bool.false_xor] at q2
        congr 1
        rcases Nat.lt_trichotomy q p with c | c | c
        · have := hz q q1 c; rw [q2] at this; simp at this
        · exact c
        · have := q3 p hip c; rw [Bool.false_xor, p2] at this; simp at this
    unfold efFill
    rw [onesIn_split _ hip (Nat.le_of_lt p1), onesIn_nil hz, List.nil_append, onesIn_cons p1 p2, List.map_cons, List.foldlM_cons,
      hs, bind_pure_some]
    congr 1
    funext b'
    apply ih
    · rw [cnt_succ, p2, p3]; simp; omega
    · omega

/-- **C110.** The constructor from a bitmap stores the positions of all ones of the words, also of those behind the end of the bitmap, in a
universe that ends with the bitmap. -/
theorem C110_bitmap (p : Prog) (r : Raw) (h : p.Tame) (hr : p.raw = some r) (wr : Bool) :
    ∃ b, bRun p = some b ∧
      efOfBitmap b wr = efOfSeq (BitVec.ofNat 64 r.size) (r.bits.count true) ((onesOf r.bits).map (BitVec.ofNat 64)) wr := by
  obtain ⟨b, e, hi⟩ := (bRun_raw p h).1 r hr
  refine ⟨b, e, ?_⟩
  have hrep : Rep ⟨64 * (bitVector b).bits.length, (bitVector b).bits⟩ r.bits := by
    refine ⟨?_, ?_, hi.bit⟩
    · show 64 * b.bits.length = _; rw [hi.len, hi.rlen]
    · show b.bits.length = _; rw [wordsFor_eq, hi.len, hi.rlen]; omega
  have hc : ((bitVector b).bits.map Broadword.popcount).sum = r.bits.count true := EliasFano.sum_popcount_rep (v := ⟨64 * (bitVector b).bits.length, (bitVector b).bits⟩) hrep
  have hon : onesOf r.bits = onesIn (bitFn r.bits) 0 r.bits.length := by
    unfold onesOf onesIn
    rw [Nat.sub_zero, ← List.range_eq_range']
    rfl
  unfold efOfBitmap efOfSeq
  dsimp only
  rw [hc, show (bitVector b).size = r.size from hi.size]
  congr 1
  funext eb
  rw [efFill_eq hrep _ 0 eb (by rw [cnt_zero, count_eq_cnt, Nat.zero_add]) (Nat.zero_le _), hon]

/-- a bitmap of 5 bits with a stray bit at 6, which is stored as well -/
example : (Prog.appendBits (.new 0 false) 0x56 5).raw = some ⟨5, wordBits 0x56⟩ ∧ onesOf (wordBits 0x56) = [1, 2, 4, 6] ∧
    ((bRun (.appendBits (.new 0 false) 0x56 5)).bind fun b => (efOfBitmap b true).map fun ef => (List.range 5).map fun k =>
      ef.select (fun _ _ => 0) k) = some [some 1, some 2, some 4, some 6, none] := by decide +kernel

/-- **C110.** For a bitmap with stray bits behind its end the constructor may write outside of its buffer. -/
theorem C110_bitmap_false :
    ∃ b, bRun (.appendBits (.appendBits (.new 0 false) (2^60 - 1) 64) (2^63) 1) = some b ∧ b.size = 65 ∧ efOfBitmap b true = none := by
  refine ⟨⟨[2^60 - 1, 2^63], 65, some 1⟩, by decide +kernel⟩

end Succinct
