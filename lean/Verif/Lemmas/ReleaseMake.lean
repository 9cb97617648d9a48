import Verif.Model.ReleaseMake
import Verif.Props.ReleaseFano
import Verif.Props.ReleaseBuilder
import Verif.Lemmas.EFList
import Verif.Lemmas.Gamma
import Mathlib.Tactic.ByContra

/-! The constructors of the integer sequences without assertions. -/
namespace Succinct
namespace Release
open Spec Broadword
open RSBitVector (bind_pure_some)

/-- only the words matter to `predecessor`, as long as the position is inside -/
theorem predecessor_words (v : BitVector) (pos : Nat) (h : pos < v.size) (hs : v.size ≤ 64 * v.bits.length) :
    match BitVector.predecessor false v pos with
    | some q => q ≤ pos ∧ wbit v.bits q = true ∧ ∀ r, q < r → r ≤ pos → wbit v.bits r = false
    | none => ∀ r, r ≤ pos → wbit v.bits r = false := by
  obtain ⟨f1, f2⟩ := words_flat v.bits
  have hr : Rep (⟨64 * v.bits.length, v.bits⟩ : BitVector) (v.bits.flatMap wordBits) :=
    ⟨f1.symm, ⟨by rw [f1]; show v.bits.length = _; unfold wordsFor; omega, fun p => (f2 p).symm⟩⟩
  have he : BitVector.predecessor false v pos = BitVector.predecessor false (⟨64 * v.bits.length, v.bits⟩ : BitVector) pos := by
    unfold BitVector.predecessor
    rw [assertP_eq _ h, assertP_eq _ (show pos < 64 * v.bits.length by omega)]
  have := BitVector.predecessor_cases false hr pos (by rw [f1]; omega)
  rw [he]
  simp only [Bool.false_xor, f2] at this
  revert this
  cases BitVector.predecessor false (⟨64 * v.bits.length, v.bits⟩ : BitVector) pos with
  | none => exact fun h => h
  | some q => exact fun h => h

theorem sub_shifted (a b : Nat) (w : Nat) (hw : w < 64) (x y : Word) :
    (BitVec.ofNat 64 (a + b) <<< w ||| (x &&& maskW w)) - (BitVec.ofNat 64 b <<< w ||| (y &&& maskW w)) =
      BitVec.ofNat 64 a <<< w + (x &&& maskW w) - (y &&& maskW w) := by
  have hz : ∀ (c : Nat) (z : Word), BitVec.ofNat 64 c <<< w ||| (z &&& maskW w) = BitVec.ofNat 64 c <<< w + (z &&& maskW w) := by
    intro c z
    symm
    apply BitVec.add_eq_or_of_and_eq_zero
    apply BitVec.eq_of_getLsbD_eq
    intro i hi
    rw [BitVec.getLsbD_and, and_maskW_bit _ _ _ hw, BitVec.getLsbD_shiftLeft]
    by_cases h : i < w <;> simp [h]
  rw [hz, hz, BitVec.ofNat_add, BitVec.shiftLeft_add_distrib]
  bv_omega

theorem delta_eq {n : Word} {m : Nat} {xs : List Word} {ef : EliasFano} (hm : m ≤ 2^62) (h0 : m = 0 → n.toNat + 2 < 2^64)
    (he : efOfSeq n m xs false = some ef) (ov : Word → Nat → Word) (k : Nat) :
    ef.delta ov k = if k = 0 then ef.select ov 0 else (ef.select ov k).bind fun y => (ef.select ov (k - 1)).map (y - ·) := by
  obtain ⟨b, r, e, g, _⟩ := efNew_good n m ⟨hm, h0⟩
  obtain ⟨f1, f2⟩ := efFold_good n m xs g (by simp [markPos])
  rw [List.nil_append] at f1 f2
  unfold efOfSeq at he
  rw [e, bind_pure_some, Option.bind_eq_bind, Option.bind_eq_some_iff] at he
  obtain ⟨b', e1, e2⟩ := he
  obtain ⟨b'', r', e1', h⟩ := f1 (f2 (by rw [e1]; rfl))
  cases Option.some.inj (e1.symm.trans e1')
  clear f1 f2 g e e1 e1' b r
  have lb := (lowLen_eq n m).2
  have hhl := h.hl
  have hlo := h.low
  have hbit := h.bit
  have hsize := h.size
  generalize hps : markPos (lowWidth n.toNat m) xs = ps at *
  generalize lowWidth n.toNat m = w at *
  generalize highSize n.toNat m = N at *
  subst hhl
  have hlen : ps.length = xs.length := by rw [← hps]; simp [markPos]
  have hsz : (bitVector b'.high).size ≤ 64 * (bitVector b'.high).bits.length := by
    show b'.high.size ≤ 64 * b'.high.bits.length
    rw [h.high.size, h.high.len]; omega
  obtain ⟨d1, f1, f2, f3⟩ := Darray.build_spec false (bitVector b'.high) hsz
  have hbs : (bitVector b'.high).size = N := h.high.size.trans hsize
  have hwb : ∀ p, wbit b'.high.bits p = decide (p ∈ ps) := fun p => by rw [h.high.bit, hbit]
  have hgb : Darray.gbit false (bitVector b'.high).bits = fun p => decide (p ∈ ps) := by
    funext p
    unfold Darray.gbit
    show (wbit b'.high.bits p ^^ false) = _
    rw [Bool.xor_false, hwb]
  rw [hgb, hbs] at f2 f3
  unfold efBuild at e2
  rw [f1, bind_pure_some, if_neg (by simp), bind_pure_some] at e2
  cases Option.some.inj e2
  have hlr : Rep (bitVector b'.low) (xs.flatMap (lowBits · b'.l)) := ⟨hlo.size, hlo.repr⟩
  have hx : ∀ k, k < (markList N ps).length → k < xs.length := fun k hk => by
    have := (markList_subperm N ps).length_le
    omega
  have hsel : ∀ k (hk : k < (markList N ps).length), d1.select false (bitVector b'.high) k = some (markList N ps)[k] ∧ k ≤ (markList N ps)[k] ∧
      (markList N ps)[k] < N ∧ (markList N ps)[k] ∈ ps := by
    intro k hk
    obtain ⟨q1, q2, q3⟩ := onesIn_getElem?_iff.1 (List.getElem?_eq_getElem hk)
    refine ⟨Darray.select_spec false (bitVector b'.high) hsz d1 (by rw [hgb, hbs]; exact f2) (by rw [hgb, hbs]; exact f3) k (markList N ps)[k]
          (by rw [hbs]; exact q1) (by rw [hgb]; exact q2) (by rw [hgb]; exact q3), ?_, q1, by simpa using q2⟩
    have := cnt_le (fun p => decide (p ∈ ps)) (markList N ps)[k]
    omega
  have hlow : ∀ k (hk : k < (markList N ps).length), EliasFano.getLow ov ⟨b'.n, bitVector b'.high, d1, ⟨0, ⟨[], [], []⟩⟩, bitVector b'.low, b'.l⟩ k =
      some (xs[k]'(hx k hk) &&& maskW b'.l) := by
    intro k hk
    have hkx := hx k hk
    have hfl : k * b'.l + b'.l ≤ (xs.flatMap (lowBits · b'.l)).length := by
      rw [flatMap_lowBits_length, ← Nat.succ_mul]; exact Nat.mul_le_mul_right _ hkx
    obtain ⟨x, e, hx⟩ := BitVector.getBits_eq ov hlr (k * b'.l) b'.l (by omega) hfl
    have hlow : x = xs[k] &&& maskW b'.l := by
      apply BitVec.eq_of_getLsbD_eq
      intro i hi
      rw [hx, and_maskW_bit _ _ _ lb]
      by_cases hi' : i < b'.l
      · rw [bitFn_flatMap _ _ _ _ hkx hi']
      · simp [hi']
    unfold EliasFano.getLow
    dsimp only
    rw [e, hlow]
  have hselect : ∀ k (hk : k < (markList N ps).length), EliasFano.select ov ⟨b'.n, bitVector b'.high, d1, ⟨0, ⟨[], [], []⟩⟩, bitVector b'.low, b'.l⟩ k =
      some (BitVec.ofNat 64 ((markList N ps)[k] - k) <<< b'.l ||| (xs[k]'(hx k hk) &&& maskW b'.l)) := by
    intro k hk
    obtain ⟨s1, s2, _⟩ := hsel k hk
    unfold EliasFano.select
    dsimp only
    rw [s1, bind_pure_some, subU_eq _ _ s2, bind_pure_some, shl_eq _ _ lb, bind_pure_some, hlow k hk]
    rfl
  rcases Nat.lt_or_ge k (markList N ps).length with hk | hk
  · obtain ⟨s1, s2, s3, s4⟩ := hsel k hk
    cases k with
    | zero =>
      rw [if_pos rfl, hselect 0 hk]
      unfold EliasFano.delta
      dsimp only
      rw [s1, bind_pure_some, hlow 0 hk, bind_pure_some, if_neg (by simp), subU_eq _ _ s2, bind_pure_some, shl_eq _ _ lb]
      rfl
    | succ k =>
      obtain ⟨t1, t2, t3, t4⟩ := hsel k (by omega)
      have hlt := List.pairwise_iff_getElem.1 (markList_sorted N ps) k (k + 1) (by omega) hk (by omega)
      have hp : (bitVector b'.high).predecessor false ((markList N ps)[k + 1] - 1) = some (markList N ps)[k] := by
        have := predecessor_words (bitVector b'.high) ((markList N ps)[k + 1] - 1) (by omega) hsz
        revert this
        cases (bitVector b'.high).predecessor false ((markList N ps)[k + 1] - 1) with
        | none =>
          intro this
          have := this (markList N ps)[k] (by omega)
          rw [show wbit (bitVector b'.high).bits _ = _ from hwb _] at this
          simp [t4] at this
        | some q =>
          rintro ⟨q1, q2, q3⟩
          rw [show wbit (bitVector b'.high).bits _ = _ from hwb _, decide_eq_true_eq] at q2
          congr 1
          rcases Nat.lt_or_ge q (markList N ps)[k] with c | c
          · have := q3 _ c (by omega)
            rw [show wbit (bitVector b'.high).bits _ = _ from hwb _] at this
            simp [t4] at this
          · obtain ⟨j, hj, hq⟩ := List.mem_iff_getElem.1 ((mem_markList N ps q).2 ⟨by omega, q2⟩)
            rcases Nat.lt_trichotomy j k with d | d | d
            · have := List.pairwise_iff_getElem.1 (markList_sorted N ps) j k hj (by omega) d; omega
            · subst d; exact hq.symm
            · rcases Nat.eq_or_lt_of_le (show k + 1 ≤ j from d) with d' | d'
              · subst d'; omega
              · have := List.pairwise_iff_getElem.1 (markList_sorted N ps) (k + 1) j hk hj d'; omega
      rw [if_neg (by omega), hselect (k + 1) hk, Nat.add_sub_cancel, hselect k (by omega), Option.bind_some, Option.map_some]
      unfold EliasFano.delta
      dsimp only
      rw [s1, bind_pure_some, hlow (k + 1) hk, bind_pure_some, if_pos (by omega), subU_eq _ _ (by omega), bind_pure_some, hp, bind_pure_some,
        subU_eq _ _ (by omega), bind_pure_some, subU_eq _ _ (by omega), bind_pure_some, shl_eq _ _ lb, bind_pure_some, Nat.add_sub_cancel,
        hlow k (by omega), bind_pure_some]
      show some _ = some _
      congr 1
      rw [← sub_shifted _ ((markList N ps)[k] - k) _ lb]
      rw [show (markList N ps)[k + 1] - (markList N ps)[k] - 1 + ((markList N ps)[k] - k) = (markList N ps)[k + 1] - (k + 1) by omega]
  · have hn : ∀ j, (markList N ps).length ≤ j → d1.select false (bitVector b'.high) j = none := by
      intro j hj
      unfold Darray.select
      rw [assertP_none (by rw [f2, ← onesIn_length]; exact Nat.not_lt.2 hj)]
      rfl
    have d : EliasFano.delta ov ⟨b'.n, bitVector b'.high, d1, ⟨0, ⟨[], [], []⟩⟩, bitVector b'.low, b'.l⟩ k = none := by
      unfold EliasFano.delta
      dsimp only
      rw [hn k hk]; rfl
    have s : EliasFano.select ov ⟨b'.n, bitVector b'.high, d1, ⟨0, ⟨[], [], []⟩⟩, bitVector b'.low, b'.l⟩ k = none := by
      unfold EliasFano.select
      dsimp only
      rw [hn k hk]; rfl
    rw [d]
    by_cases h0 : k = 0
    · subst h0; rw [if_pos rfl, s]
    · rw [if_neg h0, s]; rfl

theorem bAppendBits_of {b b' : Builder} {x : Word} {len : Nat} (h : b.appendBits x len = some b') :
    bAppendBits b x len = some b' ∧ b'.size = b.size + len := by
  have h1 : bAppendBits b x len = some b' := by
    unfold Builder.appendBits at h
    rw [Option.bind_eq_bind, Option.bind_eq_some_iff] at h
    obtain ⟨_, _, h⟩ := h
    exact h
  refine ⟨h1, ?_⟩
  unfold bAppendBits at h1
  by_cases h0 : len = 0
  · rw [if_pos h0] at h1
    cases Option.some.inj h1
    omega
  · rw [if_neg h0] at h1
    dsimp only at h1
    by_cases hp : b.size % 64 = 0
    · rw [if_pos hp, Option.bind_eq_bind, Option.bind_eq_some_iff] at h1
      obtain ⟨_, _, h1⟩ := h1
      cases Option.some.inj h1
      rfl
    · rw [if_neg hp] at h1
      simp only [Option.bind_eq_bind, Option.bind_eq_some_iff] at h1
      obtain ⟨_, _, _, _, h1⟩ := h1
      by_cases hl : len > 64 - b.size % 64
      · rw [if_pos hl] at h1
        simp only [Option.bind_eq_some_iff] at h1
        obtain ⟨_, _, _, _, h1⟩ := h1
        cases Option.some.inj h1
        rfl
      · rw [if_neg hl] at h1
        simp only [Option.bind_eq_some_iff] at h1
        obtain ⟨_, _, h1⟩ := h1
        cases Option.some.inj h1
        rfl

theorem pushBack_size {b b' : Builder} {x : Bool} (h : b.pushBack x = some b') : b'.size = b.size + 1 := by
  unfold Builder.pushBack at h
  dsimp only at h
  rw [shl_eq _ _ (Nat.mod_lt _ (by omega)), bind_pure_some] at h
  by_cases hp : b.size % 64 = 0
  · rw [if_pos hp] at h
    simp only [Option.bind_eq_bind, Option.bind_eq_some_iff] at h
    obtain ⟨_, _, _, _, h⟩ := h
    cases Option.some.inj h
    rfl
  · rw [if_neg hp, Option.bind_eq_bind, Option.bind_eq_some_iff] at h
    obtain ⟨_, _, h⟩ := h
    cases Option.some.inj h
    rfl

theorem d64Append1_of {b b' : Darray64Builder} {k : Nat} (h : Darray64.append1 b k = some b') (hs : b.bits.size + k < 2^64) :
    d64Append1 b k = some b' ∧ b'.bits.size = b.bits.size + k + 1 := by
  unfold Darray64.append1 at h
  rw [Option.bind_eq_bind, Option.bind_eq_some_iff] at h
  obtain ⟨b1, e1, h⟩ := h
  rw [Option.bind_eq_bind, Option.bind_eq_some_iff] at h
  obtain ⟨b2, e2, h⟩ := h
  obtain ⟨f1, f2⟩ := bAppendBits_of e1
  have f3 := pushBack_size e2
  rw [subU_eq _ _ (by omega), Option.bind_some] at h
  dsimp only at h
  have hm : b1.size % 2^64 = b1.size := Nat.mod_eq_of_lt (by omega)
  have hrel : d64Append1 b k = (if b.nOnes % 64 = 0 then do
      let base ← rd (if b.nOnes % 1024 = 0 then b.block ++ [b2.size - 1] else b.block) (b.nOnes / 1024)
      pure (b.subblock ++ [(2^64 + (b2.size - 1) - base) % 2^16])
    else pure b.subblock) >>= fun sb => pure ⟨b.nOnes + 1, b2, if b.nOnes % 1024 = 0 then b.block ++ [b2.size - 1] else b.block, sb⟩ := by
    unfold d64Append1 bSkip
    rw [f1, bind_pure_some]
    dsimp only
    rw [hm, show ({ b1 with size := b1.size } : Builder) = b1 from rfl, show (pure b1 : Option Builder) = some b1 from rfl, bind_pure_some, e2, bind_pure_some]
    by_cases h0 : b.nOnes % 64 = 0
    · rw [if_pos h0, if_pos h0]
      cases rd (if b.nOnes % 1024 = 0 then b.block ++ [b2.size - 1] else b.block) (b.nOnes / 1024) <;> rfl
    · rw [if_neg h0, if_neg h0]
  rw [hrel]
  by_cases h0 : b.nOnes % 64 = 0
  · rw [if_pos h0] at h ⊢
    simp only [Option.bind_eq_bind, Option.bind_eq_some_iff] at h
    obtain ⟨base, g1, d, g2, h⟩ := h
    have hle : base ≤ b2.size - 1 := by
      unfold subU at g2
      by_contra hc
      rw [if_neg hc] at g2; cases g2
    rw [subU_eq _ _ hle] at g2
    obtain rfl := Option.some.inj g2
    obtain ⟨sb, g3, h⟩ := h
    obtain rfl := Option.some.inj g3
    obtain rfl := Option.some.inj h
    rw [g1, bind_pure_some]
    have : (2^64 + (b2.size - 1) - base) % 2^16 = (b2.size - 1 - base) % 2^16 := by omega
    rw [this]; exact ⟨rfl, by show b2.size = _; omega⟩
  · rw [if_neg h0] at h ⊢
    obtain rfl := Option.some.inj h
    exact ⟨rfl, by show b2.size = _; omega⟩

theorem msb1_of {x : Word} {l : Nat} (h : Broadword.msb1 x = some l) : msb1 x = l ∧ l < 64 := by
  unfold Broadword.msb1 at h
  rw [Option.bind_eq_bind, Option.bind_eq_some_iff] at h
  obtain ⟨_, _, h⟩ := h
  refine ⟨by unfold msb1; rw [h]; rfl, ?_⟩
  unfold msb at h
  have := List.mem_of_find?_eq_some h
  simpa using this

theorem msb1_zero : msb1 0#64 = 255 := by decide +kernel

theorem gvLoop_of : ∀ (xs : List Word) (high : Darray64Builder) (low : Builder) (r : Darray64Builder × Builder),
    GammaVector.loop xs high low = some r → high.bits.size + 64 * xs.length < 2^64 → gvLoop xs high low = some r := by
  intro xs
  induction xs with
  | nil => intro _ _ _ h _; exact h
  | cons x xs ih =>
    intro high low r h hs
    unfold GammaVector.loop at h
    simp only [Option.bind_eq_bind, Option.bind_eq_some_iff] at h
    obtain ⟨l, e1, one, e2, low', e3, high', e4, h⟩ := h
    obtain ⟨m1, m2⟩ := msb1_of e1
    rw [List.length_cons] at hs
    obtain ⟨a1, a2⟩ := d64Append1_of e4 (by omega)
    unfold gvLoop
    dsimp only
    rw [m1, e2, bind_pure_some, (bAppendBits_of e3).1, bind_pure_some, a1, bind_pure_some]
    exact ih _ _ _ h (by omega)

theorem gbvLoop_of : ∀ (xs : List Word) (high : Darray64Builder) (low : Builder) (r : Darray64Builder × Builder),
    GammaBitVector.loop xs high low = some r → high.bits.size + 64 * xs.length < 2^64 → gbvLoop xs high low = some r := by
  intro xs
  induction xs with
  | nil => intro _ _ _ h _; exact h
  | cons x xs ih =>
    intro high low r h hs
    unfold GammaBitVector.loop at h
    simp only [Option.bind_eq_bind, Option.bind_eq_some_iff] at h
    obtain ⟨l, e1, _, e0, high', e4, one, e2, low', e3, h⟩ := h
    obtain ⟨m1, m2⟩ := msb1_of e1
    rw [List.length_cons] at hs
    obtain ⟨a1, a2⟩ := d64Append1_of e4 (by omega)
    have hl : l > 0 := by
      by_contra hc
      rw [assertP_none hc] at e0; cases e0
    unfold gbvLoop
    dsimp only
    rw [m1, if_neg (by omega), a1, bind_pure_some, e2, bind_pure_some, (bAppendBits_of e3).1, bind_pure_some]
    exact ih _ _ _ h (by omega)

theorem gvLoop_none : ∀ (xs : List Word) (high : Darray64Builder) (low : Builder), BitVec.allOnes 64 ∈ xs → gvLoop xs high low = none := by
  intro xs
  induction xs with
  | nil => intro _ _ h; simp at h
  | cons x xs ih =>
    intro high low h
    unfold gvLoop
    dsimp only
    rcases List.mem_cons.1 h with h | h
    · rw [← h, show BitVec.allOnes 64 + 1 = 0#64 from rfl, msb1_zero]
      rfl
    · simp only [ih _ _ h]
      cases shl 1 (msb1 (x + 1)) with
      | none => rfl
      | some one =>
        rw [bind_pure_some]
        cases bAppendBits low ((x + 1) ^^^ one) (msb1 (x + 1)) with
        | none => rfl
        | some low' => rw [bind_pure_some]; cases d64Append1 high (msb1 (x + 1)) <;> rfl

theorem gbvLoop_none : ∀ (xs : List Word) (high : Darray64Builder) (low : Builder), BitVec.ofNat 64 (2^64 - 2) ∈ xs → gbvLoop xs high low = none := by
  intro xs
  induction xs with
  | nil => intro _ _ h; simp at h
  | cons x xs ih =>
    intro high low h
    unfold gbvLoop
    dsimp only
    rcases List.mem_cons.1 h with h | h
    · rw [← h, show BitVec.ofNat 64 (2^64 - 2) + 2 = 0#64 from rfl, msb1_zero]
      cases d64Append1 high (if 255 = 0 then 2^64 - 1 else 255 - 1) <;> rfl
    · simp only [ih _ _ h]
      cases d64Append1 high (if msb1 (x + 2) = 0 then 2^64 - 1 else msb1 (x + 2) - 1) with
      | none => rfl
      | some high' =>
        rw [bind_pure_some]
        cases shl 1 (msb1 (x + 2)) with
        | none => rfl
        | some one => rw [bind_pure_some]; cases bAppendBits low ((x + 2) ^^^ one) (msb1 (x + 2)) <;> rfl

theorem efclPush_of : ∀ (xs : List Word) (bits : Builder) (b : EFBuilder) (r : Builder × EFBuilder), b.high.bits.length ≤ 2^58 →
    EFCompressedList.pushLoop xs bits b = some r → efclPush xs bits b = some r := by
  intro xs
  induction xs with
  | nil => intro _ _ _ _ h; exact h
  | cons x xs ih =>
    intro bits b r hl h
    unfold EFCompressedList.pushLoop at h
    simp only [Option.bind_eq_bind, Option.bind_eq_some_iff] at h
    obtain ⟨l, e1, one, e2, bits', e3, b', e4, h⟩ := h
    obtain ⟨p1, p2⟩ := efPush_of_push hl e4
    have m1 : msb1 (x + 1) = l := by unfold msb1; rw [e1]; rfl
    unfold efclPush
    dsimp only
    rw [m1, e2, bind_pure_some, (bAppendBits_of e3).1, bind_pure_some, p1, bind_pure_some]
    exact ih _ _ _ p2 h

theorem efclPush_none : ∀ (xs : List Word) (bits : Builder) (b : EFBuilder), BitVec.allOnes 64 ∈ xs → efclPush xs bits b = none := by
  intro xs
  induction xs with
  | nil => intro _ _ h; simp at h
  | cons x xs ih =>
    intro bits b h
    unfold efclPush
    dsimp only
    rcases List.mem_cons.1 h with h | h
    · rw [← h, show BitVec.allOnes 64 + 1 = 0#64 from rfl, msb1_zero]
      rfl
    · simp only [ih _ _ h]
      cases shl 1 (msb1 (x + 1)) with
      | none => rfl
      | some one =>
        rw [bind_pure_some]
        cases bAppendBits bits ((x + 1) ^^^ one) (msb1 (x + 1)) with
        | none => rfl
        | some bits' => rw [bind_pure_some]; cases efPush b (BitVec.ofNat 64 bits'.size) <;> rfl

theorem sizeLoop_of : ∀ (xs : List Word) (s r : Nat), EFCompressedList.sizeLoop xs s = some r → xs.foldl (fun s x => s + msb1 (x + 1)) s = r := by
  intro xs
  induction xs with
  | nil => intro s r h; exact Option.some.inj h
  | cons x xs ih =>
    intro s r h
    unfold EFCompressedList.sizeLoop at h
    rw [Option.bind_eq_bind, Option.bind_eq_some_iff] at h
    obtain ⟨l, e1, h⟩ := h
    have m1 : msb1 (x + 1) = l := by unfold msb1; rw [e1]; rfl
    rw [List.foldl_cons, m1]
    exact ih _ _ h

theorem sizeLoop_none : ∀ (xs : List Word) (s : Nat), BitVec.allOnes 64 ∈ xs → EFCompressedList.sizeLoop xs s = none := by
  intro xs
  induction xs with
  | nil => intro _ h; simp at h
  | cons x xs ih =>
    intro s h
    unfold EFCompressedList.sizeLoop
    rcases List.mem_cons.1 h with h | h
    · rw [← h, show BitVec.allOnes 64 + 1 = 0#64 from rfl, show msb 0#64 = none by decide +kernel]; rfl
    · simp only [ih _ h]
      cases msb (x + 1) <;> rfl

theorem eflPush_eq (xs : List Word) (base : Word) (b : EFBuilder) : eflPush xs base b = (EFList.psums base xs).foldlM efPush b := by
  induction xs generalizing base b with
  | nil => rfl
  | cons x xs ih =>
    unfold eflPush EFList.psums
    rw [List.foldlM_cons]
    simp only []
    congr 1
    funext b'
    exact ih _ _

theorem eflBuild_eq (v : List Word) : eflBuild v = (efOfSeq (v.foldl (· + ·) 0 + 1) v.length (EFList.psums 0 v) false).map EFList.mk := by
  unfold eflBuild efOfSeq
  dsimp only
  cases efNew (v.foldl (· + ·) 0 + 1) v.length with
  | none => rfl
  | some b =>
    rw [bind_pure_some, bind_pure_some, eflPush_eq]
    cases (EFList.psums 0 v).foldlM efPush b with
    | none => rfl
    | some b' =>
      rw [bind_pure_some, bind_pure_some]
      cases efBuild b' false <;> rfl

/-- the builder can be appended to -/
def Live (b : Builder) : Prop := b.size % 64 = 0 ∨ (b.bits ≠ [] ∧ b.cur = some (b.bits.length - 1))

theorem orCur_live {ws : List Word} (h : ws ≠ []) (v : Word) : ∃ ws', Builder.orCur ws (some (ws.length - 1)) v = some ws' ∧ ws'.length = ws.length := by
  have hl : ws.length - 1 < ws.length := by
    have := List.length_pos_iff.2 h
    omega
  refine ⟨ws.set (ws.length - 1) (ws[ws.length - 1] ||| v), ?_, by simp⟩
  unfold Builder.orCur
  rw [bind_pure_some, rd_eq _ _ hl, bind_pure_some, wr_eq _ _ _ hl]

theorem bAppendBits_live {b : Builder} (h : Live b) (x : Word) (len : Nat) :
    ∃ b', bAppendBits b x len = some b' ∧ Live b' ∧ (0 < len → b'.bits ≠ [] ∧ b'.cur = some (b'.bits.length - 1)) := by
  have hback : ∀ ws : List Word, ws ≠ [] → Builder.back ws = some (ws.length - 1) := fun ws hw => by
    have := List.length_pos_iff.2 hw
    exact subU_eq _ _ (by omega)
  unfold bAppendBits
  by_cases h0 : len = 0
  · rw [if_pos h0]
    exact ⟨b, rfl, h, fun hl => by omega⟩
  · rw [if_neg h0]
    dsimp only
    by_cases hp : b.size % 64 = 0
    · rw [if_pos hp, hback _ (by simp), bind_pure_some]
      exact ⟨_, rfl, Or.inr ⟨by simp, rfl⟩, fun _ => ⟨by simp, rfl⟩⟩
    · rw [if_neg hp, shl_eq _ _ (Nat.mod_lt _ (by omega)), bind_pure_some]
      obtain ⟨h1, h2⟩ := h.resolve_left hp
      obtain ⟨ws, e, el⟩ := orCur_live h1 (x <<< (b.size % 64))
      have hne : ws ≠ [] := by
        intro hc; rw [hc] at el
        exact h1 (List.length_eq_zero_iff.1 el.symm)
      rw [h2, e, bind_pure_some]
      by_cases hl : len > 64 - b.size % 64
      · rw [if_pos hl, shr_eq _ _ (by omega), bind_pure_some, hback _ (by simp), bind_pure_some]
        exact ⟨_, rfl, Or.inr ⟨by simp, rfl⟩, fun _ => ⟨by simp, rfl⟩⟩
      · rw [if_neg hl, hback _ hne, bind_pure_some]
        exact ⟨_, rfl, Or.inr ⟨hne, rfl⟩, fun _ => ⟨hne, rfl⟩⟩

theorem pushBack_live {b : Builder} (h : Live b) (x : Bool) :
    ∃ b', b.pushBack x = some b' ∧ b'.bits ≠ [] ∧ b'.cur = some (b'.bits.length - 1) := by
  unfold Builder.pushBack
  dsimp only
  rw [shl_eq _ _ (Nat.mod_lt _ (by omega)), bind_pure_some]
  by_cases hp : b.size % 64 = 0
  · have hb : Builder.back (b.bits ++ [0]) = some ((b.bits ++ [(0 : Word)]).length - 1) := subU_eq _ _ (by simp)
    obtain ⟨ws, e, el⟩ := orCur_live (ws := b.bits ++ [0]) (by simp) ((if x then (1 : Word) else 0) <<< (b.size % 64))
    rw [if_pos hp, hb, bind_pure_some, e, bind_pure_some]
    refine ⟨_, rfl, ?_, ?_⟩
    · intro hc; rw [show ws = [] from hc] at el; simp at el
    · show some _ = some _
      rw [el]
  · obtain ⟨h1, h2⟩ := h.resolve_left hp
    obtain ⟨ws, e, el⟩ := orCur_live h1 ((if x then (1 : Word) else 0) <<< (b.size % 64))
    rw [if_neg hp, h2, e, bind_pure_some]
    refine ⟨_, rfl, ?_, ?_⟩
    · intro hc; rw [show ws = [] from hc] at el
      exact h1 (List.length_eq_zero_iff.1 el.symm)
    · show some _ = some _
      rw [el]

theorem d64Append1_live {b : Darray64Builder} (h : b.bits.bits ≠ [] ∧ b.bits.cur = some (b.bits.bits.length - 1)) (hb : b.block.length = (b.nOnes + 1023) / 1024)
    (k : Nat) :
    ∃ b', d64Append1 b k = some b' ∧ (b'.bits.bits ≠ [] ∧ b'.bits.cur = some (b'.bits.bits.length - 1)) ∧ b'.block.length = (b'.nOnes + 1023) / 1024 ∧ b'.nOnes = b.nOnes + 1 := by
  obtain ⟨b1, e1, l1, c1⟩ := bAppendBits_live (Or.inr h) 0 k
  have l2 : b1.bits ≠ [] ∧ b1.cur = some (b1.bits.length - 1) := by
    rcases Nat.eq_zero_or_pos k with hk | hk
    · subst hk
      unfold bAppendBits at e1
      rw [if_pos rfl] at e1
      obtain rfl := Option.some.inj e1
      exact h
    · exact c1 hk
  obtain ⟨b2, e2, l3⟩ := pushBack_live (b := { b1 with size := b1.size % 2^64 }) (Or.inr l2) true
  have hbl : (if b.nOnes % 1024 = 0 then b.block ++ [b2.size - 1] else b.block).length = (b.nOnes + 1 + 1023) / 1024 := by
    by_cases h0 : b.nOnes % 1024 = 0
    · rw [if_pos h0, List.length_append, hb]; simp only [List.length_cons, List.length_nil]; omega
    · rw [if_neg h0, hb]; omega
  have hrel : d64Append1 b k = (if b.nOnes % 64 = 0 then do
      let base ← rd (if b.nOnes % 1024 = 0 then b.block ++ [b2.size - 1] else b.block) (b.nOnes / 1024)
      pure (b.subblock ++ [(2^64 + (b2.size - 1) - base) % 2^16])
    else pure b.subblock) >>= fun sb => pure ⟨b.nOnes + 1, b2, if b.nOnes % 1024 = 0 then b.block ++ [b2.size - 1] else b.block, sb⟩ := by
    unfold d64Append1 bSkip
    rw [e1, bind_pure_some, show (pure { b1 with size := b1.size % 2^64 } : Option Builder) = some _ from rfl, bind_pure_some, e2, bind_pure_some]
    dsimp only
    by_cases h0 : b.nOnes % 64 = 0
    · rw [if_pos h0, if_pos h0]
      cases rd (if b.nOnes % 1024 = 0 then b.block ++ [b2.size - 1] else b.block) (b.nOnes / 1024) <;> rfl
    · rw [if_neg h0, if_neg h0]
  rw [hrel]
  by_cases h0 : b.nOnes % 64 = 0
  · obtain ⟨base, hbase⟩ : ∃ base, rd (if b.nOnes % 1024 = 0 then b.block ++ [b2.size - 1] else b.block) (b.nOnes / 1024) = some base :=
      ⟨_, List.getElem?_eq_getElem (by rw [hbl]; omega)⟩
    rw [if_pos h0, hbase, bind_pure_some]
    exact ⟨_, rfl, l3, hbl, rfl⟩
  · rw [if_neg h0]
    exact ⟨_, rfl, l3, hbl, rfl⟩

theorem gbvLoop_live : ∀ (xs : List Word) (high : Darray64Builder) (low : Builder), BitVec.ofNat 64 (2^64 - 2) ∉ xs →
    (high.bits.bits ≠ [] ∧ high.bits.cur = some (high.bits.bits.length - 1)) → high.block.length = (high.nOnes + 1023) / 1024 → Live low →
    ∃ r, gbvLoop xs high low = some r ∧ r.1.nOnes = high.nOnes + xs.length := by
  intro xs
  induction xs with
  | nil => intro high low _ _ _ _; exact ⟨_, rfl, rfl⟩
  | cons x xs ih =>
    intro high low hx h1 h2 h3
    have hne : x + 2 ≠ 0 := by
      intro hc
      exact hx (by rw [List.mem_cons]; left; bv_omega)
    have hm := msb1_of (glen_spec 2 x hne).1
    obtain ⟨high', e1, g1, g2, hn⟩ := d64Append1_live h1 h2 (if msb1 (x + 2) = 0 then 2^64 - 1 else msb1 (x + 2) - 1)
    obtain ⟨low', e2, g3, _⟩ := bAppendBits_live h3 ((x + 2 : Word) ^^^ (1 : Word) <<< msb1 (x + 2)) (msb1 (x + 2))
    obtain ⟨r, e3, e4⟩ := ih high' low' (fun hc => hx (List.mem_cons_of_mem _ hc)) g1 g2 g3
    refine ⟨r, ?_, by rw [e4, hn, List.length_cons]; omega⟩
    unfold gbvLoop
    dsimp only
    rw [e1, bind_pure_some, shl_eq _ _ (by omega), bind_pure_some, e2, bind_pure_some, e3]

end Release
end Succinct
