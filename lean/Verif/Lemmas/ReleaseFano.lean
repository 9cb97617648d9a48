import Verif.Model.ReleaseFano
import Verif.Spec.RawFano
import Verif.Lemmas.ReleaseBuilder
import Verif.Lemmas.ReleaseRank
import Verif.Lemmas.EliasFanoE
import Verif.Lemmas.SpaceEF
import Verif.Lemmas.Contract
import Verif.Props.EliasFano
import Mathlib.Data.List.Perm.Subperm

/-! Compressed sequences built without assertions. -/
namespace Succinct
namespace Release
open Spec Broadword
open RSBitVector (bind_pure_some)
open EFBuilder (lowLen lowMask NoWrap)

theorem lowLen_eq (n : Word) (m : Nat) : lowLen n m = some (lowWidth n.toNat m) ∧ lowWidth n.toNat m < 64 := by
  have hq : n.toNat / m < 2^64 := Nat.lt_of_le_of_lt (Nat.div_le_self _ _) n.isLt
  unfold lowLen lowWidth
  by_cases hc : m ≠ 0 ∧ n.toNat / m ≠ 0
  · rw [if_pos hc]
    have hn : (BitVec.ofNat 64 (n.toNat / m)).toNat = n.toNat / m := by rw [BitVec.toNat_ofNat, Nat.mod_eq_of_lt hq]
    cases hmsb : msb (BitVec.ofNat 64 (n.toNat / m)) with
    | none =>
      have := (msb_none _).1 hmsb
      rw [this] at hn
      exact absurd hn.symm hc.2
    | some i =>
      have h1 := EFCompressedList.msb_log2 hmsb
      rw [hn] at h1
      rw [← h1]
      exact ⟨rfl, ((msb_some _ _).1 hmsb).1⟩
  · rw [if_neg hc]
    have : n.toNat / m = 0 := by
      by_cases h0 : m = 0
      · rw [h0, Nat.div_zero]
      · rcases Nat.eq_zero_or_pos (n.toNat / m) with h | h
        · exact h
        · exact absurd ⟨h0, by omega⟩ hc
    rw [this]
    exact ⟨rfl, by decide⟩

/-- the state of the builder after some values -/
structure FGood (b : EFBuilder) (n : Word) (m : Nat) (xs : List Word) (r : Raw) : Prop where
  hn : b.n = n
  hl : b.l = lowWidth n.toNat m
  pos : b.pos = xs.length
  low : Inv b.low (xs.flatMap (lowBits · (lowWidth n.toNat m)))
  high : RInv b.high r
  size : r.size = highSize n.toNat m
  bit : ∀ p, bitFn r.bits p = decide (p ∈ markPos (lowWidth n.toNat m) xs)

theorem efNew_good (n : Word) (m : Nat) (h : NoWrap n m) : ∃ b r, efNew n m = some b ∧ FGood b n m [] r ∧ highSize n.toNat m < 2^64 := by
  obtain ⟨b0, l, hb, e, g⟩ := EFBuilder.new_good n m h
  have hll := lowLen_eq n m
  unfold EFBuilder.new at e
  rw [hll.1, bind_pure_some] at e
  obtain ⟨hi, e1, g1⟩ := Builder.new_inv (((m + 1) + (n.toNat >>> lowWidth n.toNat m) + 1) % 2^64) false
  obtain ⟨lo, e2, g2⟩ := Builder.new_inv 0 false
  rw [e1, bind_pure_some, assertP_eq _ hll.2, bind_pure_some, e2, bind_pure_some] at e
  cases Option.some.inj e
  have hl : l = lowWidth n.toNat m := g.hl.symm
  have hlt : highSize n.toNat m < 2^64 := by
    have h1 := g.highInv.size
    rw [g1.size, List.length_replicate, g.len, hl] at h1
    have h2 : highSize n.toNat m = m + 1 + n.toNat / 2^lowWidth n.toNat m + 1 := by unfold highSize; omega
    rw [h2, ← h1]
    exact Nat.mod_lt _ (by decide)
  refine ⟨_, _, ?_, ⟨rfl, rfl, rfl, g.low, RInv.of g.highInv, ?_, ?_⟩, hlt⟩
  · unfold efNew
    rw [hll.1, bind_pure_some, e1, bind_pure_some, e2, bind_pure_some]; rfl
  · show hb.length = _
    rw [g.len, hl]; unfold highSize; omega
  · intro p
    show bitFn (growTo _ hb) p = _
    rw [bitFn_grow]
    have hz := g.high.all
    simp only [List.map_nil, List.length_nil] at hz
    have : bitFn hb p = false := by
      by_cases hp : p < hb.length
      · exact (cnt_eq_iff_false (Nat.zero_le _)).1 (by rw [cnt_zero, hz]) p (Nat.zero_le _) hp
      · exact bitFn_of_ge _ _ (by omega)
    rw [this]; rfl

theorem markPos_snoc (w : Nat) (xs : List Word) (x : Word) : markPos w (xs ++ [x]) = markPos w xs ++ [(x.toNat / 2^w + xs.length) % 2^64] := by
  unfold markPos; rw [List.mapIdx_append]; simp

theorem efPush_good {b : EFBuilder} {n : Word} {m : Nat} {xs : List Word} {r : Raw} (h : FGood b n m xs r) (x : Word) :
    ((x.toNat / 2^lowWidth n.toNat m + xs.length) % 2^64 < roundUp (highSize n.toNat m) → ∃ b' r', efPush b x = some b' ∧ FGood b' n m (xs ++ [x]) r') ∧
    (roundUp (highSize n.toNat m) ≤ (x.toNat / 2^lowWidth n.toNat m + xs.length) % 2^64 → efPush b x = none) := by
  have lb := (lowLen_eq n m).2
  generalize hw : lowWidth n.toNat m = w at *
  have hlow : ∃ lw, efAppendLow b x (maskW w) = some lw ∧ Inv lw ((xs ++ [x]).flatMap (lowBits · w)) := by
    unfold efAppendLow
    rw [h.hl, hw, List.flatMap_append, List.flatMap_singleton]
    have hlo := h.low
    rw [hw] at hlo
    by_cases h0 : w = 0
    · rw [if_neg (by omega)]
      refine ⟨_, rfl, ?_⟩
      have : lowBits x w = [] := by rw [h0]; rfl
      rw [this, List.append_nil]; exact hlo
    · rw [if_pos h0]
      have hf : Fits (x &&& maskW w) w := ⟨by omega, by rw [and_maskW_toNat _ _ lb]; exact Nat.mod_lt _ (Nat.two_pow_pos w)⟩
      obtain ⟨s, e, g⟩ := Builder.appendBits_inv b.low _ hlo (x &&& maskW w) w hf
      refine ⟨s, ?_, ?_⟩
      · unfold Builder.appendBits at e
        rw [Builder.noSpurious_eq hf, bind_pure_some] at e
        exact e
      · have : lowBits (x &&& maskW w) w = lowBits x w := by
          unfold lowBits
          apply List.map_congr_left
          intro i hi
          rw [and_maskW_bit x w i lb, decide_eq_true (List.mem_range.1 hi), Bool.true_and]
        rwa [this] at g
  obtain ⟨lw, e1, g1⟩ := hlow
  have hrl : r.bits.length = roundUp (highSize n.toNat m) := by rw [h.high.rlen, h.size]; rfl
  obtain ⟨s1, s2⟩ := set_raw h.high ((x.toNat / 2^w + xs.length) % 2^64) true
  rw [hrl] at s1 s2
  have hun : efPush b x = (b.high.set ((x.toNat / 2^w + xs.length) % 2^64) true).bind fun high =>
      some { b with last := x, low := lw, high := high, pos := b.pos + 1 } := by
    unfold efPush
    rw [h.hl, hw, lowMask_eq _ lb, bind_pure_some, e1, bind_pure_some, shr_eq _ _ lb, bind_pure_some, shr_toNat, h.pos]
    rfl
  refine ⟨fun hp => ?_, fun hp => by rw [hun, s2 hp]; rfl⟩
  obtain ⟨hb, e2, g2⟩ := s1 hp
  refine ⟨{ b with last := x, low := lw, high := hb, pos := b.pos + 1 }, ⟨r.size, r.bits.set ((x.toNat / 2^w + xs.length) % 2^64) true⟩,
    by rw [hun, e2]; rfl, h.hn, by rw [hw]; exact h.hl.trans hw, by simp [h.pos], by rw [hw]; exact g1, g2, h.size, ?_⟩
  intro p
  show bitFn (r.bits.set _ _) p = _
  rw [bitFn_set _ _ _ (by rw [hrl]; exact hp), h.bit, hw, markPos_snoc]
  by_cases hpe : p = (x.toNat / 2^w + xs.length) % 2^64
  · rw [if_pos hpe]; simp [hpe]
  · rw [if_neg hpe]
    rw [decide_eq_decide, List.mem_append, List.mem_singleton]
    exact ⟨Or.inl, fun h => h.resolve_right hpe⟩

theorem efFold_good (n : Word) (m : Nat) (ys : List Word) : ∀ {b : EFBuilder} {xs : List Word} {r : Raw}, FGood b n m xs r →
    (∀ p ∈ markPos (lowWidth n.toNat m) xs, p < roundUp (highSize n.toNat m)) →
    ((∀ p ∈ markPos (lowWidth n.toNat m) (xs ++ ys), p < roundUp (highSize n.toNat m)) → ∃ b' r', ys.foldlM efPush b = some b' ∧ FGood b' n m (xs ++ ys) r') ∧
    ((ys.foldlM efPush b).isSome → ∀ p ∈ markPos (lowWidth n.toNat m) (xs ++ ys), p < roundUp (highSize n.toNat m)) := by
  induction ys with
  | nil => intro b xs r h hx; rw [List.append_nil]; exact ⟨fun _ => ⟨b, r, rfl, h⟩, fun _ => hx⟩
  | cons y ys ih =>
    intro b xs r h hx
    obtain ⟨p1, p2⟩ := efPush_good h y
    have hs : xs ++ y :: ys = (xs ++ [y]) ++ ys := by simp
    rw [hs, List.foldlM_cons]
    by_cases hp : (y.toNat / 2^lowWidth n.toNat m + xs.length) % 2^64 < roundUp (highSize n.toNat m)
    · obtain ⟨b1, r1, e1, g1⟩ := p1 hp
      rw [e1, bind_pure_some]
      refine ih g1 ?_
      intro q hq
      rw [markPos_snoc, List.mem_append, List.mem_singleton] at hq
      rcases hq with hq | hq
      · exact hx q hq
      · rw [hq]; exact hp
    · rw [p2 (by omega)]
      refine ⟨fun hq => absurd (hq _ ?_) hp, fun hq => by cases hq⟩
      unfold markPos
      rw [List.mapIdx_append, List.mem_append]
      left
      have : markPos (lowWidth n.toNat m) (xs ++ [y]) = _ := markPos_snoc _ _ _
      unfold markPos at this
      rw [this]; simp

theorem marks_length (N : Nat) (ps : List Nat) : (marks N ps).length = N := by simp [marks]

theorem bitFn_marks (N : Nat) (ps : List Nat) (p : Nat) : bitFn (marks N ps) p = (decide (p < N) && decide (p ∈ ps)) := by
  unfold marks; rw [bitFn_range_map]

/-- the marks that are there, in increasing order -/
def markList (N : Nat) (ps : List Nat) : List Nat := onesIn (fun p => decide (p ∈ ps)) 0 N

theorem isSelect_marks (N : Nat) (ps : List Nat) (k q : Nat) : IsSelect1 (marks N ps) k q ↔ (markList N ps)[k]? = some q := by
  unfold markList
  rw [isSelect1_iff, onesIn_getElem?_iff, bitFn_marks]
  constructor
  · rintro ⟨h1, h2⟩
    simp only [Bool.and_eq_true, decide_eq_true_eq] at h1
    refine ⟨h1.1, by simpa using h1.2, ?_⟩
    rw [← h2]
    apply cnt_congr
    intro i hi
    rw [bitFn_marks]
    have : i < N := by omega
    simp [this]
  · rintro ⟨h1, h2, h3⟩
    refine ⟨by simp at h2; simp [h1, h2], ?_⟩
    rw [← h3]
    apply cnt_congr
    intro i hi
    rw [bitFn_marks]
    have : i < N := by omega
    simp [this]

theorem count_marks (N : Nat) (ps : List Nat) : (marks N ps).count true = (markList N ps).length := by
  unfold markList
  rw [onesIn_length, count_eq_cnt, marks_length]
  apply cnt_congr
  intro i hi
  rw [bitFn_marks]; simp [hi]

theorem mem_markList (N : Nat) (ps : List Nat) (p : Nat) : p ∈ markList N ps ↔ p < N ∧ p ∈ ps := by
  unfold markList onesIn
  rw [List.mem_filter, List.mem_range'_1]
  simp

theorem markList_sorted (N : Nat) (ps : List Nat) : (markList N ps).Pairwise (· < ·) := by
  unfold markList onesIn
  exact List.Pairwise.filter _ List.pairwise_lt_range'

theorem markList_nodup (N : Nat) (ps : List Nat) : (markList N ps).Nodup := (markList_sorted N ps).imp (fun h => Nat.ne_of_lt h)

theorem markList_subperm (N : Nat) (ps : List Nat) : (markList N ps).Subperm ps :=
  List.subperm_of_subset (markList_nodup N ps) fun p hp => ((mem_markList N ps p).1 hp).2

theorem efBuild_good {b : EFBuilder} {n : Word} {m : Nat} {xs : List Word} {r : Raw} (h : FGood b n m xs r) (wr : Bool) :
    ∃ ef, efBuild b wr = some ef ∧ ef.size = n ∧ ef.numOnes = (markList (highSize n.toNat m) (markPos (lowWidth n.toNat m) xs)).length ∧
      ∀ ov k, ef.select ov k = (markList (highSize n.toNat m) (markPos (lowWidth n.toNat m) xs))[k]?.bind fun q => xs[k]?.map fun x =>
        BitVec.ofNat 64 (q - k) <<< lowWidth n.toNat m ||| (x &&& maskW (lowWidth n.toNat m)) := by
  have lb := (lowLen_eq n m).2
  have hhl := h.hl
  have hlo := h.low
  have hbit := h.bit
  have hsize := h.size
  generalize hps : markPos (lowWidth n.toNat m) xs = ps at *
  generalize lowWidth n.toNat m = w at *
  generalize highSize n.toNat m = N at *
  have hlen : ps.length = xs.length := by rw [← hps]; simp [markPos]
  have hsz : (bitVector b.high).size ≤ 64 * (bitVector b.high).bits.length := by
    show b.high.size ≤ 64 * b.high.bits.length
    rw [h.high.size, h.high.len]; omega
  obtain ⟨d1, f1, f2, f3⟩ := Darray.build_spec false (bitVector b.high) hsz
  obtain ⟨d0, g1, _, _⟩ := Darray.build_spec true (bitVector b.high) hsz
  have hbs : (bitVector b.high).size = N := h.high.size.trans hsize
  have hgb : Darray.gbit false (bitVector b.high).bits = fun p => decide (p ∈ ps) := by
    funext p
    unfold Darray.gbit
    show (wbit b.high.bits p ^^ false) = _
    rw [Bool.xor_false, h.high.bit, hbit]
  rw [hgb, hbs] at f2 f3
  have hlr : Rep (bitVector b.low) (xs.flatMap (lowBits · w)) := ⟨hlo.size, hlo.repr⟩
  have key : ∀ d0 : Darray, ∃ ef, (some ⟨b.n, bitVector b.high, d1, d0, bitVector b.low, b.l⟩ : Option EliasFano) = some ef ∧ ef.size = n ∧
      ef.numOnes = (markList N ps).length ∧
      ∀ ov k, ef.select ov k = (markList N ps)[k]?.bind fun q => xs[k]?.map fun x =>
        BitVec.ofNat 64 (q - k) <<< w ||| (x &&& maskW w) := by
    intro d0
    refine ⟨_, rfl, h.hn, ?_, ?_⟩
    · show d1.positions = _
      rw [f2]; unfold markList; rw [onesIn_length]
    · intro ov k
      unfold EliasFano.select
      dsimp only
      rcases Nat.lt_or_ge k (markList N ps).length with hk | hk
      · have hq := List.getElem?_eq_getElem hk
        obtain ⟨q1, q2, q3⟩ := onesIn_getElem?_iff.1 hq
        have hkx : k < xs.length := by
          have := (markList_subperm N ps).length_le
          omega
        have hs := Darray.select_spec false (bitVector b.high) hsz d1 (by rw [hgb, hbs]; exact f2) (by rw [hgb, hbs]; exact f3) k (markList N ps)[k]
          (by rw [hbs]; exact q1) (by rw [hgb]; exact q2) (by rw [hgb]; exact q3)
        have hle : k ≤ (markList N ps)[k] := by
          have := cnt_le (fun p => decide (p ∈ ps)) (markList N ps)[k]
          omega
        have hfl : k * w + w ≤ (xs.flatMap (lowBits · w)).length := by
          rw [flatMap_lowBits_length, ← Nat.succ_mul]; exact Nat.mul_le_mul_right _ hkx
        obtain ⟨x, e, hx⟩ := BitVector.getBits_eq ov hlr (k * w) w (by omega) hfl
        have hlow : x = xs[k] &&& maskW w := by
          apply BitVec.eq_of_getLsbD_eq
          intro i hi
          rw [hx, and_maskW_bit _ _ _ lb]
          by_cases hi' : i < w
          · rw [bitFn_flatMap _ _ _ _ hkx hi']
          · simp [hi']
        rw [hs, bind_pure_some, subU_eq _ _ hle, bind_pure_some, hhl, shl_eq _ _ lb, bind_pure_some]
        unfold EliasFano.getLow
        dsimp only
        rw [e, bind_pure_some, hlow, hq, List.getElem?_eq_getElem hkx]
        rfl
      · rw [List.getElem?_eq_none hk]
        unfold Darray.select
        rw [assertP_none (by rw [f2, ← onesIn_length]; exact Nat.not_lt.2 hk)]
        rfl
  unfold efBuild
  rw [f1, bind_pure_some]
  cases wr with
  | true => rw [if_pos rfl, g1, bind_pure_some]; exact key d0
  | false => rw [if_neg (by simp), bind_pure_some]; exact key _

/-- sums of pointwise ordered lists -/
theorem eq_of_sum_le : ∀ (as bs : List Nat), as.length = bs.length → (∀ k : Nat, ∀ a b, as[k]? = some a → bs[k]? = some b → a ≤ b) → bs.sum ≤ as.sum → as = bs := by
  intro as
  induction as with
  | nil => intro bs hl _ _; cases bs with
    | nil => rfl
    | cons b bs => simp at hl
  | cons a as ih =>
    intro bs hl h hs
    cases bs with
    | nil => simp at hl
    | cons b bs =>
      have h0 := h 0 a b rfl rfl
      have hle : as.sum ≤ bs.sum := by
        have : ∀ (as bs : List Nat), as.length = bs.length → (∀ k : Nat, ∀ a b, as[k]? = some a → bs[k]? = some b → a ≤ b) → as.sum ≤ bs.sum := by
          intro as
          induction as with
          | nil => intro bs _ _; simp
          | cons a as ih =>
            intro bs hl h
            cases bs with
            | nil => simp at hl
            | cons b bs =>
              have h0 := h 0 a b rfl rfl
              have := ih bs (by simpa using hl) (fun k x y hx hy => h (k+1) x y (by simpa using hx) (by simpa using hy))
              simp only [List.sum_cons]; omega
        exact this as bs (by simpa using hl) (fun k x y hx hy => h (k+1) x y (by simpa using hx) (by simpa using hy))
      simp only [List.sum_cons] at hs
      have := ih bs (by simpa using hl) (fun k x y hx hy => h (k+1) x y (by simpa using hx) (by simpa using hy)) (by omega)
      rw [this]
      congr 1
      omega

end Release
end Succinct
