import Verif.Lemmas.ReleaseDarray
import Verif.Lemmas.MachineEF

/-! `elias_fano` without assertions, for every 64-bit argument. -/
namespace Succinct
namespace Release
open Broadword Spec
open Machine (W at_)
open RSBitVector (bind_pure_some)

theorem bvSuccessor_none {bv : BitVector} {l : List Bool} (h : Rep bv l) (hl : l.length ≤ 2^63) (pos : Word)
    (hno : ∀ q, pos.toNat ≤ q → bitFn l q = false) : bvSuccessor false (Machine.BitVector.enc bv) pos = none := by
  obtain rfl := BitVector.eq_ofRange h
  have hlen := h.len
  rw [bvSuccessor_whole _ (by show (BitVector.ofRange l).bits.length ≤ _; omega), ← enc_padded]
  have hpl := padded_length l
  rw [Machine.BitVector.successor_eq false _ (Machine.BitVector.Fits.of_rep (BitVector.ofRange_rep _) (by omega))]
  by_cases hp : pos.toNat < (padded l).length
  · have := BitVector.successor_cases false (BitVector.ofRange_rep (padded l)) pos.toNat hp
    cases e : BitVector.successor false (BitVector.ofRange (padded l)) pos.toNat with
    | none => rfl
    | some q =>
      rw [e] at this
      obtain ⟨a, -, b, -⟩ := this
      rw [padded_bitFn, hno q a] at b
      cases b
  · have hs := (BitVector.ofRange_rep (padded l)).size
    unfold BitVector.successor
    rw [assertP_none (by omega)]; rfl

theorem bvAccess_rep {bv : BitVector} {l : List Bool} (h : Rep bv l) (hl : l.length ≤ 2^63) (pos : Word)
    (hp : pos.toNat < 64 * bv.bits.length) : bvAccess (Machine.BitVector.enc bv) pos = some (bitFn l pos.toNat) := by
  obtain rfl := BitVector.eq_ofRange h
  have hlen := h.len
  rw [bvAccess_whole _ (by show (BitVector.ofRange l).bits.length ≤ _; omega), ← enc_padded]
  have hpl := padded_length l
  rw [Machine.BitVector.access_eq _ (Machine.BitVector.Fits.of_rep (BitVector.ofRange_rep _) (by omega)),
    BitVector.access_eq (BitVector.ofRange_rep _) _ (by omega), padded_bitFn]

variable (ov : Word → Nat → Word) {ef : EliasFano} {n : Word} {xs : List Word} {hb : List Bool}

/-- the two indexes are those of the high bits -/
structure Built (ef : EliasFano) : Prop where
  d1 : Darray.build false ef.high = some ef.d1
  d0 : Darray.build true ef.high = some ef.d0

theorem ofSeq_built {m : Nat} (h : EliasFano.ofSeq n m xs true = some ef) : Built ef := by
  unfold EliasFano.ofSeq EliasFano.build at h
  simp only [Option.bind_eq_bind, Option.bind_eq_some_iff, if_true, Option.pure_def] at h
  obtain ⟨_, _, _, _, high, h1, d1, h2, d0, h3, low, h4, h⟩ := h
  obtain rfl := Option.some.inj h
  exact ⟨h2, h3⟩

section
variable (s : Machine.EliasFano.Small ef) (g : EliasFano.Good ef n xs hb) (b : Built ef)
include s g b

omit s b in
theorem ef_count : hb.count true = xs.length := by
  rw [count_eq_cnt, g.high.all, List.length_map]

omit b in
theorem ef_d1_none (b1 : Darray.build false ef.high = some ef.d1) (k : Word) (h : xs.length ≤ k.toNat) :
    daSelect false (Machine.EliasFano.enc ef).d1 (Machine.EliasFano.enc ef).high k = none :=
  daSelect_none g.highRep (Machine.EliasFano.hb_le s g) ef.d1 b1 k (by rw [ef_count g]; exact h)

theorem efSelect_word (k : Word) : efSelect ov (Machine.EliasFano.enc ef) k = xs[k.toNat]? := by
  by_cases hk : k.toNat < xs.length
  · rw [List.getElem?_eq_getElem hk]
    refine efSelect_below ov _ _ _ ?_
    rw [Machine.EliasFano.select_word ov s g, List.getElem?_eq_getElem hk]
  · rw [List.getElem?_eq_none (by omega)]
    unfold efSelect
    rw [ef_d1_none s g b.d1 k (by omega)]; rfl

omit b in
theorem efDelta_none (b1 : Darray.build false ef.high = some ef.d1) (k : Word) (h : xs.length ≤ k.toNat) : efDelta ov (Machine.EliasFano.enc ef) k = none := by
  unfold efDelta
  rw [ef_d1_none s g b1 k h]; rfl

omit b in
theorem efSelectRange_none (b1 : Darray.build false ef.high = some ef.d1) (k : Word) (h : xs.length ≤ k.toNat + 1) : efSelectRange ov (Machine.EliasFano.enc ef) k = none := by
  unfold efSelectRange
  have hx := Machine.EliasFano.xs_le s g
  by_cases hk : k.toNat < xs.length
  · obtain ⟨a1, a2, a3⟩ := EliasFano.hi_one g k.toNat hk
    have hh := Machine.EliasFano.hb_le s g
    have e1 : daSelect false (Machine.EliasFano.enc ef).d1 (Machine.EliasFano.enc ef).high k = some (W (xs[k.toNat].toNat / 2^ef.l + k.toNat)) := by
      refine daSelect_below _ _ _ _ _ ?_
      rw [Machine.EliasFano.select1_eq s, g.sel _ hk]; rfl
    rw [e1, bind_pure_some]
    cases efLow ov (Machine.EliasFano.enc ef) k with
    | none => rfl
    | some lb =>
      have hz : bvSuccessor false (Machine.EliasFano.enc ef).high (W (xs[k.toNat].toNat / 2^ef.l + k.toNat) + 1) = none := by
        refine bvSuccessor_none g.highRep hh _ fun q hq => ?_
        have e2 : (W (xs[k.toNat].toNat / 2^ef.l + k.toNat) + 1).toNat = xs[k.toNat].toNat / 2^ef.l + k.toNat + 1 := by
          rw [Machine.toNat_add_lt _ _ (by rw [Machine.W_toNat _ (by omega)]; show _ + 1 < _; omega), Machine.W_toNat _ (by omega)]; rfl
        rw [e2] at hq
        cases hf : bitFn hb q with
        | false => rfl
        | true =>
          exfalso
          have h1 := cnt_lt_of_true (show xs[k.toNat].toNat / 2^ef.l + k.toNat < q by omega) a1
          have h2 := cnt_lt_of_true (bitFn_lt _ _ hf) hf
          rw [g.high.all, List.length_map] at h2
          omega
      rw [bind_pure_some, hz]; rfl
  · rw [ef_d1_none s g b1 k (by omega)]; rfl

/-- what the zero ending a bucket says, also in the padding -/
theorem ef_bucket (hr q : Word) (h : daSelect true (Machine.EliasFano.enc ef).d0 (Machine.EliasFano.enc ef).high hr = some q) :
    q.toNat < 64 * ef.high.bits.length ∧ cnt (bitFn hb) q.toNat ≤ xs.length ∧ hr.toNat + cnt (bitFn hb) q.toNat = q.toNat ∧
      bitFn hb q.toNat = false ∧
      (∀ k (hk : k < xs.length), cnt (bitFn hb) q.toNat ≤ k → hr.toNat < xs[k].toNat / 2^ef.l) := by
  obtain ⟨h1, h2, h3⟩ := daSelect_sound g.highRep (Machine.EliasFano.hb_le s g) true ef.d0 b.d0 hr q h
  simp only [Bool.xor_true] at h2 h3
  rw [cnt_not] at h3
  have hle := cnt_le (bitFn hb) q.toNat
  have h2' : bitFn hb q.toNat = false := by simpa using h2
  have hall := g.high.all
  rw [List.length_map] at hall
  have hm : cnt (bitFn hb) q.toNat ≤ xs.length := by
    rcases Nat.le_total q.toNat hb.length with a | a
    · have := cnt_mono (bitFn hb) a; omega
    · obtain ⟨j, hj⟩ : ∃ j, q.toNat = hb.length + j := ⟨_, (Nat.add_sub_cancel' a).symm⟩
      have hz : cnt (fun t => bitFn hb (hb.length + t)) j = 0 := by
        rw [cnt_false]
        intro t _
        cases hf : bitFn hb (hb.length + t) with
        | false => rfl
        | true => have := bitFn_lt _ _ hf; omega
      rw [hj, cnt_add, hz]; omega
  refine ⟨h1, hm, by omega, h2', fun k hk hge => ?_⟩
  have := g.high.lt_of_zero k (by rw [List.length_map]; exact hk) q.toNat h2' hge
  rw [List.getElem_map] at this; omega

omit g b in
theorem shr_word (pos hr : Word) (h : shr pos (Machine.EliasFano.enc ef).l.toNat = some hr) : hr.toNat = pos.toNat / 2^ef.l := by
  have hlb := s.lb
  rw [show (Machine.EliasFano.enc ef).l = W ef.l from rfl, Machine.W_toNat _ (by omega), shr_eq _ _ hlb] at h
  rw [← Option.some.inj h, shr_toNat]

/-- every answer of `rank` off the universe is the number of smaller values -/
theorem efRank_sound (pos r : Word) (hne : pos ≠ n) (h : efRank ov (Machine.EliasFano.enc ef) pos = some r) :
    r = W (xs.countP (· < pos)) := by
  have hlb := s.lb
  have hh := Machine.EliasFano.hb_le s g
  have hx := Machine.EliasFano.xs_le s g
  have hlen := g.highRep.len
  unfold efRank at h
  rw [if_neg (by rw [show (Machine.EliasFano.enc ef).size = ef.size from rfl, g.size]; exact hne)] at h
  simp only [Option.bind_eq_bind, Option.bind_eq_some_iff] at h
  obtain ⟨hr, h1, q, h2, mask, h3, h⟩ := h
  have ehr := shr_word s pos hr h1
  obtain ⟨q1, q2, q3, q4, q5⟩ := ef_bucket s g b hr q h2
  have hrk : q - hr = W (cnt (bitFn hb) q.toNat) := by
    apply BitVec.eq_of_toNat_eq
    rw [Machine.toNat_sub_le _ _ (by omega), Machine.W_toNat _ (by omega)]; omega
  rw [hrk] at h
  have hmask : mask = maskW ef.l := by
    rw [show (Machine.EliasFano.enc ef).l = W ef.l from rfl, Machine.EFBuilder.lowMask_eq _ (by omega), lowMask_eq _ hlb] at h3
    exact (Option.some.inj h3).symm
  subst hmask
  by_cases hq : q.toNat ≤ hb.length
  · obtain ⟨r', e, r1, r2, r3⟩ := EliasFano.rankLoop_eq ov g pos q.toNat _ hq rfl (by omega) q2 (fun k hk hge => by
      have := q5 k hk hge
      rw [ehr] at this
      exact Nat.le_of_lt (EliasFano.div_lt_lt _ _ _ this))
    have e2 := Machine.EliasFano.rankLoop_some ov s _ q.toNat _ r' q.isLt (by omega) e
    rw [Machine.W_of] at e2
    have := efRankLoop_below ov _ _ _ _ _ _ e2
    rw [this] at h
    rw [← Option.some.inj h, EliasFano.countP_split xs _ r' r1]
    · intro k hk hkr; simp only [decide_eq_true_iff]; exact BitVec.lt_def.2 (r2 k hk hkr)
    · intro k hk hkr; simp only [decide_eq_false_iff_not, BitVec.lt_def]; have := r3 k hk hkr; omega
  · have hq1 : (q - 1).toNat = q.toNat - 1 := by
      rw [Machine.toNat_sub_le _ _ (by show 1 ≤ _; omega)]; rfl
    have hbit : bvAccess (Machine.EliasFano.enc ef).high (q - 1) = some false := by
      have := bvAccess_rep g.highRep hh (q - 1) (by omega)
      rw [hq1] at this
      rw [show (Machine.EliasFano.enc ef).high = Machine.BitVector.enc ef.high from rfl, this]
      cases hf : bitFn hb (q.toNat - 1) with
      | false => rfl
      | true => have := bitFn_lt _ _ hf; omega
    have hall : cnt (bitFn hb) q.toNat = xs.length := by
      have := cnt_mono (bitFn hb) (show hb.length ≤ q.toNat by omega)
      rw [g.high.all, List.length_map] at this
      omega
    unfold efRankLoop at h
    rw [if_pos (by rw [gt_iff_lt, BitVec.lt_def]; show 0 < _; omega), hbit, bind_pure_some, if_neg (by simp)] at h
    rw [← Option.some.inj h, hall]
    congr 1
    symm
    rw [List.countP_eq_length]
    intro x hxm
    obtain ⟨k, hk, rfl⟩ := List.getElem_of_mem hxm
    rw [decide_eq_true_iff, BitVec.lt_def]
    obtain ⟨c1, c2, c3⟩ := EliasFano.hi_one g k hk
    apply EliasFano.div_lt_lt _ _ (2^ef.l)
    rw [← ehr]
    by_contra hcon
    have hlt : hb.length - xs.length ≤ hr.toNat := by omega
    have := EFBuilder.div_mono _ _ (g.le _ (List.getElem_mem hk)) ef.l
    have := g.len
    omega

/-- every answer of `operator[]` is right -/
theorem efAccess_sound (pos : Word) (r : Bool) (h : efAccess ov (Machine.EliasFano.enc ef) pos = some r) : r = decide (pos ∈ xs) := by
  have hlb := s.lb
  have hh := Machine.EliasFano.hb_le s g
  have hx := Machine.EliasFano.xs_le s g
  have hlen := g.highRep.len
  unfold efAccess at h
  simp only [Option.bind_eq_bind, Option.bind_eq_some_iff] at h
  obtain ⟨hr, h1, q, h2, mask, h3, h⟩ := h
  have ehr := shr_word s pos hr h1
  obtain ⟨q1, q2, q3, q4, q5⟩ := ef_bucket s g b hr q h2
  have hrk : q - hr = W (cnt (bitFn hb) q.toNat) := by
    apply BitVec.eq_of_toNat_eq
    rw [Machine.toNat_sub_le _ _ (by omega), Machine.W_toNat _ (by omega)]; omega
  rw [hrk] at h
  have hmask : mask = maskW ef.l := by
    rw [show (Machine.EliasFano.enc ef).l = W ef.l from rfl, Machine.EFBuilder.lowMask_eq _ (by omega), lowMask_eq _ hlb] at h3
    exact (Option.some.inj h3).symm
  subst hmask
  by_cases hq : q.toNat ≤ hb.length
  · have e := EliasFano.accessLoop_eq ov g pos q.toNat _ hq rfl (by omega) q2 (fun k hk hge => by
      have := q5 k hk hge
      rw [ehr] at this
      exact EliasFano.div_lt_lt _ _ _ this)
    have e2 := Machine.EliasFano.accessLoop_some ov s _ q.toNat _ _ q.isLt (by omega) e
    rw [Machine.W_of] at e2
    have := efAccessLoop_below ov _ _ _ _ _ _ e2
    rw [this] at h
    exact (Option.some.inj h).symm
  · have hq1 : (q - 1).toNat = q.toNat - 1 := by
      rw [Machine.toNat_sub_le _ _ (by show 1 ≤ _; omega)]; rfl
    have hbit : bvAccess (Machine.EliasFano.enc ef).high (q - 1) = some false := by
      have := bvAccess_rep g.highRep hh (q - 1) (by omega)
      rw [hq1] at this
      rw [show (Machine.EliasFano.enc ef).high = Machine.BitVector.enc ef.high from rfl, this]
      cases hf : bitFn hb (q.toNat - 1) with
      | false => rfl
      | true => have := bitFn_lt _ _ hf; omega
    unfold efAccessLoop at h
    rw [if_pos (by rw [gt_iff_lt, BitVec.lt_def]; show 0 < _; omega), hbit, bind_pure_some, if_neg (by simp)] at h
    rw [← Option.some.inj h]
    symm
    rw [decide_eq_false_iff_not]
    intro hm
    have := EFBuilder.div_mono _ _ (g.le _ hm) ef.l
    have := g.len
    omega

omit s g b in
theorem sorted_countP {zs : List Word} (hs : zs.Pairwise (· ≤ ·)) (pos : Word) (k : Nat) (hk : k < zs.length) :
    zs[k] < pos ↔ k < zs.countP (· < pos) := by
  induction zs generalizing k with
  | nil => simp at hk
  | cons z zs ih =>
    obtain ⟨h1, h2⟩ := List.pairwise_cons.1 hs
    by_cases hz : z < pos
    · rw [List.countP_cons_of_pos (by simpa using hz)]
      cases k with
      | zero => simpa using hz
      | succ k =>
        rw [List.getElem_cons_succ, ih h2 k (by simpa using hk)]; omega
    · have hall : ∀ x ∈ z :: zs, ¬ x < pos := by
        intro x hx hlt
        rcases List.mem_cons.1 hx with rfl | hx
        · exact hz hlt
        · exact hz (by have := BitVec.le_def.1 (h1 x hx); have := BitVec.lt_def.1 hlt; exact BitVec.lt_def.2 (by omega))
      have h0 : (z :: zs).countP (· < pos) = 0 := List.countP_eq_zero.2 fun x hx => by simpa using hall x hx
      rw [h0]
      exact ⟨fun h => absurd h (hall _ (List.getElem_mem hk)), fun h => absurd h (by omega)⟩

theorem efSuccessor1_sound (pos y : Word) (h : efSuccessor1 ov (Machine.EliasFano.enc ef) pos = some y) :
    y ∈ xs ∧ pos ≤ y ∧ ∀ x ∈ xs, pos ≤ x → y ≤ x := by
  have hx := Machine.EliasFano.xs_le s g
  unfold efSuccessor1 at h
  rw [Option.bind_eq_bind, Option.bind_eq_some_iff] at h
  obtain ⟨r, h1, h2⟩ := h
  rw [efSelect_word ov s g b] at h2
  obtain ⟨hr, h2⟩ := List.getElem?_eq_some_iff.1 h2
  by_cases hn : pos = n
  · exfalso
    rw [efRank, if_pos (show pos = (Machine.EliasFano.enc ef).size by rw [hn]; exact g.size.symm)] at h1
    have e : r = W xs.length := by
      rw [← Option.some.inj h1, ← g.ones]; rfl
    rw [e, Machine.W_toNat _ (by omega)] at hr
    omega
  · have e := efRank_sound ov s g b pos r hn h1
    have hc := List.countP_le_length (l := xs) (p := fun x => decide (x < pos))
    have ew : r.toNat = xs.countP (· < pos) := by rw [e, Machine.W_toNat _ (by omega)]
    simp only [ew] at hr h2
    have hge : ¬ xs[xs.countP (· < pos)] < pos := by
      rw [sorted_countP g.sorted pos _ hr]; omega
    subst h2
    refine ⟨List.getElem_mem hr, BitVec.not_lt.1 hge, fun x hx hp => ?_⟩
    obtain ⟨j, hj, rfl⟩ := List.getElem_of_mem hx
    rcases Nat.lt_or_ge j (xs.countP (· < pos)) with a | a
    · exact absurd ((sorted_countP g.sorted pos j hj).2 a) (BitVec.not_lt.2 hp)
    · rcases Nat.eq_or_lt_of_le a with a | a
      · simp only [a]; exact BitVec.le_refl _
      · exact List.pairwise_iff_getElem.1 g.sorted _ _ hr hj a

theorem efPredecessor1_sound (hlt : ∀ x ∈ xs, x < n) (pos y : Word) (h : efPredecessor1 ov (Machine.EliasFano.enc ef) pos = some y) :
    y ∈ xs ∧ y ≤ pos ∧ ∀ x ∈ xs, x ≤ pos → x ≤ y := by
  have hx := Machine.EliasFano.xs_le s g
  have hpl := pos.isLt
  unfold efPredecessor1 at h
  rw [Option.bind_eq_bind, Option.bind_eq_some_iff] at h
  obtain ⟨r, h1, h2⟩ := h
  rw [efSelect_word ov s g b] at h2
  obtain ⟨hr, h2⟩ := List.getElem?_eq_some_iff.1 h2
  have e : r = W (xs.countP (· < pos + 1)) := by
    by_cases hn : pos + 1 = n
    · rw [efRank, if_pos (show pos + 1 = (Machine.EliasFano.enc ef).size by rw [hn]; exact g.size.symm)] at h1
      rw [← Option.some.inj h1, hn, List.countP_eq_length.2 fun x hx => by simpa using hlt x hx, ← g.ones]; rfl
    · exact efRank_sound ov s g b _ r hn h1
  have hc := List.countP_le_length (l := xs) (p := fun x => decide (x < pos + 1))
  have h0 : xs.countP (· < pos + 1) ≠ 0 := by
    intro h0
    rw [e, h0] at hr
    have : (W 0 - 1).toNat = 2^64 - 1 := by decide
    omega
  have er : (r - 1).toNat = xs.countP (· < pos + 1) - 1 := by
    rw [e, Machine.toNat_sub_le _ _ (by rw [Machine.W_toNat _ (by omega)]; show 1 ≤ _; omega), Machine.W_toNat _ (by omega)]; rfl
  simp only [er] at hr h2
  have hp1 : (pos + 1).toNat = pos.toNat + 1 := by
    have hlt' := (sorted_countP g.sorted (pos + 1) _ hr).2 (by omega)
    have := BitVec.lt_def.1 hlt'
    rw [BitVec.toNat_add] at this ⊢
    have e1 : (1 : Word).toNat = 1 := rfl
    rw [e1] at this ⊢
    omega
  have hle : ∀ x : Word, x < pos + 1 ↔ x ≤ pos := fun x => by
    rw [BitVec.lt_def, BitVec.le_def, hp1]; omega
  subst h2
  refine ⟨List.getElem_mem hr, (hle _).1 ((sorted_countP g.sorted (pos + 1) _ hr).2 (by omega)), fun x hx hp => ?_⟩
  obtain ⟨j, hj, rfl⟩ := List.getElem_of_mem hx
  have := (sorted_countP g.sorted (pos + 1) j hj).1 ((hle _).2 hp)
  rcases Nat.eq_or_lt_of_le (show j ≤ xs.countP (· < pos + 1) - 1 by omega) with a | a
  · simp only [a]; exact BitVec.le_refl _
  · exact List.pairwise_iff_getElem.1 g.sorted _ _ hj hr a

end
end Release
end Succinct
