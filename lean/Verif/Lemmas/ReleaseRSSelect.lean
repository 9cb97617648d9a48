import Verif.Lemmas.ReleaseRS
import Verif.Lemmas.ReleaseRank
import Verif.Lemmas.ReleaseSelect

/-! `select` of `rs_bit_vector` without assertions. -/
namespace Succinct
namespace Release
open Broadword Spec
open Machine (at_ vlen W)
open RSBitVector (bind_pure_some nblocks Table subs csub)

theorem toNat_mul2 (b : Word) : (b * 2).toNat = 2 * (b.toNat % 2^63) := by
  rw [BitVec.toNat_mul]
  show b.toNat * 2 % 2^64 = _
  omega

/-- a block whose entries are read inside the table is one of the blocks, up to wrapping -/
theorem block_read {f : Nat → Bool} {nb : Nat} {pairs : List Nat} (h : Table f nb pairs) (hnb : nb ≤ 2^54) (b cur : Word)
    (e : at_ (pairs.map W) (b * 2) = some cur) :
    ∃ c, c ≤ nb ∧ b * 2 = W c * 2 ∧ cur = W (cnt f (512*c)) ∧ b * 8 = W (8*c) ∧
      Machine.RSBitVector.subBlockRanks (pairs.map W) b = some (W (subs f c 7)) := by
  have hlt := Machine.rd_lt e
  rw [List.length_map, h.len, toNat_mul2] at hlt
  refine ⟨b.toNat % 2^63, by omega, ?_⟩
  have e2 : b * 2 = W (b.toNat % 2^63) * 2 := by
    apply BitVec.eq_of_toNat_eq
    rw [toNat_mul2, toNat_mul2, Machine.W_toNat _ (by omega)]; omega
  have h1 := Machine.RSBitVector.blockRank_eq h hnb (b.toNat % 2^63) (by omega)
  have h2 := Machine.RSBitVector.subBlockRanks_eq h hnb (b.toNat % 2^63) (by omega)
  unfold Machine.RSBitVector.blockRank at h1
  unfold Machine.RSBitVector.subBlockRanks at h2 ⊢
  rw [← e2] at h1 h2
  rw [e] at h1
  refine ⟨e2, Option.some.inj h1, ?_, h2⟩
  rw [show (8 : Word) = 2 * 4 from rfl, ← BitVec.mul_assoc, e2, BitVec.mul_assoc, show (2 * 4 : Word) = W 8 from rfl, ← Machine.W_mul, Nat.mul_comm]

theorem offset_lt (S m : Word) : (Machine.RSBitVector.subBlockOffset S m).toNat < 8 := by
  unfold Machine.RSBitVector.subBlockOffset
  generalize ((uleqStep9 S (m * onesStep9)) * onesStep9) >>> 54 = y
  rw [BitVec.toNat_and]
  exact Nat.lt_of_le_of_lt Nat.and_le_right (by decide)

/-- an answer of `select_in_word` is the one of that rank -/
theorem word_sound (w : Word) (f : Nat → Bool) (i n : Nat) (hw : ∀ t, t < 64 → w.getLsbD t = f (64*i+t)) (hn : cnt f (64*i) ≤ n) (hb : n < 2^56)
    (s : Nat) (e : selectInWord w (n - cnt f (64*i)) = some s) : s < 64 ∧ f (64*i+s) = true ∧ cnt f (64*i+s) = n := by
  have hc : ∀ e, e ≤ 64 → cnt f (64*i+e) = cnt f (64*i) + cnt w.getLsbD e := by
    intro e he
    rw [cnt_add]; congr 1
    apply cnt_congr; intro t ht; rw [hw t (by omega)]
  by_cases hp : n - cnt f (64*i) < cnt w.getLsbD 64
  · obtain ⟨s', e', h1, h2, h3⟩ := selectInWord_spec w (n - cnt f (64*i)) hp
    have : selectInWord w (n - cnt f (64*i)) = Broadword.selectInWord w (n - cnt f (64*i)) := by
      unfold selectInWord Broadword.selectInWord
      rw [popcount_eq, assertP_eq _ hp, bind_pure_some]
    rw [this, e'] at e
    obtain rfl := Option.some.inj e
    exact ⟨h1, by rw [← hw _ h1]; exact h2, by rw [hc _ (by omega), h3]; omega⟩
  · rw [selectInWord_out _ _ (by omega) (by rw [popcount_eq]; omega)] at e
    cases e

/-- the part of `select` and `select0` after the block is chosen, for a rank that is not below that of the word reached -/
theorem block_sound {f : Nat → Bool} (bits : List Word) (hbits : bits.length ≤ 2^57) (neg : Bool)
    (hw : ∀ i (h : i < bits.length) t, t < 64 → (if neg then ~~~bits[i] else bits[i]).getLsbD t = f (64*i+t))
    (c : Nat) (S n : Word) (hn : n.toNat < 2^56) (hcn : ∀ i, i < bits.length → cnt f (64*i) ≤ n.toNat)
    (hlt : S.toNat < 2^63) (hS : ∀ i, i < 7 → fld 9 i S.toNat = csub f c (7-i)) (hc54 : c ≤ 2^54)
    (cur off : Word) (hcur : cur = W (cnt f (512*c))) (ho : off.toNat < 8) (x w : Word) (s : Nat)
    (hx : shr S ((7 - off) * 9).toNat = some x) (hrd : at_ bits (W (8*c) + off) = some w)
    (hs : selectInWord (if neg then ~~~w else w) (n - (cur + (x &&& 0x1FF))).toNat = some s) :
    ∃ p, (W (8*c) + off) * 64 + BitVec.ofNat 64 s = W p ∧ p < 64 * bits.length ∧ f p = true ∧ cnt f p = n.toNat := by
  obtain ⟨o, ho8, rfl⟩ : ∃ o, o < 8 ∧ off = W o := ⟨off.toNat, ho, (Machine.W_of off).symm⟩
  rw [Machine.RSBitVector.shr_sub S o ho8] at hx
  obtain ⟨h1, h2⟩ := RSBitVector.sub_read S o ho8 (csub f c) (RSBitVector.csub_zero _ _) hlt hS
  rw [h1] at hx
  obtain rfl := Option.some.inj hx
  have e := RSBitVector.csub_add f c o
  rw [show 512*c + 64*o = 64*(8*c+o) by omega] at e
  rw [← Machine.W_add] at hrd ⊢
  have hlt' := Machine.rd_lt hrd
  rw [Machine.W_toNat _ (by omega)] at hlt'
  have hwd : w = bits[8*c+o] := by
    unfold at_ at hrd
    rw [Machine.W_toNat _ (by omega), rd_eq _ _ hlt'] at hrd
    exact (Option.some.inj hrd).symm
  have hcn' := hcn _ hlt'
  have hk : (n - (cur + (S >>> ((7 - o) * 9) &&& 0x1FF))).toNat = n.toNat - cnt f (64*(8*c+o)) := by
    have : cur + (S >>> ((7 - o) * 9) &&& 0x1FF) = W (cnt f (64*(8*c+o))) := by
      rw [hcur, show (0x1FF : Word) = 0x1FF#64 from rfl, ← Machine.W_of (S >>> ((7 - o) * 9) &&& 0x1FF#64), h2, ← Machine.W_add, e]
    rw [this, Machine.toNat_sub_le _ _ (by rw [Machine.W_toNat _ (by omega)]; exact hcn'), Machine.W_toNat _ (by omega)]
  rw [hk] at hs
  obtain ⟨s1, s2, s3⟩ := word_sound _ f (8*c+o) n.toNat (by rw [hwd]; exact hw _ hlt') hcn' hn s hs
  refine ⟨64*(8*c+o)+s, ?_, by omega, s2, s3⟩
  show W (8*c+o) * W 64 + W s = _
  rw [← Machine.W_mul, ← Machine.W_add, Nat.mul_comm (8*c+o)]

variable {v : RSBitVector} {l : List Bool}

theorem bits_le (h : RSBitVector.Inv v l) (hl : l.length ≤ 2^63) : v.bv.bits.length ≤ 2^57 := by
  have := h.rep.len; omega

/-- asked for a one that is not there, `select` ends in undefined behaviour -/
theorem rsSelect_none (h : RSBitVector.Inv v l) (hl : l.length ≤ 2^63) (n : Word) (h1 : l.count true ≤ n.toNat) (h2 : n.toNat < 2^56) :
    rsSelect (Machine.RSBitVector.enc v) n = none := by
  have hnb := Machine.RSBitVector.nblocks_le h.rep hl
  rw [count_eq_cnt] at h1
  cases hq : rsSelect (Machine.RSBitVector.enc v) n with
  | none => rfl
  | some q =>
    exfalso
    unfold rsSelect at hq
    simp only [Option.bind_eq_bind, Option.bind_eq_some_iff] at hq
    obtain ⟨⟨a, b⟩, -, block, -, cur, k1, S, k2, x, k3, w, k4, s, k5, k6⟩ := hq
    obtain ⟨c, c1, -, c3, c4, c5⟩ := block_read h.tab hnb block cur k1
    have : S = W (subs (bitFn l) c 7) := Option.some.inj (k2.symm.trans c5)
    subst this
    rw [c4] at k4
    obtain ⟨p, -, p2, p3, p4⟩ := block_sound v.bv.bits (bits_le h hl) false
      (fun i hi t ht => by rw [if_neg (by simp), getElem_getLsbD _ _ _ hi ht, h.rep.repr.bit]) c _ n h2
      (fun i hi => Nat.le_trans (cnt_mono (bitFn l) (show 64*i ≤ l.length by have := h.rep.len; omega)) h1)
      (by rw [RSBitVector.ofNat_subs]; exact RSBitVector.subs7_lt _ _) (by intro i hi; rw [RSBitVector.ofNat_subs]; exact RSBitVector.subs_fld _ _ i hi)
      (by omega) cur _ c3 (offset_lt _ _) x w s k3 k4 k5
    have := cnt_lt_of_true (bitFn_lt _ _ p3) p3
    omega

/-- asked for a zero past the last one, `select0` can only find the padding -/
theorem rsSelect0_sound (h : RSBitVector.Inv v l) (hl : l.length ≤ 2^63) (n q : Word) (h1 : l.count false ≤ n.toNat) (h2 : n.toNat < 2^56)
    (hq : rsSelect0 (Machine.RSBitVector.enc v) n = some q) :
    q.toNat < 64 * v.bv.bits.length ∧ bitFn l q.toNat = false ∧ cnt (fun p => !bitFn l p) q.toNat = n.toNat := by
  have hnb := Machine.RSBitVector.nblocks_le h.rep hl
  have hcc := count_add_count l
  have hce := count_eq_cnt l
  have h1' : cnt (fun p => !bitFn l p) l.length ≤ n.toNat := by rw [cnt_not]; omega
  unfold rsSelect0 at hq
  simp only [Option.bind_eq_bind, Option.bind_eq_some_iff] at hq
  obtain ⟨⟨a, b⟩, -, block, -, cur, k1, sbr, k2, x, k3, w, k4, s, k5, k6⟩ := hq
  unfold Machine.RSBitVector.blockRank0 at k1
  simp only [Option.bind_eq_bind, Option.bind_eq_some_iff] at k1
  obtain ⟨r, k1, k7⟩ := k1
  obtain ⟨c, c1, -, c3, c4, c5⟩ := block_read h.tab hnb block r k1
  have : sbr = W (subs (bitFn l) c 7) := Option.some.inj (k2.symm.trans c5)
  subst this
  have hcur : cur = W (cnt (fun p => !bitFn l p) (512*c)) := by
    have hadd := cnt_not_add (bitFn l) (512*c)
    rw [← Option.some.inj k7, c4, c3, show (64 : Word) = W 64 from rfl, ← Machine.W_mul, ← Machine.W_sub _ _ (by omega)]
    congr 1; omega
  obtain ⟨z1, z2⟩ := RSBitVector.sub0_fld (BitVec.ofNat 64 (subs (bitFn l) c 7)) (csub (bitFn l) c)
    (by rw [RSBitVector.ofNat_subs]; exact RSBitVector.subs7_lt _ _) (RSBitVector.csub_le _ _)
    (by intro i hi; rw [RSBitVector.ofNat_subs]; exact RSBitVector.subs_fld _ _ i hi)
  rw [c4] at k4
  obtain ⟨p, p1, p2, p3, p4⟩ := block_sound (f := fun p => !bitFn l p) v.bv.bits (bits_le h hl) true
    (fun i hi t ht => by rw [if_pos rfl, BitVec.getLsbD_not, getElem_getLsbD _ _ _ hi ht, h.rep.repr.bit]; simp [ht]) c
    (64#64 * invCountStep9 - BitVec.ofNat 64 (subs (bitFn l) c 7)) n h2
    (fun i hi => Nat.le_trans (cnt_mono (fun p => !bitFn l p) (show 64*i ≤ l.length by have := h.rep.len; omega)) h1')
    z1 (by intro i hi; rw [RSBitVector.csub_not]; exact z2 i hi)
    (by omega) cur _ hcur (offset_lt _ _) x w s k3 k4 k5
  rw [← c4] at p1
  rw [← Option.some.inj k6, p1]
  have := bits_le h hl
  rw [Machine.W_toNat p (by omega)]
  exact ⟨p2, by simpa using p3, p4⟩

end Release
end Succinct
