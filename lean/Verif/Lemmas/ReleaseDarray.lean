import Verif.Lemmas.ReleaseRS
import Verif.Lemmas.ReleaseRank
import Verif.Lemmas.SpaceDarray
import Verif.Lemmas.MachineDarray
import Verif.Lemmas.Darray64

/-! `select` of `darray` and `darray64` for every index, without the assertion on the index. -/
namespace Succinct
namespace Darray
open Broadword

/-- the word loop finds nothing if there are too few ones -/
theorem selectLoop_out (get : Nat → Option Word) (len : Nat) (G : Nat → Bool) (fuel : Nat) (word : Word) (idx rem : Nat)
    (hget : ∀ j, idx < j → j < len → ∃ w, get j = some w ∧ ∀ t, t < 64 → w.getLsbD t = G (64*j+t))
    (hnone : ∀ j, len ≤ j → get j = none)
    (hw : ∀ t, t < 64 → word.getLsbD t = G (64*idx+t)) (hidx : idx < len) (hrem : cnt G (64*len) ≤ rem + cnt G (64*idx)) :
    selectLoop get fuel word idx rem = none := by
  induction fuel generalizing word idx rem with
  | zero => rfl
  | succ fuel ih =>
    have h64 : cnt G (64*(idx+1)) = cnt G (64*idx) + popcount word := by
      rw [Nat.mul_succ, cnt_add, popcount_eq]; congr 1
      apply cnt_congr; intro t ht; rw [hw t ht]
    have hm := cnt_mono G (show 64*(idx+1) ≤ 64*len by omega)
    rw [selectLoop]
    generalize popcount word = pc at *
    rw [if_neg (by omega)]
    by_cases hl : idx + 1 < len
    · obtain ⟨w, e, hw'⟩ := hget (idx+1) (by omega) hl
      rw [e, bind_pure_some]
      exact ih w (idx+1) _ (fun j a b => hget j (by omega) b) hw' hl (by omega)
    · rw [hnone _ (by omega)]; rfl

theorem selectFrom_out (get : Nat → Option Word) (len : Nat) (F : Nat → Bool)
    (hget : ∀ j, j < len → ∃ w, get j = some w ∧ ∀ t, t < 64 → w.getLsbD t = F (64*j+t))
    (hnone : ∀ j, len ≤ j → get j = none) (s r : Nat) (hs : s < 64*len) (hr : r ≠ 0) (hc : cnt F (64*len) ≤ cnt F s + r) (k : Nat) :
    selectFrom get k s r = none := by
  unfold selectFrom
  rw [if_neg hr]
  dsimp only
  obtain ⟨w, e, hw⟩ := hget (s/64) (by omega)
  rw [e, bind_pure_some, shl_eq _ _ (by omega), bind_pure_some]
  have hG : ∀ q, s ≤ q → cnt (fun x => F x && decide (s ≤ x)) q + cnt F s = cnt F q := by
    intro q hq
    obtain ⟨k, rfl⟩ : ∃ k, q = s + k := ⟨q - s, by omega⟩
    rw [cnt_add, cnt_add, cnt_false, Nat.zero_add, Nat.add_comm]
    · congr 1
      apply cnt_congr; intro i hi; simp
    · intro i hi; simp; omega
  apply selectLoop_out get len (fun x => F x && decide (s ≤ x))
  · intro j h1 h2
    obtain ⟨w', e', hw'⟩ := hget j (by omega)
    refine ⟨w', e', ?_⟩
    intro t ht
    rw [hw' t ht]; simp; omega
  · exact hnone
  · intro t ht
    rw [BitVec.getLsbD_and, hw t ht, BitVec.getLsbD_shiftLeft]
    simp only [ht, decide_true, Bool.true_and, BitVec.getLsbD_allOnes]
    congr 1
    by_cases h : s ≤ 64*(s/64)+t
    · simp [h]; omega
    · simp [h]; omega
  · omega
  · have := hG (64*len) (by omega)
    omega

theorem getWord_none (neg : Bool) (data : List Word) (j : Nat) (h : data.length ≤ j) : getWord neg data j = none := by
  unfold getWord rd
  rw [List.getElem?_eq_none h]; rfl

/-- the answer of the word loop, whether or not there are enough ones -/
theorem selectFrom_sound (neg : Bool) (data : List Word) (s r p : Nat) (hs : gbit neg data s = true) (hsl : s < 64*data.length)
    (h : selectFrom (getWord neg data) (data.length + 1) s r = some p) :
    p < 64*data.length ∧ gbit neg data p = true ∧ cnt (gbit neg data) p = cnt (gbit neg data) s + r := by
  by_cases hr : r = 0
  · subst hr
    unfold selectFrom at h
    rw [if_pos rfl] at h
    obtain rfl := Option.some.inj h
    exact ⟨hsl, hs, rfl⟩
  · by_cases hc : cnt (gbit neg data) (64*data.length) ≤ cnt (gbit neg data) s + r
    · rw [selectFrom_out _ data.length (gbit neg data) (fun j hj => getWord_eq neg data j hj) (getWord_none neg data) s r hsl hr hc] at h
      cases h
    · obtain ⟨q, q1, q2, q3⟩ := sel_exists (f := gbit neg data) (n := 64*data.length) (show cnt (gbit neg data) s + r < _ by omega)
      rw [selectFrom_spec _ data.length (gbit neg data) (fun j hj => getWord_eq neg data j hj) s r q hs q2 q3 q1 _ (by omega)] at h
      obtain rfl := Option.some.inj h
      exact ⟨q1, q2, q3⟩

/-- the exact positions of a last, incomplete block are at the end of the list of exact positions -/
theorem build_last (neg : Bool) (bv : BitVector) (hs : bv.size ≤ 64 * bv.bits.length) (d : Darray) (h : build neg bv = some d)
    (hc : cnt (gbit neg bv.bits) bv.size % 1024 ≠ 0) (o : Nat)
    (ho : d.inv.block[cnt (gbit neg bv.bits) bv.size / 1024]? = some (-(o:Int) - 1)) :
    d.inv.overflow.length = o + cnt (gbit neg bv.bits) bv.size % 1024 := by
  unfold build at h
  have hm := mono_onesIn (gbit neg bv.bits) bv.size
  have hl := onesIn_length (gbit neg bv.bits) bv.size
  rw [scan_eq neg bv.bits bv.size bv.bits.length 0 _ (by omega) hs, Nat.mul_zero] at h
  generalize onesIn (gbit neg bv.bits) 0 bv.size = P at *
  rw [← hl] at hc ho ⊢
  obtain ⟨st, e, hst⟩ := fold_inv P hm P.length 0 (by omega) ⟨[], ⟨[], [], []⟩, 0⟩ ⟨rfl, by simp, rfl, rfl, by intro i hi; omega⟩
  rw [List.drop_zero] at e
  rw [e, bind_pure_some] at h
  have hcl : st.cur.length = P.length - 1024*(P.length/1024) := by rw [hst.cur, List.take_length, List.length_drop]
  rw [if_pos (by omega)] at h
  have hbl := hst.bl
  unfold flush at h
  simp only [Option.bind_eq_bind, Option.bind_eq_some_iff, Option.pure_def, Option.some.injEq] at h
  obtain ⟨inv, ⟨back, -, front, -, dist, -, h⟩, rfl⟩ := h
  dsimp only at ho ⊢
  split at h
  · simp only [Option.bind_eq_some_iff, Option.some.injEq] at h
    obtain ⟨offs, -, rfl⟩ := h
    dsimp only at ho
    rw [List.getElem?_append_right (by omega), hbl, Nat.sub_self] at ho
    simp at ho; omega
  · obtain rfl := Option.some.inj h
    dsimp only at ho ⊢
    rw [List.getElem?_append_right (by omega), hbl, Nat.sub_self] at ho
    simp at ho
    rw [List.length_append]; omega

/-- `select` without the bound on the index: past the last position it can only run into the padding -/
theorem select_out (neg : Bool) (bv : BitVector) (hs : bv.size ≤ 64 * bv.bits.length) (d : Darray) (h : build neg bv = some d)
    (N idx p : Nat) (hidx : cnt (gbit neg bv.bits) bv.size ≤ idx) (e : select neg { d with positions := N } bv idx = some p) :
    p < 64 * bv.bits.length ∧ gbit neg bv.bits p = true ∧ cnt (gbit neg bv.bits) p = idx := by
  obtain ⟨-, hb, hsb⟩ := build_space neg bv hs d h
  obtain ⟨d', e', -, hok⟩ := build_spec neg bv hs
  rw [h] at e'
  obtain rfl := Option.some.inj e'
  have hlast := build_last neg bv hs d h
  generalize hC : cnt (gbit neg bv.bits) bv.size = C at *
  unfold select at e
  simp only [Option.bind_eq_bind, Option.bind_eq_some_iff] at e
  obtain ⟨-, -, bp, h1, e⟩ := e
  have hlt : idx / 1024 < d.inv.block.length := by
    unfold rd at h1
    exact (List.getElem?_eq_some_iff.1 h1).1
  obtain ⟨v, ev, hv⟩ := hok (idx/1024) (by omega)
  have : bp = v := by
    unfold rd at h1
    rw [show ({ d with positions := N } : Darray).inv = d.inv from rfl, ev] at h1
    exact (Option.some.inj h1).symm
  subst this
  have hi : idx / 1024 = C / 1024 := by omega
  have hlen := onesIn_length (gbit neg bv.bits) bv.size
  rcases hv with ⟨front, rfl, -, hv⟩ | ⟨o, rfl, hv⟩
  · rw [if_neg (by omega)] at e
    simp only [Option.bind_eq_some_iff] at e
    obtain ⟨sub, h2, e⟩ := e
    have hlt2 : idx / 32 < d.inv.subblock.length := by
      unfold rd at h2
      exact (List.getElem?_eq_some_iff.1 h2).1
    obtain ⟨q, q1, q2, q3⟩ := hv (idx%1024/32) (by unfold blk; rw [List.length_take, List.length_drop, hlen]; omega)
    unfold blk at q1
    rw [List.getElem?_take_of_lt (by omega), List.getElem?_drop, onesIn_getElem?_iff] at q1
    rw [show 32*(idx/1024) + idx%1024/32 = idx/32 by omega] at q3
    have hsub : sub = q - front := by
      unfold rd at h2
      rw [show ({ d with positions := N } : Darray).inv = d.inv from rfl, q3] at h2
      exact (Option.some.inj h2).symm
    rw [hsub, show (front : Int).toNat + (q - front) = q by simp; omega] at e
    obtain ⟨a, b, c⟩ := selectFrom_sound neg bv.bits q (idx%32) p q1.2.1 (by omega) e
    exact ⟨a, b, by rw [c, q1.2.2]; omega⟩
  · exfalso
    rw [if_pos (by omega)] at e
    rw [hi] at ev
    have := hlast (by omega) o ev
    unfold rd at e
    rw [show ({ d with positions := N } : Darray).inv = d.inv from rfl, List.getElem?_eq_none (by omega)] at e
    cases e

end Darray

namespace Release
open Broadword Spec
open Machine (W at_)
open RSBitVector (bind_pure_some)

theorem selectInWord_lt (x : Word) (k : Nat) (h : k < popcount x) : selectInWord x k = Broadword.selectInWord x k := by
  unfold selectInWord Broadword.selectInWord
  rw [assertP_eq _ h, bind_pure_some]

theorem selectLoop_same (get : Word → Option Word) (fuel : Nat) (word idx rem : Word) :
    selectLoop get fuel word idx rem = Machine.Darray.selectLoop get fuel word idx rem := by
  induction fuel generalizing word idx rem with
  | zero => rfl
  | succ fuel ih =>
    unfold Machine.Darray.selectLoop selectLoop
    dsimp only
    have hp : rem < BitVec.ofNat 64 (popcount word) → rem.toNat < popcount word := by
      intro h
      have := BitVec.lt_def.1 h
      rw [BitVec.toNat_ofNat] at this
      have := Nat.mod_le (popcount word) (2^64)
      omega
    by_cases h : rem < BitVec.ofNat 64 (popcount word)
    · rw [if_pos h, if_pos h, selectInWord_lt _ _ (hp h)]
    · rw [if_neg h, if_neg h]
      congr 1; funext w; exact ih _ _ _

theorem selectFrom_same (get : Word → Option Word) (fuel : Nat) (start rem : Word) :
    selectFrom get fuel start rem = Machine.Darray.selectFrom get fuel start rem := by
  unfold Machine.Darray.selectFrom selectFrom
  simp only [selectLoop_same]
  rfl

/-- without its assertion `select` is the `select` of a `darray` that claims to have as many positions as possible -/
theorem daSelect_same (neg : Bool) (d : Machine.Darray) (bv : Machine.BitVector) (idx : Word) (h : idx ≠ BitVec.allOnes 64) :
    daSelect neg d bv idx = Machine.Darray.select neg { d with positions := BitVec.allOnes 64 } bv idx := by
  unfold Machine.Darray.select daSelect
  have : idx < BitVec.allOnes 64 := by
    rw [BitVec.lt_def, BitVec.toNat_allOnes]
    have : idx.toNat ≠ 2^64 - 1 := by
      intro e; apply h; apply BitVec.eq_of_toNat_eq; rw [e, BitVec.toNat_allOnes]
    omega
  rw [assertP_eq _ this, bind_pure_some]
  simp only [selectFrom_same]

theorem daSelect_max (neg : Bool) (d : Machine.Darray) (bv : Machine.BitVector) (h : d.inv.block.length < 2^54 - 1) :
    daSelect neg d bv (BitVec.allOnes 64) = none := by
  unfold daSelect at_ rd
  rw [List.getElem?_eq_none]; rfl
  have : ((BitVec.allOnes 64 : Word) / 1024).toNat = 2^54 - 1 := by decide
  rw [this]; omega

variable {bv : BitVector} {l : List Bool}

theorem gbit_rep (h : Rep bv l) (neg : Bool) : Darray.gbit neg bv.bits = fun p => bitFn l p ^^ neg := by
  funext p
  unfold Darray.gbit
  rw [h.repr.bit]

/-- every answer of `select` is the position asked for in the words -/
theorem daSelect_sound (h : Rep bv l) (hl : l.length ≤ 2^63) (neg : Bool) (d : Darray) (e : Darray.build neg bv = some d) (idx q : Word)
    (hq : daSelect neg (Machine.Darray.enc d) (Machine.BitVector.enc bv) idx = some q) :
    q.toNat < 64 * bv.bits.length ∧ (bitFn l q.toNat ^^ neg) = true ∧ cnt (fun p => bitFn l p ^^ neg) q.toNat = idx.toNat := by
  have hs : bv.size ≤ 64 * bv.bits.length := by rw [h.len, h.size]; omega
  have hf := Machine.BitVector.Fits.of_rep h hl
  have hlen := h.len
  obtain ⟨hi, hbl, -⟩ := Darray.build_space neg bv hs d e
  obtain ⟨d', e', hp, hok⟩ := Darray.build_spec neg bv hs
  rw [e] at e'
  obtain rfl := Option.some.inj e'
  have hc := cnt_le (Darray.gbit neg bv.bits) bv.size
  have hsz := h.size
  by_cases hm : idx = BitVec.allOnes 64
  · rw [hm, daSelect_max] at hq
    · cases hq
    · show (d.inv.block.map _).length < _
      rw [List.length_map]; omega
  rw [daSelect_same _ _ _ _ hm] at hq
  have hq' := Machine.Darray.select_eq neg { d with positions := 2^64 - 1 } bv hf (by show 2^64 - 1 < 2^64; omega) hi idx
  have e1 : Machine.Darray.enc { d with positions := 2^64 - 1 } = { Machine.Darray.enc d with positions := BitVec.allOnes 64 } := by
    unfold Machine.Darray.enc
    congr 1
  rw [e1, hq] at hq'
  obtain ⟨p, hp1, rfl⟩ := Option.map_eq_some_iff.1 hq'.symm
  rw [← gbit_rep h neg, show (bitFn l (W p).toNat ^^ neg) = Darray.gbit neg bv.bits (W p).toNat from (congrFun (gbit_rep h neg) _).symm]
  have key : p < 64 * bv.bits.length ∧ Darray.gbit neg bv.bits p = true ∧ cnt (Darray.gbit neg bv.bits) p = idx.toNat := by
    rcases Nat.lt_or_ge idx.toNat (cnt (Darray.gbit neg bv.bits) bv.size) with hlt | hge
    · obtain ⟨r, r1, r2, r3⟩ := sel_exists hlt
      have := Darray.select_spec neg bv hs d hp hok idx.toNat r r1 r2 r3
      have h2 : Darray.select neg { d with positions := 2^64 - 1 } bv idx.toNat = some r := by
        unfold Darray.select at this ⊢
        rw [assertP_eq _ (by omega), bind_pure_some] at this
        rw [assertP_eq _ (by show idx.toNat < 2^64 - 1; omega), bind_pure_some]
        exact this
      rw [h2] at hp1
      obtain rfl := Option.some.inj hp1
      exact ⟨by omega, r2, r3⟩
    · exact Darray.select_out neg bv hs d e _ _ _ hge hp1
  rw [Machine.W_toNat p (by omega)]
  exact key

/-- there is no one in the padding -/
theorem daSelect_none (h : Rep bv l) (hl : l.length ≤ 2^63) (d : Darray) (e : Darray.build false bv = some d) (idx : Word)
    (hi : l.count true ≤ idx.toNat) : daSelect false (Machine.Darray.enc d) (Machine.BitVector.enc bv) idx = none := by
  cases hq : daSelect false (Machine.Darray.enc d) (Machine.BitVector.enc bv) idx with
  | none => rfl
  | some q =>
    exfalso
    obtain ⟨-, h2, h3⟩ := daSelect_sound h hl false d e idx q hq
    simp only [Bool.xor_false] at h2 h3
    have h4 := cnt_lt_of_true (bitFn_lt _ _ h2) h2
    rw [count_eq_cnt] at hi
    rw [show (fun p => bitFn l p) = bitFn l from rfl] at h3
    omega

end Release

namespace Darray64
open Spec

theorem rd_none_of_le (data : List Word) (j : Nat) (h : data.length ≤ j) : rd data j = none := by
  unfold rd
  exact List.getElem?_eq_none h

/-- past the last one there is nothing to find -/
theorem select_out (b : Darray64Builder) (ks : List Nat) (h : Good b ks) (hks : ∀ k ∈ ks, k ≤ 64) (N i : Nat) (hi : ks.length ≤ i) :
    select ⟨N, BitVector.ofRange (unary ks), b.block, b.subblock⟩ i = none := by
  have hrep := BitVector.ofRange_rep (unary ks)
  have hlen := hrep.len
  cases e : select ⟨N, BitVector.ofRange (unary ks), b.block, b.subblock⟩ i with
  | none => rfl
  | some p =>
    exfalso
    unfold select at e
    simp only [Option.bind_eq_bind, Option.bind_eq_some_iff] at e
    obtain ⟨-, -, bp, h1, sub, h2, e⟩ := e
    unfold rd at h1 h2
    have l1 := (List.getElem?_eq_some_iff.1 h1).1
    have l2 := (List.getElem?_eq_some_iff.1 h2).1
    rw [h.bl] at l1
    rw [h.sl] at l2
    rw [h.blk _ (by omega)] at h1
    rw [h.sub _ (by omega)] at h2
    rw [← Option.some.inj h1, ← Option.some.inj h2] at e
    obtain ⟨o1, o2⟩ := onePos_step ks 64 hks (1024*(i/64/16)) (64*(i/64)) (by omega) (by omega)
    rw [show i/1024 = i/64/16 by omega, show onePos ks (1024*(i/64/16)) + (onePos ks (64*(i/64)) - onePos ks (1024*(i/64/16))) = onePos ks (64*(i/64)) by omega] at e
    obtain ⟨a1, a2⟩ := (isSelect1_iff _ _ _).1 (isSelect1_onePos ks (64*(i/64)) (by omega))
    have hlt := bitFn_lt _ _ a1
    have hc : cnt (bitFn (unary ks)) (64 * (BitVector.ofRange (unary ks)).bits.length) ≤ ks.length := by
      rw [← unary_count ks, count_eq_cnt]
      obtain ⟨j, hj⟩ : ∃ j, 64 * (BitVector.ofRange (unary ks)).bits.length = (unary ks).length + j := ⟨_, (Nat.add_sub_cancel' (by omega)).symm⟩
      have hz : cnt (fun t => bitFn (unary ks) ((unary ks).length + t)) j = 0 := by
        rw [cnt_false]
        intro t _
        cases hb : bitFn (unary ks) ((unary ks).length + t) with
        | false => rfl
        | true => have := bitFn_lt _ _ hb; omega
      rw [hj, cnt_add, hz]; omega
    rw [Darray.selectFrom_out _ (BitVector.ofRange (unary ks)).bits.length (bitFn (unary ks)) _ (rd_none_of_le _) _ _ (by omega) (by omega)
      (by omega)] at e
    · cases e
    · intro j hj
      refine ⟨_, rd_eq _ _ hj, ?_⟩
      intro t ht
      rw [getElem_getLsbD _ _ _ hj ht, hrep.repr.bit]

end Darray64

namespace Release
open Broadword Spec
open Machine (W at_)
open RSBitVector (bind_pure_some)

theorem da64Select_same (d : Machine.Darray64) (idx : Word) (h : idx ≠ BitVec.allOnes 64) :
    da64Select d idx = Machine.Darray64.select { d with numOnes := BitVec.allOnes 64 } idx := by
  unfold Machine.Darray64.select da64Select
  have : idx < BitVec.allOnes 64 := by
    rw [BitVec.lt_def, BitVec.toNat_allOnes]
    have : idx.toNat ≠ 2^64 - 1 := by
      intro e; apply h; apply BitVec.eq_of_toNat_eq; rw [e, BitVec.toNat_allOnes]
    omega
  rw [assertP_eq _ this, bind_pure_some]
  simp only [selectFrom_same]

theorem da64Select_max (d : Machine.Darray64) (h : d.block.length < 2^54 - 1) : da64Select d (BitVec.allOnes 64) = none := by
  unfold da64Select at_ rd
  rw [List.getElem?_eq_none]; rfl
  have : ((BitVec.allOnes 64 : Word) / 1024).toNat = 2^54 - 1 := by decide
  rw [this]; omega

end Release
end Succinct
