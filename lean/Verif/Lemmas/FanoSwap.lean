import Verif.Model.FanoSwap
import Verif.Spec.FanoSwap
import Verif.Lemmas.GammaSwap
import Verif.Lemmas.EliasFanoE

/-! # `select_enumerator` while objects are swapped -/
namespace Succinct
open Broadword Spec
open RSBitVector (bind_pure_some)

namespace FanoSwap

variable {ef : EliasFano} {n : Word} {xs : List Word} {hb : List Bool}

/-- the enumerator before value `k`; `left` low parts of `src` are held -/
structure Ok (l : Nat) (xs : List Word) (hb : List Bool) (e : EliasFano.SelEnum) (k : Nat) (src : List Bool) (left : Nat) : Prop where
  idx : e.i = k
  high : k < xs.length → ∃ u c, e.high = some u ∧ UEnum.Good hb u c ∧ ∀ h : k < xs.length, IsSucc true hb c (xs[k].toNat / 2^l + k)
  zero : l = 0 → xs.length - k ≤ e.chunksAvail
  buf : l ≠ 0 → e.chunksAvail = left ∧ left < 64 / l ∧ ∀ t, t < left * l → e.lowBuf.getLsbD t = bitFn src (k * l + t)

theorem low_lt (s : List Bool) (k l : Nat) : bitsToNat ((s.drop (k * l)).take l) < 2^l := GammaSwap.bitsToNat_take_lt _ _

/-- the value put together -/
theorem value_exists (x : Word) (l : Nat) (hl : l < 64) (s : List Bool) (k : Nat) :
    ∃ z : Word, z.toNat = x.toNat / 2^l * 2^l + bitsToNat ((s.drop (k * l)).take l) := by
  refine ⟨BitVec.ofNat 64 (x.toNat / 2^l * 2^l + bitsToNat ((s.drop (k * l)).take l)), ?_⟩
  rw [BitVec.toNat_ofNat, Nat.mod_eq_of_lt]
  have h1 := low_lt s k l
  have h2 : (x.toNat / 2^l + 1) * 2^l ≤ 2^64 := by
    have h3 : x.toNat / 2^l < 2^(64 - l) := by
      rw [Nat.div_lt_iff_lt_mul (Nat.two_pow_pos _), ← Nat.pow_add, Nat.sub_add_cancel (by omega)]
      exact x.isLt
    calc (x.toNat / 2^l + 1) * 2^l ≤ 2^(64 - l) * 2^l := Nat.mul_le_mul_right _ h3
      _ = 2^64 := by rw [← Nat.pow_add, Nat.sub_add_cancel (by omega)]
  rw [Nat.succ_mul] at h2
  omega

theorem value_join (x z : Word) (l : Nat) (hl : l < 64) (s : List Bool) (k : Nat) (buf : Word)
    (hz : z.toNat = x.toNat / 2^l * 2^l + bitsToNat ((s.drop (k * l)).take l))
    (hb : ∀ t, t < l → buf.getLsbD t = bitFn s (k * l + t)) :
    BitVec.ofNat 64 (x.toNat / 2^l) <<< l ||| (buf &&& maskW l) = z := by
  have h1 := low_lt s k l
  have hq : z.toNat / 2^l = x.toNat / 2^l := by
    rw [hz, Nat.mul_comm (x.toNat / 2^l), Nat.mul_add_div (Nat.two_pow_pos _), Nat.div_eq_of_lt h1, Nat.add_zero]
  have hm : buf &&& maskW l = z &&& maskW l := by
    apply BitVec.eq_of_getLsbD_eq
    intro t _
    rw [and_maskW_bit _ _ _ hl, and_maskW_bit _ _ _ hl]
    by_cases ht : t < l
    · rw [hb t ht, ← BitVec.testBit_toNat, hz, Nat.mul_comm (x.toNat / 2^l), Nat.testBit_two_pow_mul_add _ h1, if_pos ht, testBit_bitsToNat, bitFn_take,
        bitFn_drop]
      simp [ht]
    · simp [ht]
  rw [hm, ← hq, combine_eq _ _ hl]

/-- one call, the low parts given -/
theorem next_eq (h : EliasFano.Good ef n xs hb) (cur : EliasFano) (e : EliasFano.SelEnum) (k : Nat) (src : List Bool) (left : Nat)
    (he : Ok ef.l xs hb e k src left) (hk : k < xs.length) (hs : cur.d1.select false cur.high k = some (xs[k].toNat / 2^ef.l + k))
    (buf : Word) (avail : Nat) (hr : refill ef.l cur e = some (buf, avail)) (src' : List Bool)
    (h0 : ef.l = 0 → xs.length - (k+1) ≤ avail)
    (h1 : ef.l ≠ 0 → avail < 64 / ef.l ∧ ∀ t, t < (avail + 1) * ef.l → buf.getLsbD t = bitFn src' (k * ef.l + t))
    (z : Word) (hz : z.toNat = xs[k].toNat / 2^ef.l * 2^ef.l + bitsToNat ((src'.drop (k * ef.l)).take ef.l)) :
    ∃ e', next ef.l ef.high.bits cur e = some (z, e') ∧ Ok ef.l xs hb e' (k+1) src' avail := by
  obtain ⟨u, c, u1, u2, u3⟩ := he.high hk
  obtain ⟨u', v1, v2⟩ := UEnum.next_good h.highRep.repr u c _ u2 (u3 hk)
  have hl := h.lb
  have hj := value_join xs[k] z ef.l hl src' k buf hz (fun t ht => (h1 (by omega)).2 t (by rw [Nat.succ_mul]; omega))
  unfold next
  rw [hr, bind_pure_some]
  simp only []
  rw [u1, bind_pure_some, v1, bind_pure_some]
  simp only []
  rw [he.idx, hs, bind_pure_some, assertP_eq _ rfl, bind_pure_some, lowMask_eq _ hl, bind_pure_some,
    subU_eq _ _ (Nat.le_add_left _ _), bind_pure_some, shl_eq _ _ hl, bind_pure_some, shr_eq _ _ hl, bind_pure_some,
    Nat.add_sub_cancel, hj]
  refine ⟨_, rfl, rfl, ?_, h0, ?_⟩
  · intro hi1
    refine ⟨u', _, rfl, v2, fun _ => ?_⟩
    obtain ⟨a1, a2, a3⟩ := EliasFano.hi_one h (k+1) hi1
    have hd := Nat.div_le_div_right (c := 2^ef.l) (EliasFano.sorted_le h k (k+1) (by omega) hi1)
    refine ⟨by omega, (bitFn_eq_true _ _).1 a1, ?_⟩
    intro r hr1 hr2 hr
    have := EliasFano.pred_high h k hi1 r (by omega) hr2 ((bitFn_eq_true _ _).2 hr)
    omega
  · intro hn
    obtain ⟨q1, q2⟩ := h1 hn
    refine ⟨rfl, q1, ?_⟩
    intro t ht
    simp only []
    rw [BitVec.getLsbD_ushiftRight, q2 _ (by rw [Nat.succ_mul]; omega), Nat.succ_mul]
    congr 1; omega

/-- what a successful call needs -/
theorem next_some (h : EliasFano.Good ef n xs hb) {cur : EliasFano} {n' : Word} {ys : List Word} {hb' : List Bool}
    (h' : EliasFano.Good cur n' ys hb') (e : EliasFano.SelEnum) (k : Nat) (src : List Bool) (left : Nat)
    (he : Ok ef.l xs hb e k src left) (hk : k < xs.length) (r : Word × EliasFano.SelEnum) (hn : next ef.l ef.high.bits cur e = some r) :
    (∃ y, ys[k]? = some y ∧ y.toNat / 2^cur.l = xs[k].toNat / 2^ef.l) ∧
      (ef.l = 0 ∨ 0 < left ∨ k * ef.l < (lowSeq cur.l ys).length) := by
  obtain ⟨u, c, u1, u2, u3⟩ := he.high hk
  obtain ⟨u', v1, v2⟩ := UEnum.next_good h.highRep.repr u c _ u2 (u3 hk)
  unfold next at hn
  obtain ⟨⟨buf, avail⟩, hr, hn⟩ := Option.bind_eq_some_iff.1 hn
  simp only [] at hn
  rw [u1, bind_pure_some, v1, bind_pure_some] at hn
  simp only [] at hn
  obtain ⟨s, hs, hn⟩ := Option.bind_eq_some_iff.1 hn
  obtain ⟨_, ha, _⟩ := Option.bind_eq_some_iff.1 hn
  rw [he.idx] at hs
  constructor
  · have hlt : k < ys.length := by
      apply Classical.byContradiction
      intro hc
      unfold Darray.select assertP at hs
      rw [if_neg (by rw [h'.ones]; omega)] at hs
      cases hs
    rw [h'.sel k hlt] at hs
    have hs := Option.some.inj hs
    have hp : xs[k].toNat / 2^ef.l + k = s := by
      unfold assertP at ha
      split at ha
      · assumption
      · cases ha
    exact ⟨ys[k], List.getElem?_eq_getElem hlt, by omega⟩
  · by_cases h0 : ef.l = 0
    · exact Or.inl h0
    · refine Or.inr ?_
      obtain ⟨b1, _⟩ := he.buf h0
      by_cases hl : left = 0
      · right
        unfold refill at hr
        rw [if_pos (by omega)] at hr
        obtain ⟨w, hw, _⟩ := Option.bind_eq_some_iff.1 hr
        unfold BitVector.getWord at hw
        obtain ⟨_, ha, _⟩ := Option.bind_eq_some_iff.1 hw
        unfold assertP at ha
        split at ha
        · rename_i hp
          rw [h'.lowRep.size, he.idx] at hp
          exact hp
        · cases ha
      · left; omega

/-- the low parts held suffice -/
theorem refill_held (cur : EliasFano) (l : Nat) (e : EliasFano.SelEnum) (k : Nat) (src : List Bool) (left : Nat) (he : Ok l xs hb e k src left)
    (hk : k < xs.length) (hc : l = 0 ∨ 0 < left) :
    ∃ avail, refill l cur e = some (e.lowBuf, avail) ∧ (l = 0 → xs.length - (k+1) ≤ avail) ∧
      (l ≠ 0 → avail = left - 1 ∧ avail < 64 / l ∧ ∀ t, t < (avail + 1) * l → e.lowBuf.getLsbD t = bitFn src (k * l + t)) := by
  have h0 := he.zero
  have h1 := he.buf
  have hp : e.chunksAvail ≠ 0 := by
    rcases hc with hc | hc
    · have := h0 hc; omega
    · by_cases hl : l = 0
      · have := h0 hl; omega
      · have := (h1 hl).1; omega
  unfold refill
  rw [if_neg hp]
  refine ⟨_, rfl, fun hl => by have := h0 hl; omega, fun hl => ?_⟩
  obtain ⟨b1, b2, b3⟩ := h1 hl
  refine ⟨by omega, by omega, fun t ht => b3 t ?_⟩
  rw [Nat.sub_add_cancel (by omega)] at ht
  rw [← b1]; exact ht

/-- low parts are fetched -/
theorem refill_fresh {cur : EliasFano} {n' : Word} {ys : List Word} {hb' : List Bool} (h' : EliasFano.Good cur n' ys hb') (l : Nat) (hl : l < 64)
    (e : EliasFano.SelEnum) (k : Nat) (src : List Bool) (left : Nat) (he : Ok l xs hb e k src left) (hc : l ≠ 0 ∧ left = 0)
    (hlt : k * l < (lowSeq cur.l ys).length) :
    ∃ buf, refill l cur e = some (buf, 64 / l - 1) ∧ 64 / l - 1 < 64 / l ∧
      ∀ t, t < (64 / l - 1 + 1) * l → buf.getLsbD t = bitFn (lowSeq cur.l ys) (k * l + t) := by
  obtain ⟨b1, _⟩ := he.buf hc.1
  obtain ⟨w, w1, w2⟩ := BitVector.getWord_eq h'.lowRep (k * l) hlt
  have hd : 1 ≤ 64 / l := Nat.div_pos (by omega) (by omega)
  unfold refill
  rw [if_pos (by omega), he.idx, w1, bind_pure_some, if_pos hc.1, subU_eq _ _ hd, bind_pure_some]
  refine ⟨w, rfl, by omega, fun t ht => ?_⟩
  rw [Nat.sub_add_cancel hd] at ht
  have := Nat.div_mul_le_self 64 l
  exact w2 t (by omega)

theorem swap_eq (s : Objs EliasFano) (x y : Nat) : EliasFano.swap .whole s x y = swapped s x y := by
  rw [EliasFano.swap_eq Field.whole_ok, stdSwap_whole]
  rfl

/-- the objects hold what `a` says -/
def Holds (s : Objs EliasFano) (a : Nat → Nat × List Word) : Prop :=
  ∀ j, (s j).l = (a j).1 ∧ ∃ n hb, EliasFano.Good (s j) n (a j).2 hb

theorem Holds.swap {s : Objs EliasFano} {a : Nat → Nat × List Word} (h : Holds s a) (x y : Nat) :
    Holds (EliasFano.swap .whole s x y) (swapped a x y) := by
  intro j
  rw [swap_eq]
  unfold swapped
  split
  · exact h y
  · split
    · exact h x
    · exact h j

theorem sel_of {cur : EliasFano} {n' : Word} {ys : List Word} {hb' : List Bool} (h' : EliasFano.Good cur n' ys hb') (k : Nat) (y : Word)
    (hy : ys[k]? = some y) (q : Nat) (hq : y.toNat / 2^cur.l = q) : cur.d1.select false cur.high k = some (q + k) := by
  obtain ⟨hk, rfl⟩ := List.getElem?_eq_some_iff.1 hy
  rw [h'.sel k hk, hq]

theorem run_mix (h : EliasFano.Good ef n xs hb) (i : Nat) {a : Nat → Nat × List Word} {src : List Bool} {left k : Nat} {ops : List SeqOp} {outs : List Word}
    (hm : FanoMix ef.l i xs a src left k ops outs) :
    ∀ s e, Holds s a → Ok ef.l xs hb e k src left → run i ef.l ef.high.bits s e ops = some outs := by
  induction hm with
  | nil => intro s e _ _; rfl
  | swap _ ih =>
    intro s e hs he
    unfold run
    exact ih _ e (hs.swap _ _) he
  | @held a src left k ops outs x y z hx hy hq hc hz _ ih =>
    intro s e hs he
    obtain ⟨hk, rfl⟩ := List.getElem?_eq_some_iff.1 hx
    obtain ⟨q1, n', hb', g⟩ := hs i
    obtain ⟨avail, r1, r2, r3⟩ := refill_held (s i) ef.l e k src left he hk hc
    obtain ⟨e', e1, o1⟩ := next_eq h (s i) e k src left he hk (sel_of g k y hy _ (by rw [q1]; exact hq)) _ _ r1 src r2 (fun hl => (r3 hl).2) z hz
    unfold run
    rw [e1, bind_pure_some]
    simp only []
    rw [ih s e' hs ⟨o1.idx, o1.high, o1.zero, fun hl => by rw [← (r3 hl).1]; exact o1.buf hl⟩, bind_pure_some]
    rfl
  | @fresh a src left k ops outs x y z hx hy hq hc hlt hz _ ih =>
    intro s e hs he
    obtain ⟨hk, rfl⟩ := List.getElem?_eq_some_iff.1 hx
    obtain ⟨q1, n', hb', g⟩ := hs i
    rw [← q1] at hlt hz ih hq
    obtain ⟨buf, r1, r2, r3⟩ := refill_fresh g ef.l h.lb e k src left he hc hlt
    obtain ⟨e', e1, o1⟩ := next_eq h (s i) e k src left he hk (sel_of g k y hy _ hq) _ _ r1 _ (fun h0 => absurd h0 hc.1) (fun _ => ⟨r2, r3⟩) z hz
    unfold run
    rw [e1, bind_pure_some]
    simp only []
    rw [ih s e' hs o1, bind_pure_some]
    rfl

theorem mix_run (h : EliasFano.Good ef n xs hb) (i : Nat) : ∀ (ops : List SeqOp) (a : Nat → Nat × List Word) (src : List Bool) (left k : Nat)
    (outs : List Word) (s : Objs EliasFano) (e : EliasFano.SelEnum), k + nexts ops ≤ xs.length → Holds s a → Ok ef.l xs hb e k src left →
    run i ef.l ef.high.bits s e ops = some outs → FanoMix ef.l i xs a src left k ops outs
  | [], a, src, left, k, outs, s, e, _, _, _, hr => by cases hr; exact .nil
  | .swap x y :: ops, a, src, left, k, outs, s, e, hk, hs, he, hr => by
    unfold run at hr
    exact .swap (mix_run h i ops _ src left k outs _ e hk (hs.swap x y) he hr)
  | .next :: ops, a, src, left, k, outs, s, e, hk, hs, he, hr => by
    have hk1 : k + 1 + nexts ops ≤ xs.length := by
      have : nexts (.next :: ops) = nexts ops + 1 := rfl
      omega
    have hkl : k < xs.length := by omega
    obtain ⟨q1, n', hb', g⟩ := hs i
    unfold run at hr
    obtain ⟨⟨z, e'⟩, hn, hr⟩ := Option.bind_eq_some_iff.1 hr
    simp only [] at hr
    obtain ⟨outs', ho, hr⟩ := Option.bind_eq_some_iff.1 hr
    cases hr
    obtain ⟨⟨y, hy, hq⟩, hc⟩ := next_some h g e k src left he hkl _ hn
    have hx := List.getElem?_eq_getElem hkl
    have hsel := sel_of g k y hy _ hq
    by_cases hh : ef.l = 0 ∨ 0 < left
    · obtain ⟨avail, r1, r2, r3⟩ := refill_held (s i) ef.l e k src left he hkl hh
      obtain ⟨z', hz'⟩ := value_exists xs[k] ef.l h.lb src k
      obtain ⟨e2, e1, o1⟩ := next_eq h (s i) e k src left he hkl hsel _ _ r1 src r2 (fun hl => (r3 hl).2) z' hz'
      rw [e1] at hn
      cases hn
      exact .held hx hy (by rw [← q1]; exact hq) hh hz' (mix_run h i ops a src (left - 1) (k+1) outs' s e' hk1 hs
        ⟨o1.idx, o1.high, o1.zero, fun hl => by rw [← (r3 hl).1]; exact o1.buf hl⟩ ho)
    · have hc2 : ef.l ≠ 0 ∧ left = 0 := by omega
      have hlt : k * ef.l < (lowSeq (s i).l (a i).2).length := by
        rcases hc with hc | hc | hc
        · exact absurd hc hc2.1
        · omega
        · exact hc
      obtain ⟨buf, r1, r2, r3⟩ := refill_fresh g ef.l h.lb e k src left he hc2 hlt
      obtain ⟨z', hz'⟩ := value_exists xs[k] ef.l h.lb (lowSeq (s i).l (a i).2) k
      obtain ⟨e2, e1, o1⟩ := next_eq h (s i) e k src left he hkl hsel _ _ r1 _ (fun h0 => absurd h0 hc2.1) (fun _ => ⟨r2, r3⟩) z' hz'
      rw [e1] at hn
      cases hn
      have hrec := mix_run h i ops a _ _ (k+1) outs' s e' hk1 hs o1 ho
      rw [q1] at hlt hz' hrec hq
      exact .fresh hx hy hq hc2 hlt hz' hrec

end FanoSwap
end Succinct
