import Verif.Lemmas.Work
import Verif.Props.Darray
import Verif.Props.RSBitVector
import Verif.Props.BpVector
import Verif.Props.Space
import Verif.Props.CartesianTree

/-! # C67: how long queries run

`q.Within k` (`Model/Work`) is the query `q` with each loop that no constant bounds cut off after `k` iterations; with
the fuel of the model it is the query itself. -/
namespace Succinct
open Spec

/-- the queries cut off where the model cuts them off are the queries -/
theorem selectWithin_self (neg : Bool) (d : Darray) (bv : BitVector) (i : Nat) :
    d.selectWithin (bv.bits.length + 1) neg bv i = d.select neg bv i := rfl
theorem selectWithin_self64 (d : Darray64) (i : Nat) : d.selectWithin (d.bits.bits.length + 1) i = d.select i := rfl

/-- **C67**, `darray1` and `darray0`: `select` reads at most 1025 words of the vector, however long it is. -/
theorem C67_darray (l : List Bool) (neg : Bool) :
    ∃ d, Darray.build neg (BitVector.ofRange l) = some d ∧
      ∀ k, 1025 ≤ k → ∀ i, d.selectWithin k neg (BitVector.ofRange l) i = d.select neg (BitVector.ofRange l) i := by
  have hrep := BitVector.ofRange_rep l
  have hs : (BitVector.ofRange l).size ≤ 64 * (BitVector.ofRange l).bits.length := by
    rw [hrep.size, hrep.len]; omega
  obtain ⟨d, e, h1, h2⟩ := Darray.build_spec neg (BitVector.ofRange l) hs
  refine ⟨d, e, fun k hk i => ?_⟩
  rcases Nat.lt_or_ge i d.positions with h | h
  · rw [h1] at h
    obtain ⟨p, p1, p2, p3⟩ := sel_exists h
    rw [Darray.select_spec neg _ hs d h1 h2 i p p1 p2 p3,
      Darray.selectWithin_spec neg _ hs d h1 h2 i p p1 p2 p3 k (fun s _ _ => by omega)]
  · unfold Darray.select Darray.selectWithin assertP
    rw [if_neg (by omega), Option.bind_eq_bind, Option.bind_none, Option.bind_eq_bind, Option.bind_none]

/-- **C67**, `darray64`: `select` reads at most 65 words. -/
theorem C67_darray64 (ks : List Nat) (hks : ∀ k ∈ ks, k ≤ 64) :
    ∃ b d, (Darray64.new.bind fun b0 => ks.foldlM Darray64.append1 b0) = some b ∧ Darray64.ofBuilder b = some d ∧
      ∀ k, 65 ≤ k → ∀ i, d.selectWithin k i = d.select i := by
  obtain ⟨b0, e0, h0⟩ := Darray64.new_good
  obtain ⟨b, e, h⟩ := Darray64.fold_good ks b0 [] h0 hks
  rw [List.nil_append] at h
  obtain ⟨v, ev, hv⟩ := BitVector.ofBuilder_rep b.bits _ h.bits
  refine ⟨b, ⟨b.nOnes, v, b.block, b.subblock⟩, by rw [e0, Option.bind_some, e], ?_, ?_⟩
  · unfold Darray64.ofBuilder; rw [ev, RSBitVector.bind_pure_some]; rfl
  · intro k hk i
    rcases Nat.lt_or_ge i ks.length with hi | hi
    · rw [Darray64.select_eq _ b ks h (by rw [BitVector.eq_ofRange hv]) hks i hi,
        Darray64.selectWithin_eq _ b ks h (by rw [BitVector.eq_ofRange hv]) hks i hi k (fun s _ _ => by omega)]
    · unfold Darray64.select Darray64.selectWithin assertP
      rw [if_neg (by simp only [h.n]; omega), Option.bind_eq_bind, Option.bind_none, Option.bind_eq_bind, Option.bind_none]

/-- the searches with the interval and the cut-off the model uses -/
theorem RSBitVector.selectWithin_eq {v : RSBitVector} {l : List Bool} (h : Inv v l) (n k : Nat)
    (hk : ∀ a b, n < l.count true → interval v.hints (nblocks v.bv.bits) n = some (a, b) → b - a ≤ 2^k) :
    v.selectWithin k n = v.select n := by
  unfold selectWithin select
  rw [numOnes_eq h, bind_pure_some, bind_pure_some]
  by_cases hn : n < cnt (bitFn l) l.length
  · rw [assertP_eq _ hn, bind_pure_some, bind_pure_some, h.tab.numBlocks, bind_pure_some, bind_pure_some]
    cases e : interval v.hints (nblocks v.bv.bits) n with
    | none => rw [Option.bind_eq_bind, Option.bind_none, Option.bind_eq_bind, Option.bind_none]
    | some ab =>
      obtain ⟨a, b⟩ := ab
      have hab := hk a b (by rw [count_eq_cnt]; exact hn) e
      rw [bind_pure_some, bind_pure_some]
      simp only []
      rw [show bsearch (blockRank v.pairs) n (b - a) a b = bsearch (blockRank v.pairs) n k a b by
        rcases Nat.le_total k (b - a) with h | h
        · exact bsearch_fuel _ _ _ _ _ _ hab h
        · exact (bsearch_fuel _ _ _ _ _ _ (Nat.le_of_lt Nat.lt_two_pow_self) h).symm]
  · unfold assertP
    rw [if_neg hn, Option.bind_eq_bind, Option.bind_none, Option.bind_eq_bind, Option.bind_none]

theorem RSBitVector.select0Within_eq {v : RSBitVector} {l : List Bool} (h : Inv v l) (n k : Nat)
    (hk : ∀ a b, n < l.count false → interval v.hints0 (nblocks v.bv.bits) n = some (a, b) → b - a ≤ 2^k) :
    v.select0Within k n = v.select0 n := by
  unfold select0Within select0
  rw [numZeros_eq h, bind_pure_some, bind_pure_some]
  have hc := count_add_count l
  have he := count_eq_cnt l
  by_cases hn : n < l.length - cnt (bitFn l) l.length
  · rw [assertP_eq _ hn, bind_pure_some, bind_pure_some, h.tab.numBlocks, bind_pure_some, bind_pure_some]
    cases e : interval v.hints0 (nblocks v.bv.bits) n with
    | none => rw [Option.bind_eq_bind, Option.bind_none, Option.bind_eq_bind, Option.bind_none]
    | some ab =>
      obtain ⟨a, b⟩ := ab
      have hab := hk a b (by omega) e
      rw [bind_pure_some, bind_pure_some]
      simp only []
      rw [show bsearch (blockRank0 v.pairs) n (b - a) a b = bsearch (blockRank0 v.pairs) n k a b by
        rcases Nat.le_total k (b - a) with h | h
        · exact bsearch_fuel _ _ _ _ _ _ hab h
        · exact (bsearch_fuel _ _ _ _ _ _ (Nat.le_of_lt Nat.lt_two_pow_self) h).symm]
  · unfold assertP
    rw [if_neg hn, Option.bind_eq_bind, Option.bind_none, Option.bind_eq_bind, Option.bind_none]

/-- **C67**, `rs_bit_vector`: the binary searches of `select` and `select0` on a vector of at most `512 * (2^k - 1)` bits take at most
`k` steps, with or without hints. -/
theorem C67_select (l : List Bool) (a b : Bool) :
    ∃ v, RSBitVector.build (BitVector.ofRange l) a b = some v ∧
      ∀ k, l.length ≤ 512 * (2^k - 1) → ∀ n, v.selectWithin k n = v.select n ∧ v.select0Within k n = v.select0 n := by
  obtain ⟨v, e, eb, h⟩ := RSBitVector.build_inv l a b
  have hc := count_add_count l
  have he := count_eq_cnt l
  have hnb := RSBitVector.nblocks_ge h
  have hlen := h.rep.len
  refine ⟨v, e, fun k hk n => ⟨RSBitVector.selectWithin_eq h n k ?_, RSBitVector.select0Within_eq h n k ?_⟩⟩
  · intro x y hn e
    obtain ⟨x', y', e', h1, h2, _⟩ := RSBitVector.interval_spec (fun i => cnt (bitFn l) (512*i)) _ v.hints h.h1 n
      (fun i j hij => cnt_mono _ (by omega)) (by simp) (by rw [RSBitVector.cnt_bitFn_ge l _ hnb]; omega)
    rw [e] at e'; cases e'
    unfold RSBitVector.nblocks at h2; omega
  · intro x y hn e
    obtain ⟨x', y', e', h1, h2, _⟩ := RSBitVector.interval_spec (fun i => cnt (fun p => !bitFn l p) (512*i)) _ v.hints0 h.h0 n
      (fun i j hij => cnt_mono _ (by omega)) (by simp) (by
        have := cnt_mono (fun p => !bitFn l p) hnb
        rw [cnt_not] at this
        omega)
    rw [e] at e'; cases e'
    unfold RSBitVector.nblocks at h2; omega

theorem RSBitVector.interval_hints (R : Nat → Nat) (nb : Nat) (H : List Nat) (hH : HintsOK R nb H) (n i0 i1 : Nat)
    (hmono : ∀ i j, i ≤ j → R i ≤ R j) (hn : 1024 ≤ n) (h0 : R i0 ≤ 1024 * (n/1024)) (h0' : 1024 * (n/1024) < R (i0+1))
    (h1 : R i1 ≤ 1024 * (n/1024 + 1)) (h1' : 1024 * (n/1024 + 1) < R (i1+1)) (hi : i1 < nb) :
    interval H nb n = some (i0, i1 + 1) := by
  obtain ⟨m, hl, hj, hm, hR⟩ := hH
  have hu : ∀ i i' x, R i ≤ x → x < R (i+1) → R i' ≤ x → x < R (i'+1) → i = i' := by
    intro i i' x a b c d
    rcases Nat.lt_trichotomy i i' with h | h | h
    · have := hmono (i+1) i' (by omega); omega
    · exact h
    · have := hmono (i'+1) i (by omega); omega
  have hnm : n/1024 < m := by
    have := hmono (i1+1) nb (by omega)
    omega
  unfold interval hintLow rd
  obtain ⟨x, x1, x2, x3, x4⟩ := hj (n/1024) hnm
  obtain ⟨y, y1, y2, y3, y4⟩ := hj (n/1024 - 1) (by omega)
  rw [show n/1024 - 1 + 1 = n/1024 by omega] at y3 y4
  rw [if_pos (by omega)]
  simp only []
  rw [if_pos (by omega), x1, y1, bind_pure_some, bind_pure_some, hu y i0 _ y3 y4 h0 h0', hu x i1 _ x3 x4 h1 h1']
  rfl

/-- **C67**, `rs_bit_vector` with hints: the number of steps depends only on how far apart the ones number `1024 * c` and
`1024 * (c + 1)` around the `n`-th are, not on the size of the vector. -/
theorem C67_select_hints (l : List Bool) (b : Bool) :
    ∃ v, RSBitVector.build (BitVector.ofRange l) true b = some v ∧
      ∀ n p q k, 1024 ≤ n → IsSelect1 l (1024 * (n/1024)) p → IsSelect1 l (1024 * (n/1024 + 1)) q → q/512 - p/512 + 1 ≤ 2^k →
        v.selectWithin k n = v.select n := by
  obtain ⟨v, e, eb, h⟩ := RSBitVector.build_inv l true b
  obtain ⟨v', e', _, _, hh, _⟩ := C54_rs_bit_vector_space l true b
  rw [e] at e'; cases e'
  refine ⟨v, e, fun n p q k hn hp hq hk => RSBitVector.selectWithin_eq h n k ?_⟩
  intro x y hn' ei
  have hH : RSBitVector.HintsOK (fun i => cnt (bitFn l) (512*i)) (RSBitVector.nblocks v.bv.bits) v.hints := by
    rcases h.h1 with h | h
    · rw [h] at hh; simp at hh; omega
    · exact h
  have key : ∀ j p, IsSelect1 l j p → cnt (bitFn l) (512 * (p/512)) ≤ j ∧ j < cnt (bitFn l) (512 * (p/512 + 1)) := by
    intro j p h
    obtain ⟨a1, a2⟩ := (isSelect1_iff l j p).1 h
    have := cnt_mono (bitFn l) (show 512 * (p/512) ≤ p by omega)
    have := cnt_lt_of_true (show p < 512 * (p/512 + 1) by omega) a1
    omega
  have hql := bitFn_lt _ _ ((isSelect1_iff l _ q).1 hq).1
  have hnb := RSBitVector.nblocks_ge h
  rw [RSBitVector.interval_hints _ _ _ hH n (p/512) (q/512) (fun i j hij => cnt_mono _ (by omega)) hn (key _ _ hp).1 (key _ _ hp).2
    (key _ _ hq).1 (key _ _ hq).2 (by omega)] at ei
  cases ei
  omega

/-- what a built `bp_vector` of at most `8192 * 2^j` bits looks like -/
theorem BpVector.build_small (l : List Bool) (a b : Bool) (hl : Bal l) (hlen : l.length < 2^31) :
    ∃ v, BpVector.build (BitVector.ofRange l) a b = some v ∧ v.rs.bv = BitVector.ofRange l ∧
      ∀ j, l.length ≤ 8192 * 2^j → v.internalNodes ≤ 2^j ∧ v.superMin.length ≤ 2^(j+1) := by
  have hg := (Bal.dyck hl).good hlen
  obtain ⟨v, e, hbv, hi⟩ := BpVector.build_inv l a b hg
  refine ⟨v, e, hbv, fun j hj => ?_⟩
  have hp : 2^(j+1) = 2 * 2^j := by rw [Nat.pow_succ]; omega
  rcases Nat.eq_zero_or_pos l.length with h0 | h0
  · have : l = [] := List.length_eq_zero_iff.1 h0
    subst this
    have e2 : ∃ rs, BpVector.build (BitVector.ofRange []) a b = some ⟨rs, 0, [], []⟩ := by
      obtain ⟨rs, er, eb, _⟩ := RSBitVector.build_inv [] a b
      refine ⟨rs, ?_⟩
      unfold BpVector.build
      rw [er, RSBitVector.bind_pure_some]
      unfold BpVector.buildMinTree
      rw [eb, if_pos (by decide)]; rfl
    obtain ⟨rs, e2⟩ := e2
    rw [e2] at e; cases e
    simp
  · obtain ⟨H, e1, ht⟩ := hi.tree h0
    obtain ⟨v', e', -, -, hs⟩ := C55_bp_vector_space l a b hl hlen h0
    rw [e] at e'; cases e'
    have h1 := ht.lenEq
    have h2 := ht.le
    have hlt : 2^H < 2 * 2^j := by omega
    have hH : H ≤ j := by
      rw [← hp] at hlt
      have := (Nat.pow_lt_pow_iff_right (show 1 < 2 by omega)).1 hlt
      omega
    have := Nat.pow_le_pow_right (show 0 < 2 by omega) hH
    omega

/-- **C67**, `find_close`, `find_open` and `enclose`: each of the two walks in the tree takes at most `j + 2` steps on a vector
of at most `8192 * 2^j` bits, that is at most 20; the other loops are bounded by 4 words or 32 blocks. -/
theorem C67_find (l : List Bool) (a b : Bool) (hl : Bal l) (hlen : l.length < 2^31) :
    ∃ v, BpVector.build (BitVector.ofRange l) a b = some v ∧
      ∀ j, l.length ≤ 8192 * 2^j → ∀ ov p, v.findCloseWithin (j+2) ov p = v.findClose ov p ∧
        v.findOpenWithin (j+2) ov p = v.findOpen ov p ∧ v.encloseWithin (j+2) ov p = v.enclose ov p := by
  obtain ⟨v, e, hbv, hs⟩ := BpVector.build_small l a b hl hlen
  refine ⟨v, e, fun j hj ov p => ?_⟩
  obtain ⟨h1, _⟩ := hs j hj
  have hp : 2^(j+2) = 4 * 2^j := by rw [Nat.pow_add]; omega
  have hb := (BitVector.ofRange_rep l).len
  have := Nat.two_pow_pos j
  have h2 : v.internalNodes + v.rs.bv.bits.length/128 + 1 < 2^(j+2) := by rw [hbv, hb]; omega
  exact ⟨BpVector.findCloseWithin_eq ov v p _ h2, BpVector.findOpenWithin_eq ov v p _ h2, BpVector.encloseWithin_eq ov v p _ h2⟩

/-- **C67**, `excess_rmq`: likewise for its three walks in the tree. -/
theorem C67_excess_rmq (l : List Bool) (a b : Bool) (hl : Bal l) (hlen : l.length < 2^31) :
    ∃ v, BpVector.build (BitVector.ofRange l) a b = some v ∧
      ∀ j, l.length ≤ 8192 * 2^j → ∀ x y, v.excessRmqWithin (j+2) x y = v.excessRmq x y := by
  obtain ⟨v, e, hbv, hs⟩ := BpVector.build_small l a b hl hlen
  refine ⟨v, e, fun j hj x y => ?_⟩
  obtain ⟨h1, h2⟩ := hs j hj
  have hp : 2^(j+1) = 2 * 2^j := by rw [Nat.pow_succ]; omega
  have hp : 2^(j+2) = 2 * 2^(j+1) := by rw [Nat.pow_succ]; omega
  have hf : ∀ s t u, v.findMinSuperblockWithin (j+2) s t u = v.findMinSuperblock s t u := fun s t u =>
    BpVector.findMinSuperblockWithin_eq v s t u (j+2) (by omega)
  unfold BpVector.excessRmqWithin BpVector.excessRmq BpVector.rmqInnerWithin BpVector.rmqInner BpVector.rmqMiddleWithin BpVector.rmqMiddle
  simp only [hf]

theorem TopKEnum.Inv.length_le {α : Type} {o : Ops α} {v : List α} {e : TopKEnum α} {rem : List (α × Nat)} (h : Inv o v e rem) :
    e.q.length ≤ rem.length := by
  rw [← h.perm.length_eq]
  have hok := h.ok
  generalize e.q = q at hok
  induction q with
  | nil => simp
  | cons x q ih =>
    have := List.length_pos_of_mem (hok x (by simp)).mem
    have := ih fun y hy => hok y (by simp [hy])
    rw [List.flatMap_cons, List.length_append, List.length_cons]
    omega

theorem TopKEnum.after_length {α : Type} {o : Ops α} (ho : TotalOrder o.lt o.eq) {h : HeapOps (QElem α)} (hh : h.Valid (viComp o)) {v : List α} :
    ∀ (k : Nat) (e : TopKEnum α) (rem : List (α × Nat)), Inv o v e rem →
      ∃ e', e.after h k = some e' ∧ e'.q.length ≤ e.q.length + k ∧ e'.q.length ≤ rem.length - k
  | 0, e, rem, hi => ⟨e, rfl, by omega, hi.length_le⟩
  | k + 1, e, rem, hi => by
    cases rem with
    | nil =>
      obtain ⟨e', h1, h2, h3⟩ := after_length ho hh k e [] hi
      refine ⟨e', ?_, by omega, by simp at h3 ⊢; omega⟩
      unfold after
      rw [next_empty h hi, bind_pure_some]
      exact h1
    | cons x rem =>
      obtain ⟨y, rem', e1, g1, _, g3, _, g5, g6⟩ := next_some ho hh hi (by simp)
      obtain ⟨e', h1, h2, h3⟩ := after_length ho hh k e1 rem' g5
      have := g3.length_eq
      refine ⟨e', ?_, by omega, by simp at this ⊢; omega⟩
      unfold after
      rw [g1, bind_pure_some]
      exact h1

/-- **C67**, `topk_vector`: after `k` calls of `next()` the heap of an enumerator holds at most `k + 1` elements, and at most as
many as there are entries left; each call pushes at most two. -/
theorem C67_topk {α : Type} (o : Ops α) (ho : TotalOrder o.lt o.eq) (h : HeapOps (QElem α)) (hh : h.Valid (viComp o))
    (v : List α) (hv : v.length < 2^30 - 1) :
    ∃ t, TopK.build o v = some t ∧
      ∀ a b e0, a ≤ b → b < v.length → ∃ e, t.getEnumerator a b e0 = some e ∧
        ∀ k, ∃ e', e.after h k = some e' ∧ e'.q.length ≤ k + 1 ∧ e'.q.length ≤ b - a + 1 - k := by
  obtain ⟨t, e, hb⟩ := TopK.build_built o ho v hv
  refine ⟨t, e, fun a b e0 hab hbv => ?_⟩
  obtain ⟨en, e1, hi⟩ := TopKEnum.set_inv ho hb e0 a b hab hbv
  refine ⟨en, e1, fun k => ?_⟩
  have hq : en.q.length = 1 := by
    unfold TopKEnum.set at e1
    obtain ⟨_, _, e1⟩ := Option.bind_eq_some_iff.1 e1
    simp only [] at e1
    obtain ⟨_, _, e1⟩ := Option.bind_eq_some_iff.1 e1
    cases e1
    rfl
  obtain ⟨e', h1, h2, h3⟩ := TopKEnum.after_length ho hh k en _ hi
  rw [TopKEnum.entries_length v a b hab hbv] at h3
  exact ⟨e', h1, by omega, h3⟩

/-! The bounds are not vacuous: fewer steps do not suffice. -/

/-- 1023 bits with a one at 63 and one at 1022: the `darray` looks at 16 words to find the second from
the first -/
example : ((Darray.build false ⟨1023, [0x8000000000000000#64] ++ List.replicate 14 0 ++ [0x4000000000000000#64]⟩).bind fun d =>
      d.selectWithin 15 false ⟨1023, [0x8000000000000000#64] ++ List.replicate 14 0 ++ [0x4000000000000000#64]⟩ 1) = none ∧
    ((Darray.build false ⟨1023, [0x8000000000000000#64] ++ List.replicate 14 0 ++ [0x4000000000000000#64]⟩).bind fun d =>
      d.selectWithin 16 false ⟨1023, [0x8000000000000000#64] ++ List.replicate 14 0 ++ [0x4000000000000000#64]⟩ 1) = some 1022 := by
  decide +kernel
/-- four blocks of 512 bits need two steps -/
example : ((RSBitVector.build (BitVector.ofRange (List.replicate 2000 true)) false false).bind fun v => v.selectWithin 1 1700) = none := by
  decide +kernel
example : ((RSBitVector.build (BitVector.ofRange (List.replicate 2000 true)) false false).bind fun v => v.selectWithin 2 1700) = some 1700 := by
  decide +kernel

end Succinct
