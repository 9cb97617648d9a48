import Verif.Lemmas.MachineBp

/-! # `excess_rmq` in 64-bit arithmetic follows the model -/
namespace Succinct
namespace Machine
open Broadword
open Succinct.Machine.Bp
open Succinct.RSBitVector (bind_pure_some nblocks)

namespace BpVector
variable {v : Succinct.BpVector} {l : List Bool}

theorem walkDown_sim {tree : List Int} {stop : Nat} (ht : tree.length ≤ 2^52) (hs : stop < 2^62) (h0 : 0 < stop) :
    ∀ (h node span : Nat) (best : Int × Nat) (r : Succinct.BpVector.Walk), h < 64 → node < 2^62 → span < 2^62 → best.2 ≤ 2^62 →
      Succinct.BpVector.walkDown tree stop h node span best = some r →
      walkDown tree (W stop) h ⟨W node, W span, W h, encP best⟩ = some (encW r) ∧ r.node < 2^62 ∧ r.span < 2^62 ∧ r.best.2 ≤ 2^62 := by
  intro h
  induction h with
  | zero =>
    intro node span best r _ hn hsp hb hr
    unfold Succinct.BpVector.walkDown at hr
    unfold walkDown
    have e1 : (W span > W stop - 1) ↔ span > stop - 1 := by wn
    by_cases hc : span > stop - 1
    · rw [if_pos hc] at hr
      simp at hr
    · rw [if_neg hc] at hr
      rw [if_neg (fun c => hc (e1.1 c))]
      rw [← Option.some.inj hr]
      exact ⟨rfl, hn, hsp, hb⟩
  | succ h ih =>
    intro node span best r hh hn hsp hb hr
    unfold Succinct.BpVector.walkDown at hr
    unfold walkDown
    have e1 : (W span > W stop - 1) ↔ span > stop - 1 := by wn
    by_cases hc : span > stop - 1
    · rw [if_pos hc] at hr
      rw [if_pos (e1.2 hc)]
      simp only [Option.bind_eq_bind, Option.bind_eq_some_iff] at hr
      obtain ⟨_, h1, d, h2, hr⟩ := hr
      have hlt := assert_of h1
      obtain ⟨d1, d2⟩ := subU_of h2
      have hpos := Nat.two_pow_pos h
      have a1 : W node < vlen tree := (W_lt _ _ (by omega) (by omega)).2 hlt
      have a2 : W (h + 1) > 0 := by wn
      have a3 : W (h + 1) - 1 = W h := by wn
      have a4 : W node * 2 = W (node * 2) := (W_mul _ _).symm
      have a5 : ((1 : Word) <<< h) = W (2^h) := by
        apply BitVec.eq_of_toNat_eq
        rw [W_toNat _ (by omega), BitVec.toNat_shiftLeft, show (1 : Word).toNat = 1 from rfl, Nat.shiftLeft_eq, Nat.one_mul]
        exact Nat.mod_eq_of_lt (by omega)
      have a6 : W span - W (2^h) = W d := by rw [d2, W_sub _ _ d1]
      have a7 : (W d ≥ W stop - 1) ↔ d ≥ stop - 1 := by wn
      simp only []
      rw [assert_yes a1, bind_pure_some, assert_yes a2, bind_pure_some, a3, a4, W_toNat _ (by omega), shl_eq _ _ (by omega), bind_pure_some,
        a5, a6]
      by_cases hd : d ≥ stop - 1
      · rw [if_pos hd] at hr
        rw [if_pos (a7.2 hd)]
        exact ih _ _ _ _ (by omega) (by omega) (by omega) hb hr
      · rw [if_neg hd] at hr
        rw [if_neg (fun c => hd (a7.1 c))]
        simp only [Option.bind_eq_some_iff] at hr
        obtain ⟨b, h3, hr⟩ := hr
        have a8 : W (node * 2) + 1 = W (node * 2 + 1) := (W_add _ _).symm
        rw [betterNode_sim (by omega) h3, bind_pure_some, a8]
        exact ih _ _ _ _ (by omega) (by omega) (by omega) (betterNode_le (by omega) hb h3) hr
    · rw [if_neg hc] at hr
      rw [if_neg (fun c => hc (e1.1 c))]
      rw [← Option.some.inj hr]
      exact ⟨rfl, hn, hsp, hb⟩

theorem minLeaf_sim {tree : List Int} {internal : Nat} (hi : internal ≤ 2^51) :
    ∀ (fuel node r : Nat), node ≤ 2^62 → Succinct.BpVector.minLeaf tree internal fuel node = some r →
      minLeaf tree (W internal) fuel (W node) = some (W r) ∧ r ≤ 2^62 := by
  intro fuel
  induction fuel with
  | zero =>
    intro node r hn hr
    unfold Succinct.BpVector.minLeaf at hr
    unfold minLeaf
    have hc : (W node < W internal) ↔ node < internal := W_lt _ _ (by omega) (by omega)
    by_cases h : node < internal
    · rw [if_pos h] at hr; exact absurd hr (by simp)
    · rw [if_neg h] at hr
      rw [if_neg (fun c => h (hc.1 c)), ← Option.some.inj hr]; exact ⟨rfl, hn⟩
  | succ fuel ih =>
    intro node r hn hr
    unfold Succinct.BpVector.minLeaf at hr
    unfold minLeaf
    have hc : (W node < W internal) ↔ node < internal := W_lt _ _ (by omega) (by omega)
    by_cases h : node < internal
    · rw [if_pos h] at hr
      rw [if_pos (hc.2 h)]
      simp only [Option.bind_eq_bind, Option.bind_eq_some_iff] at hr
      obtain ⟨a, h1, b, h2, hr⟩ := hr
      have e1 : W node * 2 = W (node * 2) := (W_mul _ _).symm
      have e2 : W (node * 2) + 1 = W (node * 2 + 1) := (W_add _ _).symm
      have e3 : (if a < b then W (node * 2 + 1) else W (node * 2)) = W (if a < b then node * 2 + 1 else node * 2) := by split <;> rfl
      simp only []
      rw [e1, e2, at_W (by omega) h1, bind_pure_some, at_W (by omega) h2, bind_pure_some, e3]
      exact ih _ _ (by split <;> omega) hr
    · rw [if_neg h] at hr
      rw [if_neg (fun c => h (hc.1 c)), ← Option.some.inj hr]; exact ⟨rfl, hn⟩

theorem findMinSuperblock_sim (h : Small v l) {start stop : Nat} (h1 : start < 2^57) (h2 : stop < 2^57) {s r : Int × Nat} (hs : s.2 < 2^57)
    (hr : v.findMinSuperblock start stop s = some r) :
    (enc v).findMinSuperblock (W start) (W stop) (encP s) = some (encP r) ∧ r.2 < 2^57 := by
  have hint := h.internal
  have hsup := h.super
  unfold Succinct.BpVector.findMinSuperblock at hr
  unfold findMinSuperblock
  have c1 : (W start = W stop) ↔ start = stop := W_inj _ _ (by omega) (by omega)
  by_cases hc : start = stop
  · rw [if_pos hc] at hr
    rw [if_pos (c1.2 hc)]
    simp only [pure, Option.some.injEq] at hr
    rw [← hr]; exact ⟨rfl, hs⟩
  · rw [if_neg hc] at hr
    rw [if_neg (fun c => hc (c1.1 c))]
    simp only [Option.bind_eq_bind, Option.bind_eq_some_iff] at hr
    obtain ⟨m, k1, d, k2, hr⟩ := hr
    obtain ⟨d1, d2⟩ := subU_of k2
    have hnode := rd_lt k1
    have e1 : (enc v).internalNodes + W start = W (v.internalNodes + start) := (W_add _ _).symm
    have e2 : (W stop - W start = 1) ↔ d = 1 := by
      rw [← W_sub _ _ d1, ← d2]
      exact W_inj d 1 (by omega) (by omega)
    simp only [e1]
    rw [show (enc v).superMin = v.superMin from rfl, at_W (by omega) k1, bind_pure_some]
    by_cases hd : d = 1
    · rw [if_pos hd] at hr
      rw [if_pos (e2.2 hd)]
      simp only [pure, Option.some.injEq] at hr
      rw [← hr]; exact ⟨rfl, h1⟩
    · rw [if_neg hd] at hr
      rw [if_neg (fun c => hd (e2.1 c))]
      simp only [Option.bind_eq_some_iff] at hr
      obtain ⟨u, k3, _, k4, w, k5, b, k6, _, k7, hr⟩ := hr
      obtain ⟨u1, u2, u3, u4, u5⟩ := walkUp_sim (N := v.internalNodes + start) (by omega) (by omega) (by omega) _ _ _
        (by simp) (by simp) (by simp) k3
      have hu := assert_of k4
      obtain ⟨w1, w2, w3, w4⟩ := walkDown_sim hsup (by omega) (by omega) _ _ _ _ _ u4 (by omega) (by omega) (by omega) k5
      have hw := assert_of k7
      have g1 : (W w.span < W stop) ↔ w.span < stop := W_lt _ _ (by omega) (by omega)
      have g2 : W w.span = W stop - 1 := by wn
      have hb := betterNode_le (by omega) w4 k6
      rw [W_toNat _ (by omega)]
      rw [show (⟨W (v.internalNodes + start), W start, 0, (m, W (v.internalNodes + start))⟩ : Walk) =
        encW ⟨v.internalNodes + start, start, 0, (m, v.internalNodes + start)⟩ from rfl, u1, bind_pure_some,
        assert_yes (show (encW u).node ≠ 0 by show W u.node ≠ 0; wn), bind_pure_some,
        show (encW u).h.toNat = u.h from W_toNat _ (by omega),
        show encW u = ⟨W u.node, W u.span, W u.h, encP u.best⟩ from rfl, w1, bind_pure_some]
      rw [show (encW w).span = W w.span from rfl, show (encW w).node = W w.node from rfl, show (encW w).best = encP w.best from rfl]
      simp only [g1]
      rw [betterNode_sim (by omega) k6, bind_pure_some, assert_yes g2, bind_pure_some]
      by_cases hlt : b.1 < s.1
      · rw [if_pos hlt] at hr
        rw [if_pos (show (encP b).1 < (encP s).1 from hlt)]
        simp only [Option.bind_eq_some_iff] at hr
        obtain ⟨leaf, k8, x, k9, _, k10, i, k11, _, k12, _, k13, hr⟩ := hr
        obtain ⟨m1, m2⟩ := minLeaf_sim hint _ _ _ hb k8
        obtain ⟨i1, i2⟩ := subU_of k11
        have j1 := assert_of k12
        have j2 := assert_of k13
        have g3 : W leaf - W v.internalNodes = W i := by rw [i2, W_sub _ _ i1]
        rw [show (enc v).internalNodes = W v.internalNodes from rfl, W_toNat _ (by omega), show (encP b).2 = W b.2 from rfl, m1, bind_pure_some,
          at_W (by omega) k9, bind_pure_some, show (encP b).1 = b.1 from rfl, k10, bind_pure_some, g3,
          assert_yes (show W i ≥ W start by wn), bind_pure_some, assert_yes (show W i < W stop by wn), bind_pure_some]
        simp only [pure, Option.some.injEq] at hr ⊢
        rw [← hr]; exact ⟨rfl, by show i < 2^57; omega⟩
      · rw [if_neg hlt] at hr
        rw [if_neg (show ¬ (encP b).1 < (encP s).1 from hlt)]
        simp only [pure, Option.some.injEq] at hr ⊢
        rw [← hr]; exact ⟨rfl, hs⟩

theorem rmqSuper_sim (h : Small v l) {t s r : Int × Nat} {m : Int} (ht : t.2 < 2^57) (hr : v.rmqSuper t m s = some r) :
    (enc v).rmqSuper (encP t) m (encP s) = some (encP r) := by
  unfold Succinct.BpVector.rmqSuper at hr
  unfold rmqSuper
  by_cases hc : t.1 < m
  · rw [if_pos hc] at hr
    rw [if_pos (show (encP t).1 < m from hc)]
    have e1 : W t.2 * 32 = W (t.2 * 32) := (W_mul _ _).symm
    have e2 : (W t.2 + 1) * 32 = W ((t.2 + 1) * 32) := by rw [W_mul, W_add]; rfl
    rw [show (encP t).2 = W t.2 from rfl, e1, e2]
    exact rmqInSuperblock_sim h (by omega) hr
  · rw [if_neg hc] at hr
    rw [if_neg (show ¬ (encP t).1 < m from hc), Option.some.inj hr]

theorem rmqMiddle_sim (h : Small v l) {ba bb : Nat} (ha : ba ≤ 2^56) (hb : bb ≤ 2^56) {m : Int} {r : Int × Nat}
    (hr : v.rmqMiddle ba bb m = some r) : (enc v).rmqMiddle (W ba) (W bb) m = some (encP r) := by
  unfold Succinct.BpVector.rmqMiddle at hr
  unfold rmqMiddle
  have e1 : W ba + 1 = W (ba + 1) := (W_add _ _).symm
  have e2 : W (ba + 1) / 32 = W ((ba + 1) / 32) := by wn
  have e3 : W bb / 32 = W (bb / 32) := by wn
  have e4 : (W ((ba + 1) / 32) = W (bb / 32)) ↔ (ba + 1) / 32 = bb / 32 := W_inj _ _ (by omega) (by omega)
  have e5 : (W ((ba + 1) / 32) + 1) * 32 = W (((ba + 1) / 32 + 1) * 32) := by rw [W_mul, W_add ((ba + 1) / 32)]; rfl
  have e6 : W (bb / 32) * 32 = W (bb / 32 * 32) := (W_mul _ _).symm
  have e7 : W ((ba + 1) / 32) + 1 = W ((ba + 1) / 32 + 1) := (W_add _ _).symm
  have e0 : ((m, 4294967295) : Int × Word) = encP (m, 4294967295) := rfl
  simp only [e1, e2, e3, e4, e0]
  by_cases hc : (ba + 1) / 32 = bb / 32
  · rw [if_pos hc]
    simp only [if_pos hc] at hr
    exact rmqInSuperblock_sim h (by omega) hr
  · rw [if_neg hc]
    simp only [if_neg hc, Option.bind_eq_bind, Option.bind_eq_some_iff] at hr
    obtain ⟨s, h1, t, h2, s', h3, hr⟩ := hr
    obtain ⟨t1, t2⟩ := findMinSuperblock_sim h (by omega) (by omega) (by simp) h2
    rw [e5, rmqInSuperblock_sim h (by omega) h1, bind_pure_some, e7, t1, bind_pure_some, rmqSuper_sim h t2 h3, bind_pure_some, e6]
    exact rmqInSuperblock_sim h (by omega) hr

theorem rmqBest_sim (h : Small v l) {b : Int × Nat} {s r : Succinct.Bp.Rmq} (hr : v.rmqBest b s = some r) :
    (enc v).rmqBest (encP b) (encRmq s) = some (encRmq r) := by
  have hbits := bits_len h.rs h.len
  unfold Succinct.BpVector.rmqBest at hr
  unfold rmqBest
  by_cases hc : b.1 < s.min
  · rw [if_pos hc] at hr
    rw [if_pos (show (encP b).1 < (encRmq s).min from hc)]
    simp only [Option.bind_eq_bind, Option.bind_eq_some_iff] at hr
    obtain ⟨e, h1, s', h2, _, h3, hr⟩ := hr
    obtain ⟨k1, k2⟩ := blockExcess_sim h.rs h.len h1
    have e1 : W b.2 * 4 = W (b.2 * 4) := (W_mul _ _).symm
    have e2 : (W b.2 + 1) * 4 = W ((b.2 + 1) * 4) := by rw [W_mul, W_add]; rfl
    rw [show (encP b).2 = W b.2 from rfl, show blockExcess (enc v).rs (W b.2) = some e from k1, bind_pure_some, e1, e2,
      show (⟨e, (encRmq s).min, (encRmq s).idx⟩ : Rmq) = encRmq ⟨e, s.min, s.idx⟩ from rfl,
      show (enc v).rs.bv.bits = v.rs.bv.bits from rfl, rmqInBlock_sim hbits (by omega) h2, bind_pure_some,
      assert_yes (show (encRmq s').min = (encP b).1 from assert_of h3), bind_pure_some]
    simp only [pure, Option.some.injEq] at hr ⊢
    rw [hr]
  · rw [if_neg hc] at hr
    rw [if_neg (show ¬ (encP b).1 < (encRmq s).min from hc), Option.some.inj hr]

theorem rmqInner_sim (h : Small v l) {wa wb : Nat} (ha : wa ≤ 2^57) (hb : wb ≤ 2^57) {s r : Succinct.Bp.Rmq}
    (hr : v.rmqInner wa wb s = some r) : (enc v).rmqInner (W wa) (W wb) (encRmq s) = some (encRmq r) := by
  have hbits := bits_len h.rs h.len
  unfold Succinct.BpVector.rmqInner at hr
  unfold rmqInner
  have e1 : W wa + 1 = W (wa + 1) := (W_add _ _).symm
  have e2 : W wa / 4 = W (wa / 4) := by wn
  have e3 : W wb / 4 = W (wb / 4) := by wn
  have e4 : (W (wa / 4) = W (wb / 4)) ↔ wa / 4 = wb / 4 := W_inj _ _ (by omega) (by omega)
  have e5 : (W (wa / 4) + 1) * 4 = W ((wa / 4 + 1) * 4) := by rw [W_mul, W_add (wa / 4)]; rfl
  have e6 : W (wb / 4) * 4 = W (wb / 4 * 4) := (W_mul _ _).symm
  simp only [e1, e2, e3, e4]
  rw [show (enc v).rs.bv.bits = v.rs.bv.bits from rfl]
  by_cases hc : wa / 4 = wb / 4
  · rw [if_pos hc]
    simp only [if_pos hc] at hr
    exact rmqInBlock_sim hbits (by omega) hr
  · rw [if_neg hc]
    simp only [if_neg hc, Option.bind_eq_bind, Option.bind_eq_some_iff] at hr
    obtain ⟨s1, h1, b, h2, s2, h3, e, h4, hr⟩ := hr
    rw [e5, rmqInBlock_sim hbits (by omega) h1, bind_pure_some, show (encRmq s1).min = s1.min from rfl, rmqMiddle_sim h (by omega) (by omega) h2,
      bind_pure_some, rmqBest_sim h h3, bind_pure_some, show blockExcess (enc v).rs _ = some e from (blockExcess_sim h.rs h.len h4).1, bind_pure_some,
      e6, show (⟨e, (encRmq s2).min, (encRmq s2).idx⟩ : Rmq) = encRmq ⟨e, s2.min, s2.idx⟩ from rfl]
    exact rmqInBlock_sim hbits (by omega) hr

theorem padA_eq (w : Word) (n : Nat) (h : n ≤ 64) : padA w (W n) = some (Succinct.BpVector.padOpen w n) := by
  unfold padA Succinct.BpVector.padOpen
  have : (W n = 64) ↔ n = 64 := W_inj n 64 (by omega) (by omega)
  by_cases hc : n = 64
  · rw [if_pos hc, if_pos (this.2 hc)]
  · rw [if_neg hc, if_neg (fun c => hc (this.1 c)), W_toNat _ (by omega), shl_eq _ _ (by omega)]; rfl

theorem padB_eq (w : Word) (n : Nat) (h : n < 64) : padB w (W n) = some (Succinct.BpVector.padOpen w (if n = 0 then 64 else n)) := by
  unfold padB
  have : (W n = 0) ↔ n = 0 := W_inj n 0 (by omega) (by omega)
  by_cases hc : n = 0
  · rw [if_pos hc, if_pos (this.2 hc)]; rfl
  · rw [if_neg hc, if_neg (fun c => hc (this.1 c)), W_toNat _ (by omega), shl_eq _ _ (by omega)]
    unfold Succinct.BpVector.padOpen
    rw [if_neg (by omega)]; rfl

theorem excess_le {p : Nat} {x : Int} (h : Small v l) (hr : v.excess p = some x) : p ≤ l.length := by
  unfold Succinct.BpVector.excess Succinct.RSBitVector.rank at hr
  simp only [Option.bind_eq_bind, Option.bind_eq_some_iff] at hr
  obtain ⟨_, ⟨_, h1, _⟩, _⟩ := hr
  rw [← h.rs.rep.size]
  exact assert_of h1

/-- a position and a minimum in memory -/
def encQ (s : Nat × Int) : Word × Int := (W s.1, s.2)

theorem excessRmq_sim (h : Small v l) {a b : Nat} (hb : b ≤ l.length) {r : Nat × Int} (hr : v.excessRmq a b = some r) :
    (enc v).excessRmq (W a) (W b) = some (encQ r) := by
  have hbits := bits_len h.rs h.len
  have hlen := h.len
  unfold Succinct.BpVector.excessRmq at hr
  unfold excessRmq
  simp only [Option.bind_eq_bind, Option.bind_eq_some_iff] at hr
  obtain ⟨_, h1, cur, h2, hr⟩ := hr
  have hab := assert_of h1
  rw [assert_yes (show W a ≤ W b by wn), bind_pure_some, excess_sim h h2, bind_pure_some]
  have c1 : (W a = W b) ↔ a = b := W_inj _ _ (by omega) (by omega)
  by_cases hc : a = b
  · rw [if_pos hc] at hr
    rw [if_pos (c1.2 hc)]
    simp only [pure, Option.some.injEq] at hr ⊢
    rw [← hr]; rfl
  · rw [if_neg hc] at hr
    rw [if_neg (fun c => hc (c1.1 c))]
    simp only [Option.bind_eq_some_iff] at hr
    obtain ⟨w, h3, s, h4, hr⟩ := hr
    have e1 : W a / 64 = W (a / 64) := by wn
    have e2 : (W b - 1) / 64 = W ((b - 1) / 64) := by wn
    have e3 : W a % 64 = W (a % 64) := by wn
    have e4 : W b - W a = W (b - a) := (W_sub _ _ hab).symm
    have e5 : 64 - W (a % 64) = W (64 - a % 64) := (W_sub 64 (a % 64) (by omega)).symm
    have e6 : (W (a / 64) = W ((b - 1) / 64)) ↔ a / 64 = (b - 1) / 64 := W_inj _ _ (by omega) (by omega)
    have e7 : (W (a % 64)).toNat = a % 64 := W_toNat _ (by omega)
    simp only [e1, e2, e3, e4, e5, e6, e7]
    rw [show (enc v).rs.bv.bits = v.rs.bv.bits from rfl, at_W (by omega) h3, bind_pure_some, minW_eq _ _ (by omega) (by omega),
      padA_eq _ _ (by omega), bind_pure_some, show (⟨cur, cur, W a⟩ : Rmq) = encRmq ⟨cur, cur, a⟩ from rfl, rmqInWord_sim h4, bind_pure_some]
    by_cases hd : a / 64 = (b - 1) / 64
    · rw [if_pos hd] at hr
      rw [if_pos hd]
      simp only [pure, Option.some.injEq] at hr ⊢
      rw [← hr]; rfl
    · rw [if_neg hd] at hr
      rw [if_neg hd]
      simp only [Option.bind_eq_some_iff] at hr
      obtain ⟨e, h5, s2, h6, w2, h7, s3, h8, _, h9, chk, h10, _, h11, hr⟩ := hr
      have g1 : s32 (W (min (64 - a % 64) (b - a))) = ((min (64 - a % 64) (b - a) : Nat) : Int) := by
        rw [s32_W, toI32_eq _ (by omega) (by omega)]
      have g2 : W b % 64 = W (b % 64) := by wn
      have g3 : W ((b - 1) / 64) * 64 = W ((b - 1) / 64 * 64) := (W_mul _ _).symm
      have hidx := excess_le h h10
      have hge := assert_of h9
      rw [g1, show (encRmq s).exc = s.exc from rfl, h5, bind_pure_some,
        show (⟨e, (encRmq s).min, (encRmq s).idx⟩ : Rmq) = encRmq ⟨e, s.min, s.idx⟩ from rfl, rmqInner_sim h (by omega) (by omega) h6, bind_pure_some,
        at_W (by omega) h7, bind_pure_some, g2, padB_eq _ _ (by omega), bind_pure_some, g3, rmqInWord_sim h8, bind_pure_some,
        assert_yes (show (encRmq s3).idx ≥ W a by show W s3.idx ≥ W a; wn), bind_pure_some,
        show (enc v).excess (encRmq s3).idx = some chk from excess_sim h h10, bind_pure_some,
        assert_yes (show (encRmq s3).min = chk from assert_of h11), bind_pure_some]
      simp only [pure, Option.some.injEq] at hr ⊢
      rw [← hr]; rfl

end BpVector
end Machine
end Succinct
