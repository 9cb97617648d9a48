import Verif.Lemmas.BpRmq

/-! `find_min_superblock` and `excess_rmq`. -/
namespace Succinct
open Broadword Bp
open RSBitVector (bind_pure_some)

namespace BpVector
variable {v : BpVector} {l : List Bool}

theorem walkUp_spec {H n : Nat} (ht : MinTree v H n)
    (start stop : Nat) (hs : stop ≤ n) :
    ∀ (fuel : Nat) (s : Walk), s.node < fuel → Full H n s.h s.node → (s.node+1)*2^s.h = 2^H + s.span + 1 → start ≤ s.span →
      s.span + 1 < stop → Cand v H n start (s.span+1) s.best →
      ∃ u, walkUp v.superMin stop fuel s = some u ∧ u.h ≤ H ∧ 2^H + start ≤ u.node*2^u.h ∧ (u.node+1)*2^u.h = 2^H + u.span + 1 ∧
        stop ≤ u.span + 1 ∧ u.node*2^u.h < 2^H + stop ∧ ∃ hi, Cand v H n start hi u.best ∧ u.node*2^u.h ≤ 2^H + hi ∧ hi ≤ stop := by
  intro fuel
  induction fuel with
  | zero => intro s h; omega
  | succ fuel ih =>
    rintro ⟨node, span, h, best⟩ hfu hF hend hstart hspan hC
    simp only [] at hfu hF hend hstart hspan hC
    have hlen := ht.lt
    have hlo := hF.lo
    have hhH := hF.le
    have hnle := ht.le
    have h0 := Nat.two_pow_pos h
    have hsplit : (node+1)*2^h = node*2^h + 2^h := Nat.succ_mul _ _
    have hlt : h < H := by
      rcases Nat.lt_or_ge h H with hh | hh
      · exact hh
      · exfalso
        have : h = H := by omega
        subst this
        omega
    obtain ⟨dd1, dd2⟩ := hF.depth hnle
    have hD : 2^(H-h) = 2*2^(H-(h+1)) := by rw [show H-h = H-(h+1)+1 by omega, Nat.pow_succ]; omega
    have hHD : 2^H = 2^(H-(h+1))*2^(h+1) := by rw [← Nat.pow_add]; congr 1; omega
    have hplo : 2^H ≤ (node/2)*2^(h+1) := by rw [hHD]; exact Nat.mul_le_mul_right _ (by omega)
    have hn1 : node ≠ 0 := by have := Nat.two_pow_pos (H-h); omega
    have ph : 2^(h+1) = 2*2^h := by rw [Nat.pow_succ]; omega
    unfold walkUp
    simp only []
    rw [assertP_eq _ hn1, bind_pure_some]
    by_cases hev : node % 2 = 0
    · have hh64 : h < 64 := by
        by_contra hh
        have : 2^64 ≤ 2^h := Nat.pow_le_pow_right (by omega) (by omega)
        omega
      rw [if_pos hev, assertP_eq _ hh64, bind_pure_some]
      have hpe : (node/2+1)*2^(h+1) = (node+1)*2^h + 2^h := by
        rw [ph, ← Nat.mul_assoc, ← Nat.succ_mul]; congr 1; omega
      have hse : (node+1+1)*2^h = (node+1)*2^h + 2^h := Nat.succ_mul _ _
      by_cases hlt2 : span + 2^h < stop
      · have hF' : Full H n h (node+1) := ⟨hhH, by omega, by omega⟩
        obtain ⟨p', e1, e2⟩ := Cand.add (hi' := span+2^h+1) ht hC hF' (by omega) (by omega) (by omega) (by omega)
        rw [show decide (span+2^h < stop) = true by simpa using hlt2, e1, bind_pure_some]
        by_cases hex : span + 2^h ≥ stop - 1
        · rw [if_pos hex]
          exact ⟨_, rfl, hhH, by simp only []; omega, by simp only []; omega, by simp only []; omega, by simp only []; omega,
            span+2^h+1, e2, by simp only []; omega, by omega⟩
        · rw [if_neg hex]
          exact ih ⟨node/2, span+2^h, h+1, p'⟩ (by simp only []; omega) ⟨hlt, hplo, by simp only []; omega⟩ (by simp only []; omega) (by simp only []; omega)
            (by simp only []; omega) e2
      · rw [show decide (span+2^h < stop) = false by simpa using hlt2, show betterNode v.superMin false (node+1) best = some best from rfl, bind_pure_some,
          if_pos (by omega)]
        exact ⟨_, rfl, hhH, by simp only []; omega, by simp only []; omega, by simp only []; omega, by simp only []; omega,
            span+1, hC, by simp only []; omega, by omega⟩
    · rw [if_neg hev]
      have hpe : (node/2+1)*2^(h+1) = (node+1)*2^h := by
        rw [ph, ← Nat.mul_assoc]; congr 1; omega
      exact ih ⟨node/2, span, h+1, best⟩ (by simp only []; omega) ⟨hlt, hplo, by simp only []; omega⟩ (by simp only []; omega) hstart hspan hC

theorem walkDown_spec {H n : Nat} (ht : MinTree v H n)
    (start stop : Nat) (hs : stop ≤ n) :
    ∀ (h node span : Nat) (best : Int × Nat), h ≤ H → 2^H + start ≤ node*2^h → (node+1)*2^h = 2^H + span + 1 → stop ≤ span + 1 →
      node*2^h < 2^H + stop → (∃ hi, Cand v H n start hi best ∧ node*2^h ≤ 2^H + hi ∧ hi ≤ stop) →
      ∃ u, walkDown v.superMin stop h node span best = some u ∧ Full H n u.h u.node ∧ 2^H + start ≤ u.node*2^u.h ∧ (u.node+1)*2^u.h = 2^H + stop ∧
        u.span = stop - 1 ∧ ∃ hi, Cand v H n start hi u.best ∧ u.node*2^u.h ≤ 2^H + hi ∧ hi ≤ stop := by
  intro h
  induction h with
  | zero =>
    intro node span best hH h1 h2 h3 h4 hc
    have : span + 1 = stop := by rw [Nat.pow_zero] at h2 h4; omega
    unfold walkDown
    rw [if_neg (by omega)]
    exact ⟨_, rfl, ⟨hH, by simp only []; omega, by simp only []; omega⟩, h1, by simp only []; omega, by simp only []; omega, hc⟩
  | succ h ih =>
    intro node span best hH h1 h2 h3 h4 hc
    unfold walkDown
    by_cases hsp : span > stop - 1
    · rw [if_pos hsp]
      simp only []
      have h0 := Nat.two_pow_pos h
      have ph : 2^(h+1) = 2*2^h := by rw [Nat.pow_succ]; omega
      have hle : node*1 ≤ node*2^(h+1) := Nat.mul_le_mul_left _ (Nat.two_pow_pos _)
      rw [assertP_eq _ (by rw [ht.lenEq]; omega), bind_pure_some]
      have c0 : (node*2)*2^h = node*2^(h+1) := by rw [ph, ← Nat.mul_assoc]
      have c1 : (node*2+1)*2^h = node*2^(h+1) + 2^h := by rw [Nat.succ_mul, c0]
      have c2 : (node*2+1+1)*2^h = node*2^(h+1) + 2^h + 2^h := by rw [Nat.succ_mul, c1]
      have c3 : (node+1)*2^(h+1) = node*2^(h+1) + 2^h + 2^h := by rw [Nat.succ_mul]; omega
      rw [subU_eq _ _ (by omega), bind_pure_some]
      by_cases hd : span - 2^h ≥ stop - 1
      · rw [if_pos hd]
        exact ih (node*2) (span-2^h) best (by omega) (by omega) (by omega) (by omega) (by omega) (by rw [c0]; exact hc)
      · rw [if_neg hd]
        obtain ⟨hi, hC, b1, b2⟩ := hc
        have hF : Full H n h (node*2) := ⟨by omega, by omega, by omega⟩
        rcases Nat.lt_or_ge hi (span-2^h+1) with hh | hh
        · obtain ⟨p', e1, e2⟩ := Cand.add (hi' := span-2^h+1) ht hC hF (by omega) (by omega) (by omega) (by omega)
          rw [e1, bind_pure_some]
          exact ih (node*2+1) span p' (by omega) (by omega) (by omega) (by omega) (by omega) ⟨_, e2, by omega, by omega⟩
        · have hmin := ht.node hF
          obtain ⟨m1, m2, t, t1, t2, t3⟩ := hmin
          obtain ⟨hp, g1, g2, g3, g4, g5, g6⟩ := hC
          have hno : ¬ V v.superMin (node*2) < best.1 := by
            have := g5 t (by omega) (by omega); omega
          rw [show betterNode v.superMin true (node*2) best = some best by
            unfold betterNode; rw [if_pos rfl, m1, bind_pure_some, if_neg hno]; rfl, bind_pure_some]
          exact ih (node*2+1) span best (by omega) (by omega) (by omega) (by omega) (by omega) ⟨hi, ⟨hp, g1, g2, g3, g4, g5, g6⟩, by omega, by omega⟩
    · rw [if_neg hsp]
      exact ⟨_, rfl, ⟨hH, by simp only []; omega, by simp only []; omega⟩, h1, by simp only []; omega, by simp only []; omega, hc⟩

theorem minLeaf_spec {H n : Nat} (ht : MinTree v H n) :
    ∀ (h fuel k : Nat), h ≤ fuel → Full H n h k →
      ∃ t, minLeaf v.superMin (2^H) fuel k = some (2^H + t) ∧ k*2^h ≤ 2^H + t ∧ 2^H + t < (k+1)*2^h ∧ LV v H t = V v.superMin k ∧
        ∀ q, k*2^h ≤ 2^H + q → q < t → V v.superMin k < LV v H q := by
  intro h
  induction h with
  | zero =>
    intro fuel k _ hF
    have hlo := hF.lo
    rw [Nat.pow_zero, Nat.mul_one] at hlo
    refine ⟨k - 2^H, ?_, by rw [Nat.pow_zero]; omega, by rw [Nat.pow_zero]; omega, ?_, fun q h1 h2 => by rw [Nat.pow_zero] at h1; omega⟩
    · unfold minLeaf; rw [if_neg (by omega)]; congr 1; omega
    · unfold LV; congr 1; omega
  | succ h ih =>
    intro fuel k hfu hF
    obtain ⟨fuel, rfl⟩ : ∃ f, fuel = f+1 := ⟨fuel-1, by omega⟩
    have hk := (hF.depth ht.le).2
    have hH := hF.le
    have hlo := hF.lo
    have hhi := hF.hi
    have hk2 : 2^(H-(h+1)+1) ≤ 2^H := Nat.pow_le_pow_right (by omega) (by omega)
    have ph : 2^(h+1) = 2*2^h := by rw [Nat.pow_succ]; omega
    have c0 : (k*2)*2^h = k*2^(h+1) := by rw [ph, ← Nat.mul_assoc]
    have c1 : (k*2+1)*2^h = k*2^(h+1) + 2^h := by rw [Nat.succ_mul, c0]
    have c2 : (k*2+1+1)*2^h = k*2^(h+1) + 2^h + 2^h := by rw [Nat.succ_mul, c1]
    have c3 : (k+1)*2^(h+1) = k*2^(h+1) + 2^h + 2^h := by rw [Nat.succ_mul]; omega
    have hF0 : Full H n h (k*2) := ⟨by omega, by omega, by omega⟩
    have hF1 : Full H n h (k*2+1) := ⟨by omega, by omega, by omega⟩
    obtain ⟨m1, m2, t, t1, t2, t3⟩ := ht.node hF0
    obtain ⟨m1', m2', t', t1', t2', t3'⟩ := ht.node hF1
    obtain ⟨m1'', m2'', t'', t1'', t2'', t3''⟩ := ht.node hF
    have hv0 : V v.superMin k ≤ V v.superMin (k*2) := by have := m2'' t (by omega) (by omega); omega
    have hv1 : V v.superMin k ≤ V v.superMin (k*2+1) := by have := m2'' t' (by omega) (by omega); omega
    have hor : V v.superMin k = V v.superMin (k*2) ∨ V v.superMin k = V v.superMin (k*2+1) := by
      rcases Nat.lt_or_ge (2^H + t'') ((k*2+1)*2^h) with hh | hh
      · left; have := m2 t'' (by omega) hh; omega
      · right; have := m2' t'' hh (by omega); omega
    unfold minLeaf
    rw [if_pos (by omega)]
    simp only []
    rw [m1', bind_pure_some, m1, bind_pure_some]
    by_cases hc : V v.superMin (k*2+1) < V v.superMin (k*2)
    · rw [if_pos hc]
      obtain ⟨r, e, r1, r2, r3, r4⟩ := ih fuel (k*2+1) (by omega) hF1
      refine ⟨r, e, by omega, by omega, by omega, fun q q1 q2 => ?_⟩
      rcases Nat.lt_or_ge (2^H + q) ((k*2+1)*2^h) with hh | hh
      · have := m2 q (by omega) hh; omega
      · have := r4 q hh q2; omega
    · rw [if_neg hc]
      obtain ⟨r, e, r1, r2, r3, r4⟩ := ih fuel (k*2) (by omega) hF0
      refine ⟨r, e, by omega, by omega, by omega, fun q q1 q2 => ?_⟩
      have := r4 q (by omega) q2; omega

theorem findMinSuperblock_spec {H n : Nat} (hN : v.internalNodes = 2^H) (ht : MinTree v H n) (a b : Nat) (s : Int × Nat) (hab : a ≤ b) (hb : b ≤ n) :
    ∃ t, findMinSuperblock v a b s = some t ∧
      (t.1 < s.1 → a ≤ t.2 ∧ t.2 < b ∧ LV v H t.2 = t.1 ∧ (∀ q, a ≤ q → q < b → t.1 ≤ LV v H q) ∧ ∀ q, a ≤ q → q < t.2 → t.1 < LV v H q) ∧
      (¬ t.1 < s.1 → ∀ q, a ≤ q → q < b → s.1 ≤ LV v H q) := by
  unfold findMinSuperblock
  by_cases h : a = b
  · rw [if_pos h]
    exact ⟨s, rfl, fun h => by omega, fun _ q h1 h2 => by omega⟩
  · rw [if_neg h]
    simp only []
    have hle := ht.le
    have hFa : Full H n 0 (2^H+a) := ⟨by omega, by rw [Nat.pow_zero]; omega, by rw [Nat.pow_zero]; omega⟩
    rw [hN, V_rd (by rw [ht.lenEq]; omega), bind_pure_some, subU_eq _ _ hab, bind_pure_some]
    by_cases h1 : b - a = 1
    · rw [if_pos h1]
      refine ⟨_, rfl, fun hlt => ⟨Nat.le_refl _, by simp only []; omega, rfl, fun q q1 q2 => ?_, fun q q1 q2 => ?_⟩, fun hlt q q1 q2 => ?_⟩
      · rw [show q = a by omega]; exact Int.le_refl _
      · simp only [] at q2; omega
      · rw [show q = a by omega]; simp only [] at hlt; unfold LV; omega
    · rw [if_neg h1]
      obtain ⟨u, eu, u1, u2, u3, u4, u5, u6⟩ := walkUp_spec ht a b hb (2^H+a+1) ⟨2^H+a, a, 0, (V v.superMin (2^H+a), 2^H+a)⟩
        (by simp only []; omega) hFa (by simp only [Nat.pow_zero]; omega) (Nat.le_refl _) (by simp only []; omega)
        ⟨0, hFa, rfl, by simp only [Nat.pow_zero]; omega, by simp only [Nat.pow_zero]; omega, fun q q1 q2 => by
          simp only [] at q2; rw [show q = a by omega]; exact Int.le_refl _, fun q q1 q2 => by simp only [Nat.pow_zero] at q2; omega⟩
      obtain ⟨w, ew, w1, w2, w3, w4, hi, w5, w6, w7⟩ := walkDown_spec ht a b hb u.h u.node u.span u.best u1 u2 u3 u4 u5 u6
      have hun : u.node ≠ 0 := by
        intro hh; rw [hh, Nat.zero_mul] at u2; have := Nat.two_pow_pos H; omega
      rw [eu, bind_pure_some, assertP_eq _ hun, bind_pure_some, ew, bind_pure_some, show decide (w.span < b) = true by simp; omega]
      obtain ⟨p, e1, e2⟩ := Cand.add (hi' := b) ht w5 w1 w2 w6 w3 w7
      obtain ⟨hp, g1, g2, g3, g4, g5, g6⟩ := e2
      rw [e1, bind_pure_some, assertP_eq _ w4, bind_pure_some]
      by_cases hlt : p.1 < s.1
      · rw [if_pos hlt]
        obtain ⟨t, et, t1, t2, t3, t4⟩ := minLeaf_spec ht hp (2^H) p.2 (by have := g1.le; have := @Nat.lt_two_pow_self H; omega) g1
        have hat : a ≤ t := by omega
        have htb : t < b := by omega
        rw [et, bind_pure_some, V_rd (by rw [ht.lenEq]; omega), bind_pure_some, assertP_eq _ (by unfold LV at t3; omega), bind_pure_some,
          subU_eq _ _ (by omega), bind_pure_some, Nat.add_sub_cancel_left, assertP_eq _ hat, bind_pure_some, assertP_eq _ htb, bind_pure_some]
        refine ⟨_, rfl, fun _ => ⟨hat, htb, by simp only []; omega, g5, fun q q1 q2 => ?_⟩, fun hh => absurd hlt hh⟩
        rcases Nat.lt_or_ge (2^H+q) (p.2*2^hp) with hh | hh
        · exact g6 q q1 hh
        · rw [← g2]; exact t4 q hh q2
      · rw [if_neg hlt]
        exact ⟨s, rfl, fun hh => by omega, fun _ q q1 q2 => by have := g5 q q1 q2; omega⟩

theorem rmqMiddle_spec (hi : Inv v l) (hg : Good l) (h0 : 0 < l.length) (ba bb : Nat) (m : Int) (hab : ba < bb) (hb : bb ≤ l.length/256) :
    ∃ b, rmqMiddle v ba bb m = some b ∧ Upd (BV v l) (ba+1) bb (m, 4294967295) b := by
  obtain ⟨H, hN, ht⟩ := hi.tree h0
  unfold rmqMiddle
  simp only []
  by_cases h : (ba+1)/32 = bb/32
  · rw [if_pos h]
    exact rmqInSuperblock_spec hi.toInv0 hg.toMild h0 _ _ _ (by omega) (by omega) (by omega)
  · rw [if_neg h]
    obtain ⟨s1, e1, u1⟩ := rmqInSuperblock_spec hi.toInv0 hg.toMild h0 (ba+1) (((ba+1)/32+1)*32) (m, 4294967295) (by omega) (by omega) (by omega)
    obtain ⟨t, e2, f1, f2⟩ := findMinSuperblock_spec hN (MinTree.of hg ht) ((ba+1)/32+1) (bb/32) (m, 4294967295) (by omega) (by omega)
    simp only [] at f1 f2
    rw [e1, bind_pure_some, e2, bind_pure_some]
    have hmid : ∃ s2, rmqSuper v t m s1 = some s2 ∧ Upd (BV v l) (((ba+1)/32+1)*32) (bb/32*32) s1 s2 := by
      unfold rmqSuper
      have hle := u1.le
      simp only [] at hle
      have hBL : ∀ b, ((ba+1)/32+1)*32 ≤ b → b < bb/32*32 → LV v H (b/32) ≤ BV v l b := fun b b1 b2 =>
        (LV_BV hi hg h0 ht (b/32) (by omega)).1 b (by omega) (by omega) (by omega)
      by_cases hlt : t.1 < m
      · rw [if_pos hlt]
        obtain ⟨g1, g2, g3, g4, g5⟩ := f1 hlt
        obtain ⟨s2, e3, u2⟩ := rmqInSuperblock_spec hi.toInv0 hg.toMild h0 (t.2*32) ((t.2+1)*32) s1 (by omega) (by omega) (by omega)
        refine ⟨s2, e3, ?_⟩
        obtain ⟨b0, b1, b2, b3, b4⟩ := (LV_BV hi hg h0 ht t.2 (by omega)).2
        rcases u2 with ⟨a1, a2⟩ | ⟨a1, a2, a3, a4, a5, a6⟩
        · left
          refine ⟨a1, fun q q1 q2 => ?_⟩
          have k1 := a2 b0 (by omega) (by omega)
          have k2 := g4 (q/32) (by omega) (by omega)
          have k3 := hBL q q1 q2
          omega
        · right
          have k1 := a5 b0 (by omega) (by omega)
          have k2 := hBL s2.2 (by omega) (by omega)
          rw [show s2.2/32 = t.2 by omega] at k2
          refine ⟨a1, by omega, by omega, a4, fun q q1 q2 => ?_, fun q q1 q2 => ?_⟩
          · have k3 := g4 (q/32) (by omega) (by omega)
            have k4 := hBL q q1 q2
            omega
          · rcases Nat.lt_or_ge q (t.2*32) with hh | hh
            · have k3 := g5 (q/32) (by omega) (by omega)
              have k4 := hBL q q1 (by omega)
              omega
            · exact a6 q hh q2
      · rw [if_neg hlt]
        refine ⟨s1, rfl, Or.inl ⟨rfl, fun q q1 q2 => ?_⟩⟩
        have k3 := f2 hlt (q/32) (by omega) (by omega)
        have k4 := hBL q q1 q2
        omega
    obtain ⟨s2, e3, u2⟩ := hmid
    obtain ⟨s3, e4, u3⟩ := rmqInSuperblock_spec hi.toInv0 hg.toMild h0 (bb/32*32) bb s2 (by omega) (by omega) (by omega)
    rw [e3, bind_pure_some]
    refine ⟨s3, e4, ?_⟩
    have := (u1.trans u2 (by omega) (by omega)).trans u3 (by omega) (by omega)
    rw [show max (max (((ba+1)/32+1)*32) (bb/32*32)) bb = bb by omega] at this
    exact this

theorem rmqBest_spec (hi : Inv v l) (hg : Good l) (h0 : 0 < l.length) (lo hi' : Nat) (hh : hi' ≤ l.length/256) (b : Int × Nat) (s : Rmq) (x : Nat)
    (hlo : lo ≤ hi') (hu : Upd (BV v l) lo hi' (s.min, x) b) :
    ∃ s', rmqBest v b s = some s' ∧ Upd (exc l) (256*lo) (256*hi' + min (hi'-lo) 1) (s.min, s.idx) (s'.min, s'.idx) := by
  have hBE : ∀ q, 256*lo ≤ q → q < 256*hi' + min (hi'-lo) 1 → ∀ c, q/256 = c ∨ (q-1)/256 = c → 256*c ≤ q → q ≤ 256*(c+1) →
      lo ≤ c → c < hi' → BV v l c ≤ exc l q := by
    intro q _ _ c _ h1 h2 h3 h4
    exact ((BV_spec hi.toInv0 hg.toMild h0 c (by omega)).2.2.1 _).2 ⟨q, h1, h2, by omega, Int.le_refl _⟩
  have hBE' : ∀ q, 256*lo ≤ q → q < 256*hi' + min (hi'-lo) 1 → ∃ c, lo ≤ c ∧ c < hi' ∧ 256*c ≤ q ∧ q ≤ 256*(c+1) ∧ BV v l c ≤ exc l q := by
    intro q h1 h2
    by_cases hq : q/256 < hi'
    · exact ⟨q/256, by omega, hq, by omega, by omega, hBE q h1 h2 _ (Or.inl rfl) (by omega) (by omega) (by omega) hq⟩
    · exact ⟨(q-1)/256, by omega, by omega, by omega, by omega, hBE q h1 h2 _ (Or.inr rfl) (by omega) (by omega) (by omega) (by omega)⟩
  unfold rmqBest
  by_cases hlt : b.1 < s.min
  · rw [if_pos hlt]
    rcases hu with ⟨a1, _⟩ | ⟨a1, a2, a3, a4, a5, a6⟩
    · subst a1; simp only [] at hlt; omega
    · obtain ⟨s', e, _, hs'⟩ := rmqInBlock_spec hi.toInv0 hg.toMild (b.2*4) ((b.2+1)*4) ⟨exc l (256*b.2), s.min, s.idx⟩ (by omega) (by omega) (by omega) (by
        simp only []; congr 1; omega)
      simp only [] at hs'
      obtain ⟨_, _, B3, _⟩ := BV_spec hi.toInv0 hg.toMild h0 b.2 (by omega)
      obtain ⟨p, p1, p2, p3, p4⟩ := (B3 _).1 (Int.le_refl _)
      have hp := hs'.lower p (by omega) (by omega)
      simp only [] at hp
      have hne : s'.min = b.1 := by
        rcases hs' with ⟨c1, _⟩ | ⟨c1, c2, c3, c4, c5, c6⟩
        · rw [Prod.mk.injEq] at c1; omega
        · simp only [] at c1 c2 c3 c4
          have := (B3 (exc l s'.idx)).2 ⟨s'.idx, by omega, by omega, by omega, Int.le_refl _⟩
          omega
      rw [blockExcess_eq hi.rs hg.nonneg hg.small _ (by omega), bind_pure_some, e, bind_pure_some, assertP_eq _ hne, bind_pure_some]
      refine ⟨s', rfl, ?_⟩
      rcases hs' with ⟨c1, _⟩ | ⟨c1, c2, c3, c4, c5, c6⟩
      · rw [Prod.mk.injEq] at c1; omega
      · simp only [] at c1 c2 c3 c4 c5 c6
        right
        refine ⟨by simp only []; omega, by simp only []; omega, by simp only []; omega, c4, fun q q1 q2 => ?_, fun q q1 q2 => ?_⟩
        · obtain ⟨c, d1, d2, d3, d4, d5⟩ := hBE' q q1 q2
          have := a5 c d1 d2
          simp only []; omega
        · simp only [] at q2 ⊢
          rcases Nat.lt_or_ge q (256*b.2) with hq | hq
          · have k1 := hBE q q1 (by omega) (q/256) (Or.inl rfl) (by omega) (by omega) (by omega) (by omega)
            have k2 := a6 (q/256) (by omega) (by omega)
            omega
          · exact c6 q (by omega) q2
  · rw [if_neg hlt]
    refine ⟨s, rfl, Or.inl ⟨rfl, fun q q1 q2 => ?_⟩⟩
    obtain ⟨c, d1, d2, d3, d4, d5⟩ := hBE' q q1 q2
    have := hu.lower c d1 d2
    simp only []; omega

theorem rmqInner_spec (hi : Inv v l) (hg : Good l) (wa wb : Nat) (s : Rmq) (hab : wa < wb) (hb : 64*wb ≤ l.length) (hs : s.exc = exc l (64*(wa+1))) :
    ∃ s', rmqInner v wa wb s = some s' ∧ s'.exc = exc l (64*wb) ∧
      Upd (exc l) (64*(wa+1)) (64*wb + min (wb-(wa+1)) 1) (s.min, s.idx) (s'.min, s'.idx) := by
  unfold rmqInner
  simp only []
  by_cases h : wa/4 = wb/4
  · rw [if_pos h]
    exact rmqInBlock_spec hi.toInv0 hg.toMild (wa+1) wb s (by omega) hb (by omega) hs
  · rw [if_neg h]
    obtain ⟨s1, e1, _, u1⟩ := rmqInBlock_spec hi.toInv0 hg.toMild (wa+1) ((wa/4+1)*4) s (by omega) (by omega) (by omega) hs
    obtain ⟨b, e2, u2⟩ := rmqMiddle_spec hi hg (by omega) (wa/4) (wb/4) s1.min (by omega) (by omega)
    obtain ⟨s2, e3, u3⟩ := rmqBest_spec hi hg (by omega) (wa/4+1) (wb/4) (by omega) b s1 _ (by omega) u2
    obtain ⟨s3, e4, x4, u4⟩ := rmqInBlock_spec hi.toInv0 hg.toMild (wb/4*4) wb ⟨exc l (256*(wb/4)), s2.min, s2.idx⟩ (by omega) hb (by omega) (by
      simp only []; congr 1; omega)
    rw [e1, bind_pure_some, e2, bind_pure_some, e3, bind_pure_some, blockExcess_eq hi.rs hg.nonneg hg.small _ (by omega), bind_pure_some]
    refine ⟨s3, e4, x4, ?_⟩
    have := (u1.trans u3 (by omega) (by omega)).trans u4 (by omega) (by omega)
    rw [show max (max (64*((wa/4+1)*4) + min ((wa/4+1)*4-(wa+1)) 1) (256*(wb/4) + min (wb/4-(wa/4+1)) 1)) (64*wb + min (wb - wb/4*4) 1) =
      64*wb + min (wb-(wa+1)) 1 by omega] at this
    exact this

theorem padOpen_bit (w : Word) (n : Nat) (hn : n ≤ 64) (i : Nat) (hi : i < 64) :
    (padOpen w n).getLsbD i = if i < n then w.getLsbD i else true := by
  unfold padOpen
  by_cases h : n = 64
  · rw [if_pos h, if_pos (by omega)]
  · rw [if_neg h, BitVec.getLsbD_or, BitVec.getLsbD_shiftLeft, BitVec.getLsbD_allOnes]
    by_cases h2 : i < n
    · simp [h2]
    · simp [h2, hi, show i - n < 64 by omega]

theorem rmqPadded_spec (l : List Bool) (w : Word) (start n : Nat) (hn : n ≤ 64) (s : Rmq) (hs : s.exc = exc l start)
    (h1 : -1000 ≤ s.exc) (h2 : s.exc ≤ 2147483583) (hw : ∀ i, i < n → w.getLsbD i = bitFn l (start+i)) :
    ∃ s', rmqInWord (padOpen w n) start s = some s' ∧ s'.exc = exc l (start+n) + (64 - n) ∧
      Upd (exc l) start (start+n+1) (s.min, s.idx) (s'.min, s'.idx) := by
  obtain ⟨s', e1, e2, e3⟩ := rmqInWord_spec (padOpen w n) start s h1 h2
  have hin : ∀ i, i ≤ n → s.exc + excF (padOpen w n).getLsbD i = exc l (start+i) := by
    intro i hi
    rw [hs, excF_congr (g := fun t => bitFn l (start+t)) (fun t ht => by rw [padOpen_bit _ _ hn _ (by omega), if_pos (by omega), hw t (by omega)])]
    exact (excF_add (bitFn l) start i).symm
  have hout : ∀ i, n ≤ i → i ≤ 64 → excF (padOpen w n).getLsbD i = excF (padOpen w n).getLsbD n + (i - n) := by
    intro i h3 h4
    have := excF_true (f := (padOpen w n).getLsbD) h3 (fun t ht1 ht2 => by rw [padOpen_bit _ _ hn _ (by omega), if_neg (by omega)])
    omega
  refine ⟨s', e1, ?_, ?_⟩
  · rw [e2, hout 64 hn (by omega), ← hin n (by omega)]; push_cast; omega
  · refine (e3.cut (mid := start+n) (by omega) (by omega) (fun q q1 q2 => ?_)).congr (fun q q1 q2 => ?_)
    · have := hout (q-start) (by omega) (by omega)
      rw [Nat.add_sub_cancel_left]; omega
    · rw [hin _ (by omega)]; congr 1; omega

theorem excessRmq_spec (hi : Inv v l) (hg : Good l) (a b : Nat) (hab : a ≤ b) (hb : b ≤ l.length) :
    ∃ i m, excessRmq v a b = some (i, m) ∧ a ≤ i ∧ i ≤ b ∧ exc l i = m ∧ (∀ q, a ≤ q → q ≤ b → m ≤ exc l q) ∧ ∀ q, a ≤ q → q < i → m < exc l q := by
  unfold excessRmq
  rw [assertP_eq _ hab, bind_pure_some, excess_eq hi.toInv0 hg.toMild a (by omega), bind_pure_some]
  by_cases h : a = b
  · subst h
    rw [if_pos rfl]
    exact ⟨a, _, rfl, Nat.le_refl _, Nat.le_refl _, rfl, fun q h1 h2 => by rw [show q = a by omega], fun q h1 h2 => by omega⟩
  · rw [if_neg h]
    simp only []
    have hlen := hi.rs.rep.len
    have hbit := hi.rs.rep.repr.bit
    have n1 := hg.nonneg a (by omega)
    have n2 := hg.small a (by omega)
    have hrd : ∀ k, k < v.rs.bv.bits.length → ∃ w, rd v.rs.bv.bits k = some w ∧ ∀ i, i < 64 → w.getLsbD i = bitFn l (64*k+i) := by
      intro k hk
      refine ⟨_, rd_eq _ _ hk, fun i hi' => ?_⟩
      rw [← hbit, getElem_getLsbD _ _ _ hk hi']
    have hfin : ∀ i m, Upd (exc l) a (b+1) (exc l a, a) (m, i) →
        a ≤ i ∧ i ≤ b ∧ exc l i = m ∧ (∀ q, a ≤ q → q ≤ b → m ≤ exc l q) ∧ ∀ q, a ≤ q → q < i → m < exc l q := by
      rintro i m (⟨c1, c2⟩ | ⟨c1, c2, c3, c4, c5, c6⟩)
      · rw [Prod.mk.injEq] at c1
        obtain ⟨rfl, rfl⟩ := c1
        exact ⟨Nat.le_refl _, hab, rfl, fun q q1 q2 => c2 q q1 (by omega), fun q q1 q2 => by omega⟩
      · simp only [] at c1 c2 c3 c4 c5 c6
        exact ⟨c2, by omega, c4, fun q q1 q2 => c5 q q1 (by omega), c6⟩
    obtain ⟨w, ew, hw⟩ := hrd (a/64) (by omega)
    obtain ⟨s1, e1, x1, u1⟩ := rmqPadded_spec l (w >>> (a%64)) a (min (64 - a%64) (b-a)) (by omega) ⟨exc l a, exc l a, a⟩ rfl (by simp only []; omega) (by simp only []; omega)
      (fun i hi' => by rw [BitVec.getLsbD_ushiftRight, hw _ (by omega)]; congr 1; omega)
    simp only [] at u1
    rw [ew, bind_pure_some, e1, bind_pure_some]
    by_cases hww : a/64 = (b-1)/64
    · rw [if_pos hww]
      rw [show a + min (64 - a%64) (b-a) = b by omega] at u1
      exact ⟨s1.idx, s1.min, rfl, hfin _ _ u1⟩
    · rw [if_neg hww]
      have hma : min (64 - a%64) (b-a) = 64 - a%64 := by omega
      rw [hma] at x1 u1 ⊢
      have ha1 : a + (64 - a%64) = 64*(a/64+1) := by omega
      rw [ha1] at x1 u1
      have k1 := hg.nonneg (64*(a/64+1)) (by omega)
      have k2 := hg.small (64*(a/64+1)) (by omega)
      rw [i32_eq _ (by omega) (by omega), bind_pure_some]
      obtain ⟨s2, e2, x2, u2⟩ := rmqInner_spec hi hg (a/64) ((b-1)/64) ⟨s1.exc - (64 - ((64 - a%64 : Nat) : Int)), s1.min, s1.idx⟩ (by omega) (by omega) (by
        simp only []; omega)
      simp only [] at u2
      rw [e2, bind_pure_some]
      obtain ⟨w', ew', hw'⟩ := hrd ((b-1)/64) (by omega)
      have k3 := hg.nonneg (64*((b-1)/64)) (by omega)
      have k4 := hg.small (64*((b-1)/64)) (by omega)
      obtain ⟨s3, e3, x3, u3⟩ := rmqPadded_spec l w' ((b-1)/64*64) (if b%64 = 0 then 64 else b%64) (by split <;> omega) s2
        (by rw [x2]; congr 1; omega) (by omega) (by omega) (fun i hi' => by rw [hw' _ (by split at hi' <;> omega)]; congr 1; omega)
      rw [ew', bind_pure_some, e3, bind_pure_some]
      have hbe : (b-1)/64*64 + (if b%64 = 0 then 64 else b%64) = b := by split <;> omega
      rw [hbe] at u3
      have hall := (u1.trans u2 (by omega) (by omega)).trans u3 (by omega) (by omega)
      rw [show max (max (64*(a/64+1)+1) (64*((b-1)/64) + min ((b-1)/64 - (a/64+1)) 1)) (b+1) = b+1 by omega] at hall
      obtain ⟨f1, f2, f3, f4⟩ := hfin _ _ hall
      rw [assertP_eq _ (show s3.idx ≥ a from f1), bind_pure_some, excess_eq hi.toInv0 hg.toMild _ (by omega), bind_pure_some, assertP_eq _ f3.symm, bind_pure_some]
      exact ⟨_, _, rfl, f1, f2, f3, f4⟩

end BpVector
end Succinct
