import Verif.Lemmas.BpRmqTree

/-! Range minima of a `bp_vector` whose tree over the superblocks is constant. -/
namespace Succinct
open Broadword Bp
open RSBitVector (bind_pure_some)

theorem Upd.keep {g : Nat → Int} {lo hi : Nat} {p : Int × Nat} (h : ∀ q, lo ≤ q → q < hi → p.1 ≤ g q) : Upd g lo hi p p := Or.inl ⟨rfl, h⟩

namespace BpVector
variable {v : BpVector} {l : List Bool}

/-- a tree all of whose nodes hold `S` -/
structure ConstTree (v : BpVector) (l : List Bool) (S : Int) (H : Nat) : Prop where
  int : v.internalNodes = 2^H
  le : (l.length+8191)/8192 ≤ 2^H
  tree : v.superMin = List.replicate (2^H + (l.length+8191)/8192) S

theorem ConstTree.V_eq {S : Int} {H : Nat} (ht : ConstTree v l S H) (k : Nat) (hk : k < 2^H + (l.length+8191)/8192) : V v.superMin k = S := by
  have h1 : k < v.superMin.length := by rw [ht.tree, List.length_replicate]; exact hk
  have h2 := V_rd h1
  unfold rd at h2
  rw [ht.tree, List.getElem?_replicate, if_pos hk] at h2
  rw [ht.tree]
  exact (Option.some.inj h2).symm

theorem ConstTree.minTree {S : Int} {H : Nat} (ht : ConstTree v l S H) (hg : Mild l) : MinTree v H ((l.length+8191)/8192) := by
  refine ⟨by rw [ht.tree, List.length_replicate], ht.le, by have := hg.len; omega, fun {h k} hf => ?_⟩
  have hlt := hf.lt
  have hhi := hf.hi
  have hlo := hf.lo
  have h0 := Nat.two_pow_pos h
  have hk : k*2^h < (k+1)*2^h := by rw [Nat.add_mul]; omega
  refine ⟨V_rd (by rw [ht.tree, List.length_replicate]; exact hlt), fun t t1 t2 => ?_, k*2^h - 2^H, by omega, by omega, ?_⟩
  · unfold LV; rw [ht.V_eq _ hlt, ht.V_eq _ (by omega)]
  · unfold LV; rw [ht.V_eq _ hlt, ht.V_eq _ (by omega)]

theorem findMinSuperblock_const {S : Int} {H : Nat} (ht : ConstTree v l S H) (hg : Mild l) (a b : Nat) (s : Int × Nat) (hab : a < b)
    (hb : b ≤ (l.length+8191)/8192) :
    ∃ t, findMinSuperblock v a b s = some t ∧ (t.1 < s.1 → t.2 = a) ∧ (¬ t.1 < s.1 → s.1 ≤ S) := by
  have hle := ht.le
  obtain ⟨t, e, h1, h2⟩ := findMinSuperblock_spec ht.int (ht.minTree hg) a b s (by omega) hb
  refine ⟨t, e, fun h => ?_, fun h => ?_⟩
  · obtain ⟨g1, g2, g3, g4, g5⟩ := h1 h
    by_contra hne
    have := g5 a (Nat.le_refl _) (by omega)
    unfold LV at this g3
    rw [ht.V_eq _ (by omega)] at this g3
    omega
  · have := h2 h a (Nat.le_refl _) hab
    unfold LV at this
    rw [ht.V_eq _ (by omega)] at this
    exact this

/-- the blocks `[g0, g1)` are not looked at -/
def bvSeen (v : BpVector) (l : List Bool) (g0 g1 b : Nat) : Int := if g0 ≤ b ∧ b < g1 then 4294967296 else BV v l b

/-- the positions that are in none of the other blocks are not looked at -/
def excSeen (l : List Bool) (g0 g1 q : Nat) : Int := if 256*g0 < q ∧ q < 256*g1 then 4294967296 else exc l q

theorem rmqMiddle_const (hi : Inv0 v l) (hg : Mild l) (h0 : 0 < l.length) {S : Int} {H : Nat} (ht : ConstTree v l S H) (hS : S ≤ 0)
    (ba bb : Nat) (m : Int) (hm : m < 4294967296) (hab : ba < bb) (hb : bb ≤ l.length/256) :
    ∃ b, rmqMiddle v ba bb m = some b ∧ Upd (bvSeen v l (32*((ba+1)/32+2)) (32*(bb/32))) (ba+1) bb (m, 4294967295) b := by
  have hpos : ∀ b, b < (l.length+255)/256 → 0 ≤ BV v l b := by
    intro b hb
    obtain ⟨_, _, e3, _⟩ := BV_spec hi hg h0 b hb
    obtain ⟨p, _, _, p3, p4⟩ := (e3 _).1 (Int.le_refl _)
    have := hg.nonneg p p3
    omega
  have hin : ∀ b, b < 32*((ba+1)/32+2) ∨ 32*(bb/32) ≤ b → BV v l b = bvSeen v l (32*((ba+1)/32+2)) (32*(bb/32)) b := by
    intro b hb
    unfold bvSeen
    rw [if_neg (by omega)]
  unfold rmqMiddle
  simp only []
  by_cases h : (ba+1)/32 = bb/32
  · rw [if_pos h]
    obtain ⟨s', e, u⟩ := rmqInSuperblock_spec hi hg h0 (ba+1) bb (m, 4294967295) (by omega) (by omega) (by omega)
    exact ⟨s', e, u.congr fun q q1 q2 => hin q (by omega)⟩
  · rw [if_neg h]
    obtain ⟨s1, e1, u1⟩ := rmqInSuperblock_spec hi hg h0 (ba+1) (((ba+1)/32+1)*32) (m, 4294967295) (by omega) (by omega) (by omega)
    have u1' := u1.congr (g' := bvSeen v l (32*((ba+1)/32+2)) (32*(bb/32))) fun q q1 q2 => hin q (by omega)
    have hle1 := u1.le
    simp only [] at hle1
    have hmid : ∃ t s2, findMinSuperblock v ((ba+1)/32+1) (bb/32) (m, 4294967295) = some t ∧ rmqSuper v t m s1 = some s2 ∧
        Upd (bvSeen v l (32*((ba+1)/32+2)) (32*(bb/32))) (((ba+1)/32+1)*32) (bb/32*32) s1 s2 := by
      by_cases hlt : (ba+1)/32+1 < bb/32
      · obtain ⟨t, e2, f1, f2⟩ := findMinSuperblock_const ht hg ((ba+1)/32+1) (bb/32) (m, 4294967295) hlt (by omega)
        simp only [] at f1 f2
        refine ⟨t, ?_⟩
        unfold rmqSuper
        by_cases htm : t.1 < m
        · rw [if_pos htm, f1 htm]
          obtain ⟨s2, e3, u2⟩ := rmqInSuperblock_spec hi hg h0 (((ba+1)/32+1)*32) (((ba+1)/32+1+1)*32) s1 (by omega) (by omega) (by omega)
          refine ⟨s2, e2, e3, ?_⟩
          have hle2 := u2.le
          have u2' := u2.congr (g' := bvSeen v l (32*((ba+1)/32+2)) (32*(bb/32))) fun q q1 q2 => hin q (by omega)
          have u3 : Upd (bvSeen v l (32*((ba+1)/32+2)) (32*(bb/32))) (((ba+1)/32+1+1)*32) (bb/32*32) s2 s2 := Upd.keep fun q q1 q2 => by
            unfold bvSeen; rw [if_pos (by omega)]; omega
          have := u2'.trans u3 (by omega) (by omega)
          rw [show max (((ba+1)/32+1+1)*32) (bb/32*32) = bb/32*32 by omega] at this
          exact this
        · rw [if_neg htm]
          refine ⟨s1, e2, rfl, Upd.keep fun q q1 q2 => ?_⟩
          have := f2 htm
          unfold bvSeen
          split
          · omega
          · have := hpos q (by omega); omega
      · have heq : (ba+1)/32+1 = bb/32 := by omega
        refine ⟨(m, 4294967295), s1, ?_, ?_, Upd.keep fun q q1 q2 => by omega⟩
        · unfold findMinSuperblock; rw [if_pos heq]; rfl
        · unfold rmqSuper; rw [if_neg (by simp only []; omega)]
    obtain ⟨t, s2, e2, e3, u2⟩ := hmid
    rw [e1, bind_pure_some, e2, bind_pure_some, e3, bind_pure_some]
    obtain ⟨s3, e4, u3⟩ := rmqInSuperblock_spec hi hg h0 (bb/32*32) bb s2 (by omega) (by omega) (by omega)
    have u3' := u3.congr (g' := bvSeen v l (32*((ba+1)/32+2)) (32*(bb/32))) fun q q1 q2 => hin q (by omega)
    refine ⟨s3, e4, ?_⟩
    have := (u1'.trans u2 (by omega) (by omega)).trans u3' (by omega) (by omega)
    rw [show max (max (((ba+1)/32+1)*32) (bb/32*32)) bb = bb by omega] at this
    exact this

theorem rmqBest_seen (hi : Inv0 v l) (hg : Mild l) (h0 : 0 < l.length) (lo hi' g0 g1 : Nat) (hh : hi' ≤ l.length/256) (b : Int × Nat) (s : Rmq) (x : Nat)
    (hlo : lo ≤ hi') (hg0 : lo < g0) (hs : s.min < 4294967296) (hu : Upd (bvSeen v l g0 g1) lo hi' (s.min, x) b) :
    ∃ s' top, rmqBest v b s = some s' ∧ 256*hi' ≤ top ∧ top ≤ 256*hi'+1 ∧
      Upd (excSeen l g0 g1) (256*lo) top (s.min, s.idx) (s'.min, s'.idx) := by
  -- a position that is looked at and before block `hi'` lies in a block that is looked at
  have hBE : ∀ q, 256*lo ≤ q → q < 256*hi' → ¬ (256*g0 < q ∧ q < 256*g1) →
      ∃ c, lo ≤ c ∧ c < hi' ∧ c ≤ q/256 ∧ ¬ (g0 ≤ c ∧ c < g1) ∧ 256*c ≤ q ∧ q ≤ 256*(c+1) ∧ BV v l c ≤ exc l q := by
    intro q h1 h2 h3
    by_cases hc : g0 ≤ q/256 ∧ q/256 < g1
    · refine ⟨q/256-1, by omega, by omega, by omega, by omega, by omega, by omega, ?_⟩
      exact ((BV_spec hi hg h0 _ (by omega)).2.2.1 _).2 ⟨q, by omega, by omega, by omega, Int.le_refl _⟩
    · refine ⟨q/256, by omega, by omega, by omega, hc, by omega, by omega, ?_⟩
      exact ((BV_spec hi hg h0 _ (by omega)).2.2.1 _).2 ⟨q, by omega, by omega, by omega, Int.le_refl _⟩
  unfold rmqBest
  by_cases hlt : b.1 < s.min
  · rw [if_pos hlt]
    rcases hu with ⟨a1, _⟩ | ⟨a1, a2, a3, a4, a5, a6⟩
    · subst a1; simp only [] at hlt; omega
    · simp only [] at a1
      have hbs : ¬ (g0 ≤ b.2 ∧ b.2 < g1) := by
        intro hc
        unfold bvSeen at a4
        rw [if_pos hc] at a4
        omega
      have a4' : BV v l b.2 = b.1 := by unfold bvSeen at a4; rw [if_neg hbs] at a4; exact a4
      obtain ⟨s', e, _, hs'⟩ := rmqInBlock_spec hi hg (b.2*4) ((b.2+1)*4) ⟨exc l (256*b.2), s.min, s.idx⟩ (by omega) (by omega) (by omega) (by
        simp only []; congr 1; omega)
      simp only [] at hs'
      obtain ⟨_, _, B3, _⟩ := BV_spec hi hg h0 b.2 (by omega)
      obtain ⟨p, p1, p2, p3, p4⟩ := (B3 _).1 (Int.le_refl _)
      have hp := hs'.lower p (by omega) (by omega)
      simp only [] at hp
      have hne : s'.min = b.1 := by
        rcases hs' with ⟨c1, _⟩ | ⟨c1, c2, c3, c4, c5, c6⟩
        · rw [Prod.mk.injEq] at c1; omega
        · simp only [] at c1 c2 c3 c4
          have := (B3 (exc l s'.idx)).2 ⟨s'.idx, by omega, by omega, by omega, Int.le_refl _⟩
          omega
      rw [blockExcess_eq hi.rs hg.nonneg hg.small _ (by omega), bind_pure_some, e, bind_pure_some, assertP_eq _ hne, bind_pure_some]
      rcases hs' with ⟨c1, _⟩ | ⟨c1, c2, c3, c4, c5, c6⟩
      · rw [Prod.mk.injEq] at c1; omega
      · simp only [] at c1 c2 c3 c4 c5 c6
        have hseen : excSeen l g0 g1 s'.idx = s'.min := by
          unfold excSeen; rw [if_neg (by omega)]; exact c4
        have hlow : ∀ q, 256*lo ≤ q → q < 256*hi' → s'.min ≤ excSeen l g0 g1 q := by
          intro q q1 q2
          unfold excSeen
          split
          · omega
          · rename_i hq
            obtain ⟨c, d1, d2, _, d3, _, _, d5⟩ := hBE q q1 q2 hq
            have := a5 c d1 d2
            unfold bvSeen at this
            rw [if_neg d3] at this
            omega
        have hleft : ∀ q, 256*lo ≤ q → q < s'.idx → s'.min < excSeen l g0 g1 q := by
          intro q q1 q2
          unfold excSeen
          split
          · omega
          · rename_i hq
            rcases Nat.lt_or_ge q (256*b.2) with hqb | hqb
            · obtain ⟨c, d1, d2, d2', d3, d4, _, d5⟩ := hBE q q1 (by omega) hq
              have := a6 c d1 (by omega)
              unfold bvSeen at this
              rw [if_neg d3] at this
              omega
            · exact c6 q (by omega) q2
        by_cases htop : s'.idx = 256*hi'
        · refine ⟨s', 256*hi'+1, rfl, by omega, by omega, Or.inr ⟨by simp only []; omega, by simp only []; omega, by simp only []; omega, hseen, fun q q1 q2 => ?_, hleft⟩⟩
          by_cases hq : q = s'.idx
          · rw [hq, hseen]
          · exact hlow q q1 (by omega)
        · exact ⟨s', 256*hi', rfl, by omega, by omega, Or.inr ⟨by simp only []; omega, by simp only []; omega, by simp only []; omega, hseen, hlow, hleft⟩⟩
  · rw [if_neg hlt]
    refine ⟨s, 256*hi', rfl, by omega, by omega, Or.inl ⟨rfl, fun q q1 q2 => ?_⟩⟩
    unfold excSeen
    split
    · simp only []; omega
    · rename_i hq
      obtain ⟨c, d1, d2, _, d3, _, _, d5⟩ := hBE q q1 q2 hq
      have := hu.lower c d1 d2
      unfold bvSeen at this
      rw [if_neg d3] at this
      simp only []; omega

theorem rmqInner_const (hi : Inv0 v l) (hg : Mild l) {S : Int} {H : Nat} (ht : ConstTree v l S H) (hS : S ≤ 0) (wa wb : Nat) (s : Rmq)
    (hm : s.min < 4294967296) (hab : wa < wb) (hb : 64*wb ≤ l.length) (hs : s.exc = exc l (64*(wa+1))) :
    ∃ s' top, rmqInner v wa wb s = some s' ∧ s'.exc = exc l (64*wb) ∧ 64*wb ≤ top ∧ top ≤ 64*wb+1 ∧
      Upd (excSeen l (32*((wa/4+1)/32+2)) (32*(wb/4/32))) (64*(wa+1)) top (s.min, s.idx) (s'.min, s'.idx) := by
  have hin : ∀ q, q ≤ 256*(wa/4+1) ∨ 256*(wb/4) ≤ q → exc l q = excSeen l (32*((wa/4+1)/32+2)) (32*(wb/4/32)) q := by
    intro q hq
    unfold excSeen
    rw [if_neg (by omega)]
  unfold rmqInner
  simp only []
  by_cases h : wa/4 = wb/4
  · rw [if_pos h]
    obtain ⟨s', e1, e2, e3⟩ := rmqInBlock_spec hi hg (wa+1) wb s (by omega) hb (by omega) hs
    exact ⟨s', _, e1, e2, by omega, by omega, e3.congr fun q q1 q2 => hin q (by omega)⟩
  · rw [if_neg h]
    obtain ⟨s1, e1, _, u1⟩ := rmqInBlock_spec hi hg (wa+1) ((wa/4+1)*4) s (by omega) (by omega) (by omega) hs
    have hle1 := u1.le
    simp only [] at hle1
    obtain ⟨b, e2, u2⟩ := rmqMiddle_const hi hg (by omega) ht hS (wa/4) (wb/4) s1.min (by omega) (by omega) (by omega)
    obtain ⟨s2, top, e3, t1, t2, u3⟩ := rmqBest_seen hi hg (by omega) (wa/4+1) (wb/4) _ _ (by omega) b s1 _ (by omega) (by omega) (by omega) u2
    obtain ⟨s3, e4, x4, u4⟩ := rmqInBlock_spec hi hg (wb/4*4) wb ⟨exc l (256*(wb/4)), s2.min, s2.idx⟩ (by omega) hb (by omega) (by
      simp only []; congr 1; omega)
    rw [e1, bind_pure_some, e2, bind_pure_some, e3, bind_pure_some, blockExcess_eq hi.rs hg.nonneg hg.small _ (by omega), bind_pure_some]
    have u1' := u1.congr (g' := excSeen l (32*((wa/4+1)/32+2)) (32*(wb/4/32))) fun q q1 q2 => hin q (by omega)
    have u4' := u4.congr (g' := excSeen l (32*((wa/4+1)/32+2)) (32*(wb/4/32))) fun q q1 q2 => hin q (by omega)
    exact ⟨s3, _, e4, x4, by omega, by omega, (u1'.trans u3 (by omega) (by omega)).trans u4' (by omega) (by omega)⟩

/-- the positions that `excess_rmq(a, b)` does not look at when the tree is constant -/
def Skipped (a b q : Nat) : Prop := 8192*((a/256+1)/32+2) < q ∧ q < 8192*((b-1)/8192)

theorem excessRmq_const (hi : Inv0 v l) (hg : Mild l) {S : Int} {H : Nat} (ht : ConstTree v l S H) (hS : S ≤ 0)
    (a b : Nat) (hab : a ≤ b) (hb : b ≤ l.length) :
    ∃ i m, excessRmq v a b = some (i, m) ∧ a ≤ i ∧ i ≤ b ∧ ¬ Skipped a b i ∧ exc l i = m ∧
      (∀ q, a ≤ q → q ≤ b → ¬ Skipped a b q → m ≤ exc l q) ∧ ∀ q, a ≤ q → q < i → ¬ Skipped a b q → m < exc l q := by
  unfold excessRmq
  rw [assertP_eq _ hab, bind_pure_some, excess_eq hi hg a (by omega), bind_pure_some]
  by_cases h : a = b
  · subst h
    rw [if_pos rfl]
    exact ⟨a, _, rfl, Nat.le_refl _, Nat.le_refl _, by unfold Skipped; omega, rfl, fun q h1 h2 _ => by rw [show q = a by omega], fun q h1 h2 => by omega⟩
  · rw [if_neg h]
    simp only []
    have hlen := hi.rs.rep.len
    have hbit := hi.rs.rep.repr.bit
    have n1 := hg.nonneg a (by omega)
    have n2 := hg.small a (by omega)
    have hskip : ∀ q, (256*(32*((a/64/4+1)/32+2)) < q ∧ q < 256*(32*((b-1)/64/4/32))) ↔ Skipped a b q := by
      intro q
      unfold Skipped
      rw [show a/64/4 = a/256 by omega]
      omega
    have hseen : ∀ q, ¬ Skipped a b q → excSeen l (32*((a/64/4+1)/32+2)) (32*((b-1)/64/4/32)) q = exc l q := by
      intro q hq; unfold excSeen; rw [if_neg (mt (hskip q).1 hq)]
    have hrd : ∀ k, k < v.rs.bv.bits.length → ∃ w, rd v.rs.bv.bits k = some w ∧ ∀ i, i < 64 → w.getLsbD i = bitFn l (64*k+i) := by
      intro k hk
      refine ⟨_, rd_eq _ _ hk, fun i hi' => ?_⟩
      rw [← hbit, getElem_getLsbD _ _ _ hk hi']
    have hfin : ∀ i m, Upd (excSeen l (32*((a/64/4+1)/32+2)) (32*((b-1)/64/4/32))) a (b+1) (exc l a, a) (m, i) →
        a ≤ i ∧ i ≤ b ∧ ¬ Skipped a b i ∧ exc l i = m ∧ (∀ q, a ≤ q → q ≤ b → ¬ Skipped a b q → m ≤ exc l q) ∧
          ∀ q, a ≤ q → q < i → ¬ Skipped a b q → m < exc l q := by
      rintro i m (⟨c1, c2⟩ | ⟨c1, c2, c3, c4, c5, c6⟩)
      · rw [Prod.mk.injEq] at c1
        obtain ⟨rfl, rfl⟩ := c1
        exact ⟨Nat.le_refl _, hab, by unfold Skipped; omega, rfl, fun q q1 q2 hq => by rw [← hseen q hq]; exact c2 q q1 (by omega), fun q q1 q2 => by omega⟩
      · simp only [] at c1 c2 c3 c4 c5 c6
        have hns : ¬ Skipped a b i := by
          intro hq
          unfold excSeen at c4
          rw [if_pos ((hskip i).2 hq)] at c4
          omega
        exact ⟨c2, by omega, hns, by rw [← hseen i hns]; exact c4, fun q q1 q2 hq => by rw [← hseen q hq]; exact c5 q q1 (by omega),
          fun q q1 q2 hq => by rw [← hseen q hq]; exact c6 q q1 q2⟩
    have hin : ∀ q, q ≤ 64*(a/64+1) ∨ 64*((b-1)/64) ≤ q → exc l q = excSeen l (32*((a/64/4+1)/32+2)) (32*((b-1)/64/4/32)) q := by
      intro q hq
      unfold excSeen
      rw [if_neg (by omega)]
    obtain ⟨w, ew, hw⟩ := hrd (a/64) (by omega)
    obtain ⟨s1, e1, x1, u1⟩ := rmqPadded_spec l (w >>> (a%64)) a (min (64 - a%64) (b-a)) (by omega) ⟨exc l a, exc l a, a⟩ rfl (by simp only []; omega) (by simp only []; omega)
      (fun i hi' => by rw [BitVec.getLsbD_ushiftRight, hw _ (by omega)]; congr 1; omega)
    have hle1 := u1.le
    simp only [] at u1 hle1
    have u1 := u1.congr fun q q1 q2 => hin q (by omega)
    rw [ew, bind_pure_some, e1, bind_pure_some]
    by_cases hww : a/64 = (b-1)/64
    · rw [if_pos hww]
      rw [show a + min (64 - a%64) (b-a) = b by omega] at u1
      exact ⟨s1.idx, s1.min, rfl, hfin _ _ u1⟩
    · rw [if_neg hww]
      have hma : min (64 - a%64) (b-a) = 64 - a%64 := by omega
      rw [hma] at x1 u1 ⊢
      have ha1 : a + (64 - a%64) = 64*(a/64+1) := by omega
      rw [ha1] at x1 u1
      have k1 := hg.nonneg (64*(a/64+1)) (by omega)
      have k2 := hg.small (64*(a/64+1)) (by omega)
      rw [i32_eq _ (by omega) (by omega), bind_pure_some]
      obtain ⟨s2, top, e2, x2, t1, t2, u2⟩ := rmqInner_const hi hg ht hS (a/64) ((b-1)/64) ⟨s1.exc - (64 - ((64 - a%64 : Nat) : Int)), s1.min, s1.idx⟩
        (by simp only []; omega) (by omega) (by omega) (by simp only []; omega)
      simp only [] at u2
      rw [e2, bind_pure_some]
      obtain ⟨w', ew', hw'⟩ := hrd ((b-1)/64) (by omega)
      have k3 := hg.nonneg (64*((b-1)/64)) (by omega)
      have k4 := hg.small (64*((b-1)/64)) (by omega)
      obtain ⟨s3, e3, x3, u3⟩ := rmqPadded_spec l w' ((b-1)/64*64) (if b%64 = 0 then 64 else b%64) (by split <;> omega) s2
        (by rw [x2]; congr 1; omega) (by omega) (by omega) (fun i hi' => by rw [hw' _ (by split at hi' <;> omega)]; congr 1; omega)
      rw [ew', bind_pure_some, e3, bind_pure_some]
      have hbe : (b-1)/64*64 + (if b%64 = 0 then 64 else b%64) = b := by split <;> omega
      rw [hbe] at u3
      have u3 := u3.congr fun q q1 q2 => hin q (by omega)
      have hall := (u1.trans u2 (by omega) (by omega)).trans u3 (by omega) (by omega)
      rw [show max (max (64*(a/64+1)+1) top) (b+1) = b+1 by omega] at hall
      obtain ⟨f1, f2, f3, f4, f5⟩ := hfin _ _ hall
      rw [assertP_eq _ (show s3.idx ≥ a from f1), bind_pure_some, excess_eq hi hg _ (by omega), bind_pure_some, assertP_eq _ f4.symm, bind_pure_some]
      exact ⟨_, _, rfl, f1, f2, f3, f4, f5⟩

end BpVector
end Succinct
