import Verif.Lemmas.BpBuild

/-! The searches of `bp_vector` through blocks, superblocks and the tree. -/
namespace Succinct
open Broadword Bp
open RSBitVector (bind_pure_some)

namespace BpVector

variable {v : BpVector} {l : List Bool}

/-- some position of block `b` has excess at most `x` -/
def BX (l : List Bool) (b : Nat) (x : Int) : Prop :=
  ∃ p, 256*b ≤ p ∧ p ≤ 256*(b+1) ∧ p ≤ l.length ∧ exc l p ≤ x

theorem BMOK.rd_eq {mins : List Int} (hb : BMOK (exc l) l.length mins) (hg : Mild l) (b : Nat) (hbl : b < (l.length+255)/256) :
    ∃ m, rd mins b = some m ∧ i32 (exc l (8192*(b/32)) + m) = some (exc l (8192*(b/32)) + m) ∧
      ∀ x, exc l (8192*(b/32)) + m ≤ x ↔ BX l b x := by
  obtain ⟨m, e1, e2⟩ := hb.ok b hbl
  obtain ⟨q, q1, q2, q3⟩ := e2.attained
  have hq1 := hg.nonneg q (by omega)
  have hq2 := hg.small q (by omega)
  refine ⟨m, e1, i32_eq _ (by omega) (by omega), fun x => ?_⟩
  rw [e2 x]
  constructor
  · rintro ⟨p, p1, p2, p3⟩; exact ⟨p, p1, by omega, by omega, p3⟩
  · rintro ⟨p, p1, p2, p3, p4⟩; exact ⟨p, p1, by omega, p4⟩

theorem searchFwd_spec {mins : List Int} (hb : BMOK (exc l) l.length mins) (hg : Mild l) (x : Int) (s : Nat) :
    ∀ k b, 32*s ≤ b → b + k ≤ 32*(s+1) → b + k ≤ (l.length+255)/256 →
      (searchFwd mins x (exc l (8192*s)) k b = some none ∧ ∀ c, b ≤ c → c < b+k → ¬ BX l c x) ∨
      ∃ c, b ≤ c ∧ c < b+k ∧ searchFwd mins x (exc l (8192*s)) k b = some (some c) ∧ BX l c x ∧ ∀ c', b ≤ c' → c' < c → ¬ BX l c' x := by
  intro k
  induction k with
  | zero => intro b _ _ _; left; exact ⟨rfl, fun c _ _ => by omega⟩
  | succ k ih =>
    intro b h1 h2 h3
    obtain ⟨m, e1, e2, e3⟩ := hb.rd_eq hg b (by omega)
    rw [show b/32 = s by omega] at e2 e3
    unfold searchFwd
    rw [e1, bind_pure_some, e2, bind_pure_some]
    by_cases h : x ≥ exc l (8192*s) + m
    · rw [if_pos h]
      right
      exact ⟨b, by omega, by omega, rfl, (e3 x).1 h, fun c' _ _ => by omega⟩
    · rw [if_neg h]
      have hno : ¬ BX l b x := fun hh => h ((e3 x).2 hh)
      rcases ih (b+1) (by omega) (by omega) (by omega) with ⟨a1, a2⟩ | ⟨c, c1, c2, c3, c4, c5⟩
      · left
        refine ⟨a1, fun c hc1 hc2 => ?_⟩
        rcases Nat.eq_or_lt_of_le hc1 with hh | hh
        · subst hh; exact hno
        · exact a2 c (by omega) (by omega)
      · right
        refine ⟨c, by omega, by omega, c3, c4, fun c' hc1 hc2 => ?_⟩
        rcases Nat.eq_or_lt_of_le hc1 with hh | hh
        · subst hh; exact hno
        · exact c5 c' (by omega) (by omega)

theorem searchBwd_spec {mins : List Int} (hb : BMOK (exc l) l.length mins) (hg : Mild l) (x : Int) (s : Nat) :
    ∀ k, k ≤ 32 → 32*s + k ≤ (l.length+255)/256 →
      (searchBwd mins x (exc l (8192*s)) (s*32) k = some none ∧ ∀ c, 32*s ≤ c → c < 32*s+k → ¬ BX l c x) ∨
      ∃ c, 32*s ≤ c ∧ c < 32*s+k ∧ searchBwd mins x (exc l (8192*s)) (s*32) k = some (some c) ∧ BX l c x ∧
        ∀ c', c < c' → c' < 32*s+k → ¬ BX l c' x := by
  intro k
  induction k with
  | zero => intro _ _; left; exact ⟨rfl, fun c _ _ => by omega⟩
  | succ k ih =>
    intro h2 h3
    obtain ⟨m, e1, e2, e3⟩ := hb.rd_eq hg (s*32+k) (by omega)
    rw [show (s*32+k)/32 = s by omega] at e2 e3
    unfold searchBwd
    rw [e1, bind_pure_some, e2, bind_pure_some]
    by_cases h : x ≥ exc l (8192*s) + m
    · rw [if_pos h]
      right
      exact ⟨s*32+k, by omega, by omega, rfl, (e3 x).1 h, fun c' _ _ => by omega⟩
    · rw [if_neg h]
      have hno : ¬ BX l (s*32+k) x := fun hh => h ((e3 x).2 hh)
      rcases ih (by omega) (by omega) with ⟨a1, a2⟩ | ⟨c, c1, c2, c3, c4, c5⟩
      · left
        refine ⟨a1, fun c hc1 hc2 => ?_⟩
        rcases Nat.lt_or_ge c (s*32+k) with hh | hh
        · exact a2 c (by omega) (by omega)
        · rw [show c = s*32+k by omega]; exact hno
      · right
        refine ⟨c, by omega, by omega, c3, c4, fun c' hc1 hc2 => ?_⟩
        rcases Nat.lt_or_ge c' (s*32+k) with hh | hh
        · exact c5 c' (by omega) (by omega)
        · rw [show c' = s*32+k by omega]; exact hno

theorem searchBlock_fwd (hi : Inv0 v l) (hg : Mild l) (h0 : 0 < l.length) (x : Int) (b : Nat) (hb : b < (l.length+255)/256) :
    (searchBlockInSuperblock v true b x = some none ∧ ∀ c, b ≤ c → c < 32*(b/32+1) → c < (l.length+255)/256 → ¬ BX l c x) ∨
    ∃ c, b ≤ c ∧ c < (l.length+255)/256 ∧ c < 32*(b/32+1) ∧ searchBlockInSuperblock v true b x = some (some c) ∧ BX l c x ∧ ∀ c', b ≤ c' → c' < c → ¬ BX l c' x := by
  have hbm := hi.bm h0
  unfold searchBlockInSuperblock
  simp only []
  rw [blockExcess_eq hi.rs hg.nonneg hg.small _ (by omega), bind_pure_some, if_pos trivial, hbm.lenEq, show 256*(b/32*32) = 8192*(b/32) by omega]
  rcases searchFwd_spec hbm hg x (b/32) (min ((b/32+1)*32) ((l.length+255)/256) - b) b (by omega) (by omega) (by omega) with
    ⟨a1, a2⟩ | ⟨c, c1, c2, c3, c4, c5⟩
  · left; exact ⟨a1, fun c h1 h2 h3 => a2 c h1 (by omega)⟩
  · right; exact ⟨c, c1, by omega, by omega, c3, c4, c5⟩

theorem searchBlock_bwd (hi : Inv0 v l) (hg : Mild l) (h0 : 0 < l.length) (x : Int) (b : Nat) (hb : b < (l.length+255)/256) :
    (searchBlockInSuperblock v false b x = some none ∧ ∀ c, c ≤ b → 32*(b/32) ≤ c → ¬ BX l c x) ∨
    ∃ c, c ≤ b ∧ 32*(b/32) ≤ c ∧ searchBlockInSuperblock v false b x = some (some c) ∧ BX l c x ∧ ∀ c', c < c' → c' ≤ b → ¬ BX l c' x := by
  have hbm := hi.bm h0
  unfold searchBlockInSuperblock
  simp only []
  rw [blockExcess_eq hi.rs hg.nonneg hg.small _ (by omega), bind_pure_some, if_neg (by simp), show 256*(b/32*32) = 8192*(b/32) by omega]
  rcases searchBwd_spec hbm hg x (b/32) (b+1-b/32*32) (by omega) (by omega) with
    ⟨a1, a2⟩ | ⟨c, c1, c2, c3, c4, c5⟩
  · left; exact ⟨a1, fun c h1 h2 => a2 c h2 (by omega)⟩
  · right; exact ⟨c, by omega, c1, c3, c4, fun c' h1 h2 => c5 c' h1 (by omega)⟩

theorem SM_iff (s : Nat) (hs : 8192*s < l.length) (x : Int) :
    SM (exc l) l.length s x ↔ ∃ b, 32*s ≤ b ∧ b < 32*(s+1) ∧ b < (l.length+255)/256 ∧ BX l b x := by
  constructor
  · rintro ⟨p, p1, p2, p3, p4⟩
    by_cases h : p = 8192*s
    · exact ⟨32*s, by omega, by omega, by omega, ⟨p, by omega, by omega, p3, p4⟩⟩
    · exact ⟨(p-1)/256, by omega, by omega, by omega, ⟨p, by omega, by omega, p3, p4⟩⟩
  · rintro ⟨b, b1, b2, b3, p, p1, p2, p3, p4⟩
    exact ⟨p, by omega, by omega, p3, p4⟩

/-- `t` is a superblock below node `k` of height `h` -/
def Under (N n h k t : Nat) : Prop := t < n ∧ k*2^h ≤ N + t ∧ N + t < (k+1)*2^h

/-- what the tests of the tree nodes against `x` tell about the superblocks below them -/
structure RangeOK (v : BpVector) (H n : Nat) (x : Int) (P : Nat → Prop) : Prop where
  le : n ≤ 2^H
  node : ∀ d h k, d + h = H → 2^d ≤ k → k < 2^(d+1) → ∀ t, Under (2^H) n h k t →
    ∃ b, inNodeRange v k x = some b ∧ (b = true ↔ ∃ t, Under (2^H) n h k t ∧ P t)

theorem inNodeRange_eq (hi : Inv v l) (hg : Good l) {H n : Nat} (hn : n = (l.length+8191)/8192)
    (ht : TreeOK (exc l) l.length H n v.superMin) (x : Int) (d h k : Nat) (hd : d + h = H) (h1 : 2^d ≤ k) (h2 : k < 2^(d+1))
    (t : Nat) (hU : Under (2^H) n h k t) :
    ∃ b, inNodeRange v k x = some b ∧ (b = true ↔ ∃ t, Under (2^H) n h k t ∧ SM (exc l) l.length t x) := by
  obtain ⟨u1, u2, u3⟩ := hU
  have hk : k < v.superMin.length := by
    rw [ht.lenEq]
    have : k*1 ≤ k*2^h := Nat.mul_le_mul_left _ (Nat.two_pow_pos h)
    omega
  have b := ht.node d h k hd h1 h2 hk
  have hne : V v.superMin k ≠ toI32 l.length := ((b _).2 ⟨t, u1, u2, u3, hg.wide t (by omega)⟩).2
  unfold inNodeRange
  rw [V_rd hk, bind_pure_some, hi.rs.rep.size, assertP_eq _ hne, bind_pure_some]
  refine ⟨_, rfl, ?_⟩
  rw [decide_eq_true_iff, ge_iff_le]
  constructor
  · intro hh
    obtain ⟨s, s1, s2, s3, s4⟩ := (b x).1 ⟨hh, hne⟩
    exact ⟨s, ⟨s1, s2, s3⟩, s4⟩
  · rintro ⟨s, ⟨s1, s2, s3⟩, s4⟩; exact ((b x).2 ⟨s, s1, s2, s3, s4⟩).1

theorem RangeOK.of (hi : Inv v l) (hg : Good l) {H : Nat} (ht : TreeOK (exc l) l.length H ((l.length+8191)/8192) v.superMin) (x : Int) :
    RangeOK v H ((l.length+8191)/8192) x (fun t => SM (exc l) l.length t x) :=
  ⟨ht.le, fun d h k hd h1 h2 t hU => inNodeRange_eq hi hg rfl ht x d h k hd h1 h2 t hU⟩

theorem treeUp_fwd {H n : Nat} {P : Nat → Prop}
    {x : Int} (ht : RangeOK v H n x P) (s t0 : Nat) (hs : s < t0) (ht0 : t0 < n)
    (hS : P t0) :
    ∀ (fuel d h k : Nat), d + h = H → 2^d ≤ k → k < 2^(d+1) → 2^H + s < (k+1)*2^h →
      (∀ t, s < t → 2^H + t < (k+1)*2^h → t < n → ¬ P t) → k < fuel →
      ∃ k' d' h', treeUp v true x fuel k = some k' ∧ d' + h' = H ∧ 2^d' ≤ k' ∧ k' < 2^(d'+1) ∧ 2^H + s < k'*2^h' ∧
        (∃ t, Under (2^H) n h' k' t ∧ P t) ∧
        ∀ t, s < t → 2^H + t < k'*2^h' → t < n → ¬ P t := by
  intro fuel
  induction fuel with
  | zero => intro d h k _ _ _ _ _ h; omega
  | succ fuel ih =>
    intro d h k hd h1 h2 hA hB hf
    have hk1 : 1 ≤ k := by have := Nat.two_pow_pos d; omega
    have hle : (k+1)*2^h ≤ 2^H + t0 := by
      by_contra hh; exact hB t0 hs (by omega) ht0 hS
    have hHd : 2^H = 2^d*2^h := by rw [← Nat.pow_add, hd]
    have hnH := ht.le
    have hk2 : k + 1 < 2^(d+1) := by
      by_contra hh
      have : 2^(d+1)*2^h ≤ (k+1)*2^h := Nat.mul_le_mul_right _ (by omega)
      rw [Nat.pow_succ, Nat.mul_right_comm, ← hHd] at this
      omega
    have hd0 : 0 < d := by
      rcases Nat.eq_zero_or_pos d with hd0 | hd0
      · subst hd0; simp at h1 h2 hk2; omega
      · exact hd0
    obtain ⟨d', rfl⟩ : ∃ d', d = d'+1 := ⟨d-1, by omega⟩
    have p1 : 2^(d'+1) = 2*2^d' := by rw [Nat.pow_succ]; omega
    have p2 : 2^(d'+1+1) = 2*2^(d'+1) := by rw [Nat.pow_succ]; omega
    have ph : 2^(h+1) = 2*2^h := by rw [Nat.pow_succ]; omega
    unfold treeUp
    rw [assertP_eq _ (by omega), bind_pure_some]
    unfold siblingHit
    by_cases hodd : k % 2 = 1
    · rw [if_pos (by simpa using hodd), bind_pure_some]
      have hend : (k/2+1)*2^(h+1) = (k+1)*2^h := by
        rw [ph, ← Nat.mul_assoc]; congr 1; omega
      exact ih d' (h+1) (k/2) (by omega) (by omega) (by omega) (by rw [hend]; exact hA) (by rw [hend]; exact hB) (by omega)
    · rw [if_neg (by simpa using hodd)]
      have hleft : 2^H ≤ (k+1)*2^h := by
        rw [hHd]; exact Nat.mul_le_mul_right _ (by omega)
      have hU : Under (2^H) n h (k+1) ((k+1)*2^h - 2^H) := ⟨by omega, by omega, by
        rw [Nat.add_mul (k+1), Nat.one_mul]; have := Nat.two_pow_pos h; omega⟩
      obtain ⟨b, eb, hb⟩ := ht.node (d'+1) h (k+1) hd (by omega) hk2 _ hU
      rw [show otherNode true k = some (k+1) from rfl, bind_pure_some, eb, bind_pure_some]
      cases b with
      | true =>
        rw [if_pos rfl]
        exact ⟨k+1, d'+1, h, rfl, hd, by omega, hk2, hA, hb.1 rfl, hB⟩
      | false =>
        rw [if_neg (by simp)]
        have hend : (k/2+1)*2^(h+1) = (k+1+1)*2^h := by
          rw [ph, ← Nat.mul_assoc]; congr 1; omega
        have hno : ∀ t, ¬ (Under (2^H) n h (k+1) t ∧ P t) := by
          intro t hh; have := hb.2 ⟨t, hh⟩; simp at this
        refine ih d' (h+1) (k/2) (by omega) (by omega) (by omega) ?_ ?_ (by omega)
        · rw [hend, Nat.add_mul (k+1)]; omega
        · rw [hend]
          intro t h3 h4 h5 h6
          rcases Nat.lt_or_ge (2^H+t) ((k+1)*2^h) with hh | hh
          · exact hB t h3 hh h5 h6
          · exact hno t ⟨⟨h5, hh, h4⟩, h6⟩

theorem treeUp_bwd {H n : Nat} {P : Nat → Prop}
    {x : Int} (ht : RangeOK v H n x P) (s t0 : Nat) (hs : t0 < s) (hsn : s < n)
    (hS : P t0) :
    ∀ (fuel d h k : Nat), d + h = H → 2^d ≤ k → k < 2^(d+1) → k*2^h ≤ 2^H + s →
      (∀ t, t < s → k*2^h ≤ 2^H + t → ¬ P t) → k < fuel →
      ∃ k' d' h', treeUp v false x fuel k = some k' ∧ d' + h' = H ∧ 2^d' ≤ k' ∧ k' < 2^(d'+1) ∧ (k'+1)*2^h' ≤ 2^H + s ∧
        (∃ t, Under (2^H) n h' k' t ∧ P t) ∧
        ∀ t, t < s → (k'+1)*2^h' ≤ 2^H + t → ¬ P t := by
  intro fuel
  induction fuel with
  | zero => intro d h k _ _ _ _ _ h; omega
  | succ fuel ih =>
    intro d h k hd h1 h2 hA hB hf
    have hk1 : 1 ≤ k := by have := Nat.two_pow_pos d; omega
    have hle : 2^H + t0 < k*2^h := by
      by_contra hh; exact hB t0 hs (by omega) hS
    have hHd : 2^H = 2^d*2^h := by rw [← Nat.pow_add, hd]
    have hnH := ht.le
    have hk2 : 2^d < k := by
      by_contra hh
      have : k*2^h ≤ 2^d*2^h := Nat.mul_le_mul_right _ (by omega)
      omega
    have hd0 : 0 < d := by
      rcases Nat.eq_zero_or_pos d with hd0 | hd0
      · subst hd0; simp at h1 h2 hk2; omega
      · exact hd0
    obtain ⟨d', rfl⟩ : ∃ d', d = d'+1 := ⟨d-1, by omega⟩
    have p1 : 2^(d'+1) = 2*2^d' := by rw [Nat.pow_succ]; omega
    have p2 : 2^(d'+1+1) = 2*2^(d'+1) := by rw [Nat.pow_succ]; omega
    have ph : 2^(h+1) = 2*2^h := by rw [Nat.pow_succ]; omega
    have hh0 := Nat.two_pow_pos h
    unfold treeUp
    rw [assertP_eq _ (by omega), bind_pure_some]
    unfold siblingHit
    by_cases hev : k % 2 = 0
    · rw [if_pos (by simpa using hev), bind_pure_some]
      have hend : (k/2)*2^(h+1) = k*2^h := by
        rw [ph, ← Nat.mul_assoc]; congr 1; omega
      exact ih d' (h+1) (k/2) (by omega) (by omega) (by omega) (by rw [hend]; exact hA) (by rw [hend]; exact hB) (by omega)
    · rw [if_neg (by simpa using hev)]
      have hleft : 2^H ≤ (k-1)*2^h := by
        rw [hHd]; exact Nat.mul_le_mul_right _ (by omega)
      have hk1' : (k-1)*2^h + 2^h = k*2^h := by
        rw [← Nat.succ_mul]; congr 1; omega
      have hkk : k - 1 + 1 = k := by omega
      have hU : Under (2^H) n h (k-1) ((k-1)*2^h - 2^H) := ⟨by omega, by omega, by
        rw [hkk]; omega⟩
      obtain ⟨b, eb, hb⟩ := ht.node (d'+1) h (k-1) hd (by omega) (by omega) _ hU
      rw [show otherNode false k = subU k 1 from rfl, subU_eq _ _ hk1, bind_pure_some, eb, bind_pure_some]
      cases b with
      | true =>
        rw [if_pos rfl]
        exact ⟨k-1, d'+1, h, rfl, hd, by omega, by omega, by rw [hkk]; exact hA, hb.1 rfl, by rw [hkk]; exact hB⟩
      | false =>
        rw [if_neg (by simp)]
        have hend : (k/2)*2^(h+1) = (k-1)*2^h := by
          rw [ph, ← Nat.mul_assoc]; congr 1; omega
        have hno : ∀ t, ¬ (Under (2^H) n h (k-1) t ∧ P t) := by
          intro t hh; have := hb.2 ⟨t, hh⟩; simp at this
        refine ih d' (h+1) (k/2) (by omega) (by omega) (by omega) ?_ ?_ (by omega)
        · rw [hend]; omega
        · rw [hend]
          intro t h3 h4 h6
          rcases Nat.lt_or_ge (2^H+t) (k*2^h) with hh | hh
          · exact hno t ⟨⟨by omega, h4, by rw [hkk]; exact hh⟩, h6⟩
          · exact hB t h3 hh h6

theorem treeDown_fwd {H n : Nat} {P : Nat → Prop} (hN : v.internalNodes = 2^H)
    {x : Int} (ht : RangeOK v H n x P) :
    ∀ (h fuel d k t : Nat), h ≤ fuel → d + h = H → 2^d ≤ k → k < 2^(d+1) → Under (2^H) n h k t → P t →
      ∃ s, treeDown v true x fuel k = some (2^H + s) ∧ Under (2^H) n h k s ∧ P s ∧
        ∀ t, t < s → k*2^h ≤ 2^H + t → ¬ P t := by
  intro h
  induction h with
  | zero =>
    intro fuel d k t hf hd h1 h2 hU hS
    have : d = H := by omega
    subst this
    have hU' := hU
    obtain ⟨u1, u2, u3⟩ := hU'
    rw [Nat.pow_zero, Nat.mul_one] at u2 u3
    have hk : k = 2^d + t := by omega
    refine ⟨t, ?_, hU, hS, ?_⟩
    · unfold treeDown; rw [if_neg (by omega), hk]
    · intro t' h3 h4; rw [Nat.pow_zero, Nat.mul_one] at h4; omega
  | succ h ih =>
    intro fuel d k t hf hd h1 h2 hU hS
    obtain ⟨fuel, rfl⟩ : ∃ f, fuel = f+1 := ⟨fuel-1, by omega⟩
    obtain ⟨u1, u2, u3⟩ := hU
    have hk : k < 2^H := by
      have : 2^(d+1) ≤ 2^H := Nat.pow_le_pow_right (by omega) (by omega)
      omega
    have p1 : 2^(d+1) = 2*2^d := by rw [Nat.pow_succ]; omega
    have p2 : 2^(d+1+1) = 2*2^(d+1) := by rw [Nat.pow_succ]; omega
    have ph : 2^(h+1) = 2*2^h := by rw [Nat.pow_succ]; omega
    have hHd : 2^H = 2^d*2^(h+1) := by rw [← Nat.pow_add, hd]
    have hh0 := Nat.two_pow_pos h
    have hlow : 2^H ≤ k*2^(h+1) := by rw [hHd]; exact Nat.mul_le_mul_right _ h1
    have c0 : (k*2)*2^h = k*2^(h+1) := by rw [ph, ← Nat.mul_assoc]
    have c1 : (k*2+1)*2^h = k*2^(h+1) + 2^h := by rw [Nat.succ_mul, c0]
    have c2 : (k*2+1+1)*2^h = (k+1)*2^(h+1) := by rw [ph, ← Nat.mul_assoc]; congr 1; omega
    have c3 : (k*2+1+1)*2^h = k*2^(h+1) + 2^h + 2^h := by rw [Nat.succ_mul, c1]
    unfold treeDown
    rw [if_pos (by omega)]
    simp only []
    have hU0 : Under (2^H) n h (k*2) (k*2^(h+1) - 2^H) := ⟨by omega, by omega, by omega⟩
    obtain ⟨b, eb, hb⟩ := ht.node (d+1) h (k*2) (by omega) (by omega) (by omega) _ hU0
    rw [if_pos trivial, Nat.add_zero, eb, bind_pure_some]
    cases b with
    | true =>
      obtain ⟨t', hU', hS'⟩ := hb.1 rfl
      rw [if_pos rfl]
      obtain ⟨s, e, ⟨s1, s2, s3⟩, hs, hs'⟩ := ih fuel (d+1) (k*2) t' (by omega) (by omega) (by omega) (by omega) hU' hS'
      exact ⟨s, e, ⟨s1, by omega, by omega⟩, hs, fun t h3 h4 => hs' t h3 (by omega)⟩
    | false =>
      have hno : ∀ t, ¬ (Under (2^H) n h (k*2) t ∧ P t) := by
        intro t hh; have := hb.2 ⟨t, hh⟩; simp at this
      have hge : (k*2+1)*2^h ≤ 2^H + t := by
        by_contra hh; exact hno t ⟨⟨u1, by omega, by omega⟩, hS⟩
      have hU1 : Under (2^H) n h (k*2+1) t := ⟨u1, hge, by omega⟩
      obtain ⟨b', eb', hb'⟩ := ht.node (d+1) h (k*2+1) (by omega) (by omega) (by omega) _ hU1
      rw [if_neg (by simp), show otherNode true (k*2) = some (k*2+1) from rfl, bind_pure_some, eb', bind_pure_some,
        assertP_eq _ (hb'.2 ⟨t, hU1, hS⟩), bind_pure_some]
      obtain ⟨s, e, ⟨s1, s2, s3⟩, hs, hs'⟩ := ih fuel (d+1) (k*2+1) t (by omega) (by omega) (by omega) (by omega) hU1 hS
      refine ⟨s, e, ⟨s1, by omega, by omega⟩, hs, fun t h3 h4 h5 => ?_⟩
      rcases Nat.lt_or_ge (2^H+t) ((k*2+1)*2^h) with hh | hh
      · exact hno t ⟨⟨by omega, by omega, hh⟩, h5⟩
      · exact hs' t h3 hh h5

theorem treeDown_bwd {H n : Nat} {P : Nat → Prop} (hN : v.internalNodes = 2^H)
    {x : Int} (ht : RangeOK v H n x P) :
    ∀ (h fuel d k t : Nat), h ≤ fuel → d + h = H → 2^d ≤ k → k < 2^(d+1) → (k+1)*2^h ≤ 2^H + n → Under (2^H) n h k t → P t →
      ∃ s, treeDown v false x fuel k = some (2^H + s) ∧ Under (2^H) n h k s ∧ P s ∧
        ∀ t, s < t → 2^H + t < (k+1)*2^h → ¬ P t := by
  intro h
  induction h with
  | zero =>
    intro fuel d k t hf hd h1 h2 hfull hU hS
    have : d = H := by omega
    subst this
    have hU' := hU
    obtain ⟨u1, u2, u3⟩ := hU'
    rw [Nat.pow_zero, Nat.mul_one] at u2 u3
    have hk : k = 2^d + t := by omega
    refine ⟨t, ?_, hU, hS, ?_⟩
    · unfold treeDown; rw [if_neg (by omega), hk]
    · intro t' h3 h4; rw [Nat.pow_zero, Nat.mul_one] at h4; omega
  | succ h ih =>
    intro fuel d k t hf hd h1 h2 hfull hU hS
    obtain ⟨fuel, rfl⟩ : ∃ f, fuel = f+1 := ⟨fuel-1, by omega⟩
    obtain ⟨u1, u2, u3⟩ := hU
    have hk : k < 2^H := by
      have : 2^(d+1) ≤ 2^H := Nat.pow_le_pow_right (by omega) (by omega)
      omega
    have p1 : 2^(d+1) = 2*2^d := by rw [Nat.pow_succ]; omega
    have p2 : 2^(d+1+1) = 2*2^(d+1) := by rw [Nat.pow_succ]; omega
    have ph : 2^(h+1) = 2*2^h := by rw [Nat.pow_succ]; omega
    have hHd : 2^H = 2^d*2^(h+1) := by rw [← Nat.pow_add, hd]
    have hh0 := Nat.two_pow_pos h
    have hlow : 2^H ≤ k*2^(h+1) := by rw [hHd]; exact Nat.mul_le_mul_right _ h1
    have c0 : (k*2)*2^h = k*2^(h+1) := by rw [ph, ← Nat.mul_assoc]
    have c1 : (k*2+1)*2^h = k*2^(h+1) + 2^h := by rw [Nat.succ_mul, c0]
    have c2 : (k*2+1+1)*2^h = (k+1)*2^(h+1) := by rw [ph, ← Nat.mul_assoc]; congr 1; omega
    have c3 : (k*2+1+1)*2^h = k*2^(h+1) + 2^h + 2^h := by rw [Nat.succ_mul, c1]
    unfold treeDown
    rw [if_pos (by omega)]
    simp only []
    have hU0 : Under (2^H) n h (k*2+1) ((k*2+1)*2^h - 2^H) := ⟨by omega, by omega, by omega⟩
    obtain ⟨b, eb, hb⟩ := ht.node (d+1) h (k*2+1) (by omega) (by omega) (by omega) _ hU0
    rw [if_neg (by simp), eb, bind_pure_some]
    cases b with
    | true =>
      obtain ⟨t', hU', hS'⟩ := hb.1 rfl
      rw [if_pos rfl]
      obtain ⟨s, e, ⟨s1, s2, s3⟩, hs, hs'⟩ := ih fuel (d+1) (k*2+1) t' (by omega) (by omega) (by omega) (by omega) (by omega) hU' hS'
      exact ⟨s, e, ⟨s1, by omega, by omega⟩, hs, fun t h3 h4 => hs' t h3 (by omega)⟩
    | false =>
      have hno : ∀ t, ¬ (Under (2^H) n h (k*2+1) t ∧ P t) := by
        intro t hh; have := hb.2 ⟨t, hh⟩; simp at this
      have hge : 2^H + t < (k*2+1)*2^h := by
        by_contra hh; exact hno t ⟨⟨u1, by omega, by omega⟩, hS⟩
      have hU1 : Under (2^H) n h (k*2) t := ⟨u1, by omega, hge⟩
      obtain ⟨b', eb', hb'⟩ := ht.node (d+1) h (k*2) (by omega) (by omega) (by omega) _ hU1
      rw [if_neg (by simp), show otherNode false (k*2+1) = subU (k*2+1) 1 from rfl, subU_eq _ _ (by omega), bind_pure_some, Nat.add_sub_cancel, eb', bind_pure_some,
        assertP_eq _ (hb'.2 ⟨t, hU1, hS⟩), bind_pure_some]
      obtain ⟨s, e, ⟨s1, s2, s3⟩, hs, hs'⟩ := ih fuel (d+1) (k*2) t (by omega) (by omega) (by omega) (by omega) (by omega) hU1 hS
      refine ⟨s, e, ⟨s1, by omega, by omega⟩, hs, fun t h3 h4 h5 => ?_⟩
      rcases Nat.lt_or_ge (2^H+t) ((k*2+1)*2^h) with hh | hh
      · exact hs' t h3 hh h5
      · exact hno t ⟨⟨by omega, hh, by omega⟩, h5⟩

theorem searchMinTree_fwd (hi : Inv v l) (hg : Good l) (h0 : 0 < l.length) (x : Int) (b c0 : Nat) (hbc : b ≤ c0)
    (hc0 : c0 < (l.length+255)/256) (hX : BX l c0 x) :
    ∃ c, searchMinTree v true b x = some c ∧ b ≤ c ∧ c < (l.length+255)/256 ∧ BX l c x ∧ ∀ c', b ≤ c' → c' < c → ¬ BX l c' x := by
  obtain ⟨H, hN, ht⟩ := hi.tree h0
  unfold searchMinTree
  rcases searchBlock_fwd hi.toInv0 hg.toMild h0 x b (by omega) with ⟨a1, a2⟩ | ⟨c, c1, c2, _, c3, c4, c5⟩
  · rw [a1, bind_pure_some]
    simp only []
    have hlt : b/32 < c0/32 := by
      by_contra hh; exact a2 c0 hbc (by omega) hc0 hX
    have hS0 : SM (exc l) l.length (c0/32) x := (SM_iff _ (by omega) x).2 ⟨c0, by omega, by omega, hc0, hX⟩
    have hnH := ht.le
    obtain ⟨k, d, h, ek, hd, hk1, hk2, hk3, ⟨t, htU, htS⟩, hk4⟩ := treeUp_fwd (RangeOK.of hi hg ht x) (b/32) (c0/32) hlt (by omega) hS0
      (v.internalNodes + b/32 + 1) H 0 (v.internalNodes + b/32) (by omega) (by omega) (by rw [Nat.pow_succ]; omega) (by rw [Nat.pow_zero]; omega)
      (by intro t h1 h2; rw [Nat.pow_zero] at h2; omega) (by omega)
    rw [ek, bind_pure_some]
    obtain ⟨s, es, ⟨s1, s2, s3⟩, sS, s4⟩ := treeDown_fwd hN (RangeOK.of hi hg ht x) h v.internalNodes d k t
      (by rw [hN]; have := @Nat.lt_two_pow_self H; omega) hd hk1 hk2 htU htS
    have hkpos : k ≠ 0 := by have := Nat.two_pow_pos d; omega
    rw [assertP_eq _ hkpos, bind_pure_some, es, bind_pure_some, hN, subU_eq _ _ (by omega), bind_pure_some, Nat.add_sub_cancel_left]
    have hS0' := (SM_iff s (by omega) x).1 sS
    obtain ⟨c', c1', c2', c3', c4'⟩ := hS0'
    rcases searchBlock_fwd hi.toInv0 hg.toMild h0 x (s*32+0) (by omega) with ⟨a1', a2'⟩ | ⟨c, c1, c2, cs, c3, c4, c5⟩
    · exact absurd c4' (a2' c' (by omega) (by omega) c3')
    · rw [if_pos trivial, c3, bind_pure_some]
      have hbs : b/32 < s := by omega
      refine ⟨c, rfl, by omega, c2, c4, fun c'' h1 h2 h3 => ?_⟩
      rcases Nat.lt_or_ge c'' (s*32) with hh | hh
      · by_cases hb : c''/32 = b/32
        · exact a2 c'' h1 (by omega) (by omega) h3
        · have hS'' : SM (exc l) l.length (c''/32) x := (SM_iff _ (by omega) x).2 ⟨c'', by omega, by omega, by omega, h3⟩
          rcases Nat.lt_or_ge (2^H + c''/32) (k*2^h) with h4 | h4
          · exact hk4 _ (by omega) h4 (by omega) hS''
          · exact s4 _ (by omega) h4 hS''
      · exact c5 c'' (by omega) h2 h3
  · rw [c3, bind_pure_some]
    exact ⟨c, rfl, c1, c2, c4, c5⟩

theorem searchMinTree_bwd (hi : Inv v l) (hg : Good l) (h0 : 0 < l.length) (x : Int) (b c0 : Nat) (hbc : c0 ≤ b)
    (hb : b < (l.length+255)/256) (hX : BX l c0 x) :
    ∃ c, searchMinTree v false b x = some c ∧ c ≤ b ∧ BX l c x ∧ ∀ c', c < c' → c' ≤ b → ¬ BX l c' x := by
  obtain ⟨H, hN, ht⟩ := hi.tree h0
  unfold searchMinTree
  rcases searchBlock_bwd hi.toInv0 hg.toMild h0 x b hb with ⟨a1, a2⟩ | ⟨c, c1, _, c3, c4, c5⟩
  · rw [a1, bind_pure_some]
    simp only []
    have hlt : c0/32 < b/32 := by
      by_contra hh; exact a2 c0 hbc (by omega) hX
    have hS0 : SM (exc l) l.length (c0/32) x := (SM_iff _ (by omega) x).2 ⟨c0, by omega, by omega, by omega, hX⟩
    have hnH := ht.le
    obtain ⟨k, d, h, ek, hd, hk1, hk2, hk3, ⟨t, htU, htS⟩, hk4⟩ := treeUp_bwd (RangeOK.of hi hg ht x) (b/32) (c0/32) hlt (by omega) hS0
      (v.internalNodes + b/32 + 1) H 0 (v.internalNodes + b/32) (by omega) (by omega) (by rw [Nat.pow_succ]; omega) (by rw [Nat.pow_zero]; omega)
      (by intro t h1 h2; rw [Nat.pow_zero] at h2; omega) (by omega)
    rw [ek, bind_pure_some]
    obtain ⟨s, es, ⟨s1, s2, s3⟩, sS, s4⟩ := treeDown_bwd hN (RangeOK.of hi hg ht x) h v.internalNodes d k t
      (by rw [hN]; have := @Nat.lt_two_pow_self H; omega) hd hk1 hk2 (by omega) htU htS
    have hkpos : k ≠ 0 := by have := Nat.two_pow_pos d; omega
    rw [assertP_eq _ hkpos, bind_pure_some, es, bind_pure_some, hN, subU_eq _ _ (by omega), bind_pure_some, Nat.add_sub_cancel_left]
    have hS0' := (SM_iff s (by omega) x).1 sS
    obtain ⟨c', c1', c2', c3', c4'⟩ := hS0'
    have hbs : s < b/32 := by omega
    rcases searchBlock_bwd hi.toInv0 hg.toMild h0 x (s*32+31) (by omega) with ⟨a1', a2'⟩ | ⟨c, c1, cs, c3, c4, c5⟩
    · exact absurd c4' (a2' c' (by omega) (by omega))
    · rw [if_neg (by simp), c3, bind_pure_some]
      refine ⟨c, rfl, by omega, c4, fun c'' h1 h2 h3 => ?_⟩
      rcases Nat.lt_or_ge c'' (s*32+32) with hh | hh
      · exact c5 c'' h1 (by omega) h3
      · by_cases hb : c''/32 = b/32
        · exact a2 c'' h2 (by omega) h3
        · have hS'' : SM (exc l) l.length (c''/32) x := (SM_iff _ (by omega) x).2 ⟨c'', by omega, by omega, by omega, h3⟩
          rcases Nat.lt_or_ge (2^H + c''/32) ((k+1)*2^h) with h4 | h4
          · exact s4 _ (by omega) h4 hS''
          · exact hk4 _ (by omega) h4 hS''
  · rw [c3, bind_pure_some]
    exact ⟨c, rfl, c1, c4, c5⟩

end BpVector
end Succinct
