import Verif.Props.Unbalanced
import Verif.Props.BpVector

/-! # C72: the sequences the constructor of `bp_vector` rejects -/
namespace Succinct
open Spec
open BpVector (exc Good)
open RSBitVector (bind_pure_some)

namespace BpVector

theorem superMinLoop_lower {l : List Bool} (mins : List Int) (hb : BMOK (exc l) l.length mins) (s : Nat) :
    ∀ (k b : Nat) (cur r : Int), 32*s ≤ b → b + k ≤ 32*(s+1) → b + k ≤ (l.length+255)/256 → superMinLoop mins (exc l (8192*s)) k b cur = some r →
      r ≤ cur ∧ ∀ p, 0 < k → 256*b ≤ p → p ≤ min (256*(b+k)) l.length → r ≤ exc l p := by
  intro k
  induction k with
  | zero =>
    intro b cur r _ _ _ h
    unfold superMinLoop at h
    cases h
    exact ⟨Int.le_refl _, fun p h => absurd h (by omega)⟩
  | succ k ih =>
    intro b cur r h1 h2 h3 h
    obtain ⟨m, e1, e2⟩ := hb.ok b (by omega)
    rw [show b/32 = s by omega] at e2
    unfold superMinLoop at h
    rw [rd, e1, bind_pure_some, Option.bind_eq_bind, Option.bind_eq_some_iff] at h
    obtain ⟨y, ey, h⟩ := h
    rw [i32_some ey] at h
    obtain ⟨a1, a2⟩ := ih (b+1) _ r (by omega) (by omega) (by omega) h
    refine ⟨by omega, fun p _ p1 p2 => ?_⟩
    by_cases hp : p ≤ min (256*(b+1)) l.length
    · have := (e2 (exc l p)).2 ⟨p, p1, hp, Int.le_refl _⟩
      omega
    · exact a2 p (by omega) (by omega) (by omega)

/-- the assertion on the minimum of a superblock passes only if no position of it has negative excess -/
theorem leafMin_prefix {rs : RSBitVector} {l : List Bool} (h : RSBitVector.Inv rs l) (hlen : l.length < 2^31) (mins : List Int)
    (hb : BMOK (exc l) l.length mins) (s : Nat) (hs : 8192*s < l.length) (m : Int)
    (hm : leafMin rs mins ((l.length+255)/256) s = some m) (p : Nat) (p1 : 8192*s ≤ p) (p2 : p ≤ 8192*(s+1)) (p3 : p ≤ l.length) : 0 ≤ exc l p := by
  unfold leafMin at hm
  simp only [Option.bind_eq_bind, Option.bind_eq_some_iff] at hm
  obtain ⟨e, he, cur, hc, _, ha, _⟩ := hm
  have hx : e = exc l (8192*s) := by
    have hnb := RSBitVector.nblocks_ge h
    unfold blockExcess at he
    simp only [] at he
    rw [RSBitVector.subBlockRank_eq h.tab (s*32*4) (by omega), bind_pure_some] at he
    have e1 : (2 * ((cnt (bitFn l) (64*(s*32*4)) : Nat) : Int) - (s*32*4*64 : Nat)) = exc l (8192*s) := by
      unfold exc excF; rw [show 64*(s*32*4) = 8192*s by omega]; push_cast; omega
    have h1 := excF_le (bitFn l) (8192*s)
    have h2 := excF_ge (bitFn l) (8192*s)
    simp only [e1] at he
    rw [toI32_eq _ (by simp only [exc]; omega) (by simp only [exc]; omega)] at he
    simp only [Option.bind_eq_bind, Option.bind_eq_some_iff] at he
    obtain ⟨_, _, he⟩ := he
    exact (Option.some.inj he).symm
  rw [hx] at hc
  obtain ⟨_, a2⟩ := superMinLoop_lower mins hb s _ _ _ _ (by omega) (by omega) (by omega) hc
  have := a2 p (by omega) (by omega) (by omega)
  have := (assertP_some ha).1
  omega

theorem leavesLoop_prefix {rs : RSBitVector} {l : List Bool} (h : RSBitVector.Inv rs l) (hlen : l.length < 2^31) (mins : List Int) (hb : BMOK (exc l) l.length mins) :
    ∀ (k s : Nat) (acc r : List Int), 8192*(s+k) < l.length + 8192 → leavesLoop rs mins ((l.length+255)/256) k s acc = some r →
      ∀ t, s ≤ t → t < s + k → ∀ p, 8192*t ≤ p → p ≤ 8192*(t+1) → p ≤ l.length → 0 ≤ exc l p := by
  intro k
  induction k with
  | zero => intro s acc r _ _ t h1 h2; omega
  | succ k ih =>
    intro s acc r hk hr t h1 h2
    unfold leavesLoop at hr
    rw [Option.bind_eq_bind, Option.bind_eq_some_iff] at hr
    obtain ⟨m, hm, hr⟩ := hr
    rcases Nat.eq_or_lt_of_le h1 with hh | hh
    · subst hh; exact leafMin_prefix h hlen mins hb s (by omega) m hm
    · exact ih (s+1) _ r (by omega) hr t hh (by omega)

theorem build_prefix (l : List Bool) (a b : Bool) (hlen : l.length < 2^31) (v : BpVector) (hv : build (BitVector.ofRange l) a b = some v) :
    ∀ p, p ≤ l.length → 0 ≤ exc l p := by
  obtain ⟨rs, e, hbv, h⟩ := RSBitVector.build_inv l a b
  unfold build at hv
  rw [e, bind_pure_some] at hv
  unfold buildMinTree at hv
  rw [h.rep.size] at hv
  intro p hp
  by_cases h0 : l.length = 0
  · rw [show p = 0 by omega]; simp [exc, excF]
  rw [if_neg h0] at hv
  have hE : exc l = excF (wbit rs.bv.bits) := by
    rw [show wbit rs.bv.bits = bitFn l from funext h.rep.repr.bit]
  have hl := h.rep.len
  obtain ⟨mins, e1, b1⟩ := blockMins_spec rs.bv.bits l.length hl hE (by omega)
  have e2 : (rs.bv.bits.length + 4 - 1)/4 = (l.length+255)/256 := by omega
  have e3 : ((l.length+255)/256 + 32 - 1)/32 = (l.length+8191)/8192 := by omega
  rw [e1, bind_pure_some] at hv
  simp only [e2, e3, Option.bind_eq_bind, Option.bind_eq_some_iff] at hv
  obtain ⟨_, _, N, _, leaves, hL, _⟩ := hv
  exact leavesLoop_prefix h hlen mins b1 _ 0 [] leaves (by omega) hL ((p-1)/8192) (by omega) (by omega) p (by omega) (by omega) hp

end BpVector

/-- **C72**: the assertions of the constructor decide exactly whether some prefix closes more than it opens. -/
theorem C72_accepts (l : List Bool) (hints hints0 : Bool) (hlen : l.length < 2^31 - 64) :
    (∃ v, BpVector.build (BitVector.ofRange l) hints hints0 = some v) ↔ ∀ p, p ≤ l.length → 0 ≤ Spec.excess l p := by
  refine ⟨fun ⟨v, hv⟩ p hp => ?_, fun h => ?_⟩
  · rw [spec_excess_eq l p hp]; exact BpVector.build_prefix l hints hints0 (by omega) v hv p hp
  · exact C34_build l hints hints0 (by omega) h

/-- `())(` has a prefix closing too much, though it opens as many as it closes; `(()` is accepted -/
example : BpVector.build (BitVector.ofRange [true, false, false, true]) true true = none ∧
    (BpVector.build (BitVector.ofRange [true, true, false]) true true).isSome = true := by decide +kernel

end Succinct
