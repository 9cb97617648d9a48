import Verif.Lemmas.ReleaseBpFind
import Verif.Props.Release
import Verif.Props.ReleaseRmq
import Verif.Props.Tests
import Verif.Props.Tree

/-! # C111: `bp_vector` of `2^31` bits or more, with assertions compiled out

From `2^31` bits on the size is negative as an `excess_t`.  With assertions such a sequence cannot be built (C50).  Without them the constructor
fills the tree with that negative number; here is what the queries then do. -/
namespace Succinct
open Spec
open Machine (W)

/-- after some time the call has read outside the arrays -/
def Fails {α : Type} (f : Nat → Outcome α) : Prop := ∃ n, ∀ fuel, n ≤ fuel → f fuel = .undefined

/-- the positions that `excess_rmq(a, b)` looks at when the tree is of no use: up to the end of the superblock after that of `a`,
and from the start of the superblock of `b` on -/
def Seen (a b q : Nat) : Prop := q ≤ 8192 * ((a / 256 + 1) / 32 + 2) ∨ 8192 * ((b - 1) / 8192) ≤ q

/-- **C111**: what the constructor with assertions makes, the constructor without them makes too. -/
theorem C111_same_object (bv : Machine.BitVector) (hints hints0 : Bool) (v : Machine.BpVector)
    (h : Machine.BpVector.build bv hints hints0 = some v) : Release.bpBuild bv hints hints0 = some v :=
  Release.bpBuild_below bv hints hints0 v h

example : ∃ v, Release.bpBuild (Machine.BitVector.enc (BitVector.ofRange [true, true, false, false])) false false = some v ∧
    v.blockMin = [0] ∧ v.superMin = [4, 0] := by
  exact ⟨_, C111_same_object _ _ _ _ (by decide +kernel : _ = some (⟨⟨⟨4, [3]⟩, [0, 0x0080402010080402, 2, 0], [], []⟩, 1, [0], [4, 0]⟩ : Machine.BpVector)), rfl, rfl⟩

/-- **C111**: a balanced sequence of `2^31` to `2^32 - 1` bits.  The constructor, which rejects it when assertions are compiled in, succeeds.  `find_close`
is right if the other parenthesis is no further away than in the superblock after that of the next block, `find_open` and `enclose` likewise in the
other direction; otherwise they read outside the arrays.  `excess_rmq` always answers, but ignores the superblocks in the middle of the range. -/
theorem C111_large (ov : Word → Nat → Word) (p : Prog) (l : List Bool) (h : p.spec = some l) (hr : p.ReserveAligned) (hl : Bal l)
    (h31 : 2^31 ≤ l.length) (h32 : l.length < 2^32) (hexc : ∀ q, q ≤ l.length → Spec.excess l q < 2^31 - 64) (hints hints0 : Bool) :
    ∃ bv v, Machine.history p = some bv ∧ Machine.BpVector.build bv hints hints0 = none ∧ Release.bpBuild bv hints hints0 = some v ∧
      (∀ q : Word, q.toNat ≤ l.length → Release.excess v q = some (Spec.excess l q.toNat)) ∧
      (∀ i j : Word, Matching l i.toNat j.toNat →
        (j.toNat / 8192 ≤ ((i.toNat + 1) / 256 + 1) / 32 + 1 → Returns (fun fuel => Release.findClose ov v fuel i) j) ∧
        (((i.toNat + 1) / 256 + 1) / 32 + 1 < j.toNat / 8192 → Fails (fun fuel => Release.findClose ov v fuel i))) ∧
      (∀ i j : Word, Matching l i.toNat j.toNat →
        ((j.toNat / 256 - 1) / 32 ≤ i.toNat / 8192 + 1 → Returns (fun fuel => Release.findOpen ov v fuel j) i) ∧
        (i.toNat / 8192 + 1 < (j.toNat / 256 - 1) / 32 → Fails (fun fuel => Release.findOpen ov v fuel j))) ∧
      (∀ i j p : Word, Matching l i.toNat j.toNat → IsEnclose l i.toNat j.toNat p.toNat →
        ((i.toNat / 256 - 1) / 32 ≤ p.toNat / 8192 + 1 → Returns (fun fuel => Release.enclose ov v fuel i) p) ∧
        (p.toNat / 8192 + 1 < (i.toNat / 256 - 1) / 32 → Fails (fun fuel => Release.enclose ov v fuel i))) ∧
      ∀ a b : Word, a.toNat ≤ b.toNat → b.toNat ≤ l.length →
        ∃ p, Release.excessRmq v a b = some (p, Spec.excess l p.toNat) ∧ a.toNat ≤ p.toNat ∧ p.toNat ≤ b.toNat ∧ Seen a.toNat b.toNat p.toNat ∧
          (∀ q, a.toNat ≤ q → q ≤ b.toNat → Seen a.toNat b.toNat q → Spec.excess l p.toNat ≤ Spec.excess l q) ∧
          ∀ q, a.toNat ≤ q → q < p.toNat → Seen a.toNat b.toNat q → Spec.excess l p.toNat < Spec.excess l q := by
  have hd := Bal.dyck hl
  have hsp := fun q (hq : q ≤ l.length) => spec_excess_eq l q hq
  have hg : BpVector.Mild l := ⟨hd.nonneg, fun q hq => by rw [← hsp q hq]; exact hexc q hq, by omega⟩
  have hneg : toI32 l.length < 0 := by
    unfold toI32
    rw [Int.bmod_def]
    split <;> omega
  obtain ⟨w, H, e, hi, hs, ht⟩ := Release.bpBuild_const hg (by omega) (by omega) (by omega) hints hints0
  refine ⟨_, _, Machine.history_eq p l h hr (by omega), ?_, e, fun q hq => ?_, fun i j hm => ?_, fun i j hm => ?_, fun i j p hm hp => ?_,
    fun a b hab hb => ?_⟩
  · exact Release.build_negative (by omega) (by omega) hneg hints hints0
  · have := Release.excess_of (Machine.BpVector.excess_sim hs (BpVector.excess_eq hi hg q.toNat hq))
    rw [Machine.W_of] at this
    rw [this, hsp _ hq]
  · obtain ⟨m1, m2, m3, m4, m5⟩ := (matching_iff l i.toNat j.toNat).1 hm
    have := fun fuel hf => Release.findClose_const ov hi hg ht hs hneg (by omega) h32 i.toNat j.toNat m1 m2 m3 m4 m5 fuel hf
    rw [Machine.W_of, Machine.W_of] at this
    exact ⟨fun hc => ⟨2^52+1, fun fuel hf => by dsimp only; rw [this fuel (by omega), if_pos hc]⟩,
      fun hc => ⟨2^52+1, fun fuel hf => by dsimp only; rw [this fuel (by omega), if_neg (by omega)]⟩⟩
  · obtain ⟨m1, m2, m3, m4, m5⟩ := (matching_iff l i.toNat j.toNat).1 hm
    have hbj : bitFn l j.toNat = false := by
      have := bitFn_getElem? l j.toNat m2; rw [hm.2.2.1] at this; simpa using this.symm
    have hEj : BpVector.exc l (j.toNat+1) = BpVector.exc l j.toNat - 1 := by
      have := excF_succ (bitFn l) j.toNat; rw [hbj] at this; simp at this; simp only [BpVector.exc]; omega
    have := fun fuel hf => Release.findOpen_const ov hi hg ht hs hneg (by omega) h32 j.toNat i.toNat m1 m2 (by omega)
      (fun q q1 q2 => by have := m5 q q1 q2; omega) fuel hf
    rw [Machine.W_of, Machine.W_of] at this
    exact ⟨fun hc => ⟨2^52+1, fun fuel hf => by dsimp only; rw [this fuel (by omega), if_pos hc]⟩,
      fun hc => ⟨2^52+1, fun fuel hf => by dsimp only; rw [this fuel (by omega), if_neg (by omega)]⟩⟩
  · obtain ⟨q, hq, hpi, hjq, hmax⟩ := hp
    obtain ⟨m1, m2, _⟩ := (matching_iff l i.toNat j.toNat).1 hm
    obtain ⟨p', ⟨q', hq', hpi', hjq', hmax'⟩, h2, h3, h4⟩ := exists_enclose hd hm hq hpi (by omega)
    have hpp : p' = p.toNat := by
      have := (hmax p' q' hq' hpi' hjq').1
      have := (hmax' p.toNat q hq hpi hjq).1
      omega
    subst hpp
    have := fun fuel hf => Release.findOpen_const ov hi hg ht hs hneg (by omega) h32 i.toNat p.toNat h2 (by omega) h3 h4 fuel hf
    rw [Machine.W_of, Machine.W_of] at this
    exact ⟨fun hc => ⟨2^52+1, fun fuel hf => by dsimp only [Release.enclose]; rw [this fuel (by omega), if_pos hc]⟩,
      fun hc => ⟨2^52+1, fun fuel hf => by dsimp only [Release.enclose]; rw [this fuel (by omega), if_neg (by omega)]⟩⟩
  · obtain ⟨p, m, e1, g1, g2, g3, g4, g5, g6⟩ := BpVector.excessRmq_const hi hg ht (by omega) a.toNat b.toNat hab hb
    have hseen : ∀ q, Seen a.toNat b.toNat q ↔ ¬ BpVector.Skipped a.toNat b.toNat q := fun q => by unfold Seen BpVector.Skipped; omega
    have := Release.excessRmq_below _ _ _ _ (Machine.BpVector.excessRmq_sim hs hb e1)
    rw [Machine.W_of, Machine.W_of] at this
    have hp : (W p).toNat = p := Machine.W_toNat _ (by omega)
    refine ⟨W p, ?_, ?_⟩
    · rw [this, hp, hsp p (by omega), g4]; rfl
    · rw [hp]
      refine ⟨g1, g2, (hseen p).2 g3, fun q q1 q2 q3 => ?_, fun q q1 q2 q3 => ?_⟩
      · rw [hsp p (by omega), hsp q (by omega), g4]; exact g5 q q1 q2 ((hseen q).1 q3)
      · rw [hsp p (by omega), hsp q (by omega), g4]; exact g6 q q1 q2 ((hseen q).1 q3)

/-- one `push_back` for each bit -/
def pushAll (l : List Bool) : Prog := l.foldl .pushBack (.new 0 false)

theorem pushAll_from (l : List Bool) : ∀ p m, p.spec = some m → p.ReserveAligned →
    (l.foldl Prog.pushBack p).spec = some (m ++ l) ∧ (l.foldl Prog.pushBack p).ReserveAligned := by
  induction l with
  | nil => intro p m h1 h2; simpa using ⟨h1, h2⟩
  | cons b l ih =>
    intro p m h1 h2
    have := ih (p.pushBack b) (m ++ [b]) (by simp only [Prog.spec]; rw [h1]; rfl) h2
    simpa using this

theorem pushAll_spec (l : List Bool) : (pushAll l).spec = some l := (pushAll_from l (.new 0 false) [] rfl trivial).1
theorem pushAll_aligned (l : List Bool) : (pushAll l).ReserveAligned := (pushAll_from l (.new 0 false) [] rfl trivial).2

/-- `(()()...())(()()...())`, with `n` pairs in each half -/
def twoTrees (n : Nat) : List Bool :=
  (true :: (List.replicate n [true, false]).flatten ++ [false]) ++ (true :: (List.replicate n [true, false]).flatten ++ [false])

theorem twoTrees_length (n : Nat) : (twoTrees n).length = 2 * (2 * n + 2) := by
  simp only [twoTrees, List.length_append, List.length_cons, List.length_nil, length_pairs]; omega

theorem twoTrees_bal (n : Nat) : Bal (twoTrees n) :=
  bal_append (Bal.node (b := []) (bal_pairs n) Bal.nil) (Bal.node (b := []) (bal_pairs n) Bal.nil)

theorem twoTrees_excess (n p : Nat) (hp : p ≤ 2 * (2 * n + 2)) :
    Spec.excess (twoTrees n) p = ((if p % (2 * n + 2) = 0 then 0 else 1 + (p % (2 * n + 2) - 1) % 2 : Nat) : Int) := by
  have hX : ∀ p, p ≤ 2*n + 2 → Spec.excess (true :: (List.replicate n [true, false]).flatten ++ [false]) p =
      ((if p % (2 * n + 2) = 0 then 0 else 1 + (p % (2 * n + 2) - 1) % 2 : Nat) : Int) := by
    intro p hp
    by_cases h0 : p = 0
    · subst h0; simp [Spec.excess]
    by_cases h1 : p = 2*n + 2
    · subst h1
      rw [Nat.mod_self, if_pos rfl]
      have hb : Bal (true :: (List.replicate n [true, false]).flatten ++ [false]) := Bal.node (b := []) (bal_pairs n) Bal.nil
      have hl : (true :: (List.replicate n [true, false]).flatten ++ [false]).length = 2*n+2 := by
        simp only [List.length_append, List.length_cons, List.length_nil, length_pairs]
      have := (Bal.dyck hb).zero
      rw [hl] at this
      rw [spec_excess_eq _ _ (by omega), this]; rfl
    · obtain ⟨q, rfl⟩ : ∃ q, p = q + 1 := ⟨p - 1, by omega⟩
      rw [Nat.mod_eq_of_lt (by omega), if_neg (by omega), List.cons_append, Spec.excess_cons, Spec.excess_append_left _ _ _ (by rw [length_pairs]; omega),
        excess_pairs n q (by omega)]
      simp
  have hl : (true :: (List.replicate n [true, false]).flatten ++ [false]).length = 2*n+2 := by
    simp only [List.length_append, List.length_cons, List.length_nil, length_pairs]
  unfold twoTrees
  by_cases h : p ≤ 2*n + 2
  · rw [Spec.excess_append_left _ _ _ (by omega), hX p h]
  · obtain ⟨q, rfl⟩ : ∃ q, p = (2*n+2) + q := ⟨p - (2*n+2), by omega⟩
    have h1 := exc_append_right (true :: (List.replicate n [true, false]).flatten ++ [false]) (true :: (List.replicate n [true, false]).flatten ++ [false]) q
    have h2 := hX (2*n+2) (Nat.le_refl _)
    have h3 := hX q (by omega)
    rw [Nat.mod_self, if_pos rfl, spec_excess_eq _ _ (by omega)] at h2
    rw [spec_excess_eq _ _ (by omega)] at h3
    rw [spec_excess_eq _ _ (by rw [List.length_append]; omega), Nat.add_mod_left, ← h3]
    rw [hl] at h1
    rw [h1, h2]
    omega

/-- **C111**: without assertions the queries are wrong.  The sequence consists of two trees of `2^30` bits each, of depth 2.  `find_close` of the first
root and `find_open` of its closing parenthesis read outside the arrays.  The least excess between 1 and `2^31 - 1` is 0, between the two trees, but
`excess_rmq` answers 1. -/
theorem C111_large_false (ov : Word → Nat → Word) (hints hints0 : Bool) :
    ∃ l, Bal l ∧ l.length = 2^31 ∧ (∀ q, q ≤ l.length → Spec.excess l q ≤ 2) ∧
      ∃ v, Release.bpBuild (Machine.BitVector.enc (BitVector.ofRange l)) hints hints0 = some v ∧
        Matching l 0 (2^30 - 1) ∧ Fails (fun fuel => Release.findClose ov v fuel 0) ∧ Fails (fun fuel => Release.findOpen ov v fuel 0x3fffffff) ∧
        Spec.excess l (2^30) = 0 ∧ Release.excessRmq v 1 0x7fffffff = some (1, 1) := by
  obtain ⟨n, hn⟩ : ∃ n, 2*n + 2 = 2^30 := ⟨536870911, by omega⟩
  have hlen := twoTrees_length n
  have hx := twoTrees_excess n
  have hb := twoTrees_bal n
  have hm : Matching (twoTrees n) 0 (2^30 - 1) := by
    have := TreeBp.matching_shape [] (List.replicate n [true, false]).flatten (true :: (List.replicate n [true, false]).flatten ++ [false]) (bal_pairs n)
    rw [length_pairs, List.length_nil, List.nil_append, show 0 + 2*n + 1 = 2^30 - 1 by omega] at this
    unfold twoTrees
    simpa using this
  generalize twoTrees n = l at *
  rw [hn] at hlen hx
  have hx2 : ∀ q, q ≤ l.length → Spec.excess l q ≤ 2 := fun q hq => by rw [hx q (by omega)]; split <;> omega
  obtain ⟨bv, v, h1, _, h3, _, hc, ho, _, hq⟩ := C111_large ov (pushAll l) l (pushAll_spec l) (pushAll_aligned l) hb (by omega) (by omega)
    (fun q hq => by have := hx2 q hq; omega) hints hints0
  have hbv := Machine.history_eq (pushAll l) l (pushAll_spec l) (pushAll_aligned l) (by omega)
  rw [hbv] at h1
  rw [← Option.some.inj h1] at h3
  refine ⟨l, hb, by omega, hx2, v, h3, hm, ?_, ?_, ?_, ?_⟩
  · exact (hc 0 0x3fffffff hm).2 (by decide)
  · exact (ho 0 0x3fffffff hm).2 (by decide)
  · rw [hx _ (by omega)]; rfl
  · obtain ⟨p, e, g1, g2, g3, g4, g5⟩ := hq 1 0x7fffffff (by decide) (by rw [hlen]; decide)
    have k1 : (1 : Word).toNat = 1 := rfl
    have k2 : (0x7fffffff : Word).toNat = 2^31 - 1 := rfl
    rw [k1, k2] at g3
    rw [k1] at g1 g5
    rw [k2] at g2 g5
    have h1 := hx 1 (by omega)
    have hpx := hx p.toNat (by omega)
    have h2 : (1 : Nat) % 2^30 = 1 := rfl
    rw [h2, if_neg (by omega)] at h1
    have hp1 : p.toNat = 1 := by
      by_contra hne
      have := g5 1 (by omega) (by omega) (Or.inl (by omega))
      rw [h1, hpx] at this
      unfold Seen at g3
      split at this
      · omega
      · omega
    have : p = 1 := BitVec.eq_of_toNat_eq hp1
    subst this
    rw [e, k1, h1]
    rfl

end Succinct
