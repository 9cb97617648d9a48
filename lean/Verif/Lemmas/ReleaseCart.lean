import Mathlib.Tactic.ByContra
import Verif.Model.ReleaseCart
import Verif.Lemmas.MachineCart
import Verif.Lemmas.ReleaseBp
import Verif.Lemmas.ReleaseRmq

/-! `cartesian_tree` with assertions compiled out. -/
namespace Succinct
open Spec
open BpVector (exc)
open RSBitVector (bind_pure_some)
open Machine (W)

namespace Release
open Cart
variable {α : Type} (comp : α → α → Bool)

theorem mReverse_below (b : Machine.Builder) : Below b.reverse (mReverse b) := by
  unfold Machine.Builder.reverse mReverse
  exact Below.keep fun p => Below.drop fun _ => Below.rfl

theorem cartFinalize_below (s : Machine.CartesianBuilder α) : Below s.finalize (cartFinalize s) := by
  unfold Machine.CartesianBuilder.finalize cartFinalize
  exact Below.keep fun b => Below.keep fun b => Below.keep fun b => mReverse_below b

theorem cartBuild_below (v : List α) : Below (Machine.CartesianTree.build comp v) (cartBuild comp v) := by
  unfold Machine.CartesianTree.build cartBuild
  refine Below.keep fun s => Below.keep fun s => Below.bind (cartFinalize_below s) fun b => ?_
  intro r hr
  simp only [Option.bind_eq_bind, Option.bind_eq_some_iff] at hr ⊢
  obtain ⟨bv, h1, t, h2, h3⟩ := hr
  unfold Machine.BitVector.ofBuilder at h1
  simp only [Option.bind_eq_bind, Option.bind_eq_some_iff] at h1
  obtain ⟨_, _, h1⟩ := h1
  obtain rfl := Option.some.inj h1
  exact ⟨t, bpBuild_below _ _ _ _ h2, h3⟩

/-- the sequence of parentheses, as long as it fits -/
theorem cart_bits (v : List α) (hv : v.length < 2^60) :
    ∃ s b, (Machine.CartesianBuilder.new : Option (Machine.CartesianBuilder α)) >>= Machine.CartesianBuilder.pushAll comp v = some s ∧
      s.finalize = some b ∧ Machine.BitVector.ofBuilder b = some (Machine.BitVector.enc (BitVector.ofRange (fin comp v))) := by
  have hlen := Cart.fin_length comp v
  obtain ⟨s, e, h⟩ := Succinct.CartesianBuilder.new_ok (α := α) 0 false
  obtain ⟨s1, e1, h1⟩ := Succinct.CartesianBuilder.pushAll_ok comp v s _ h
  obtain ⟨b, e2, i⟩ := Succinct.CartesianBuilder.finalize_spec comp v s1 h1
  obtain ⟨bv, e3, r⟩ := Succinct.BitVector.ofBuilder_rep b _ i
  have hbs : b.size = 2 * v.length + 2 := by rw [i.size, hlen]
  have hbl : b.bits.length < 2^64 := by rw [i.len]; omega
  have m0 : (Machine.CartesianBuilder.new : Option (Machine.CartesianBuilder α)) = some (Machine.CartesianBuilder.enc s) := by
    have h0 : Succinct.Builder.new 0 false = some s.bp ∧ s.stack = [] := by
      unfold Succinct.CartesianBuilder.new at e
      simp only [Option.bind_eq_bind, Option.bind_eq_some_iff] at e
      obtain ⟨b0, k1, k2⟩ := e
      rw [if_neg (by simp)] at k2
      rw [k1, ← Option.some.inj k2]
      exact ⟨rfl, rfl⟩
    unfold Machine.CartesianBuilder.new Machine.CartesianBuilder.enc
    rw [show (0 : Word) = W 0 from rfl, Machine.Builder.new_eq 0 false (by omega), h0.1, h0.2]; rfl
  refine ⟨_, _, ?_, Machine.CartesianBuilder.finalize_sim e2, ?_⟩
  · rw [m0, bind_pure_some, Machine.CartesianBuilder.pushAll_sim _ _ _ e1]
  · rw [Machine.BitVector.ofBuilder_eq b (by omega) hbl, e3, ← BitVector.eq_ofRange r]; rfl

theorem toI32_neg (n : Nat) (h1 : 2^31 ≤ n) (h2 : n < 2^32) : toI32 n < 0 := by
  unfold toI32
  rw [Int.bmod_def]
  split <;> omega

theorem cart_mild (v : List α) (hv : v.length < 2^31 - 65) : BpVector.Mild (fin comp v) := by
  have hlen := Cart.fin_length comp v
  have hd := Cart.fin_dyck comp v
  refine ⟨hd.nonneg, fun q hq => ?_, by omega⟩
  have h1 := cnt_mono (bitFn (fin comp v)) hq
  have h2 := count_eq_cnt (fin comp v)
  have h3 := (fin_counts comp v).2
  have h4 := cnt_le (bitFn (fin comp v)) q
  have h5 : exc (fin comp v) q = 2 * (cnt (bitFn (fin comp v)) q : Int) - (q : Nat) := rfl
  omega

/-- the tree of `2^30 - 1` values or more -/
theorem cartBuild_const (v : List α) (h1 : 2^30 - 1 ≤ v.length) (h2 : v.length < 2^31 - 65) :
    Machine.CartesianTree.build comp v = none ∧
    ∃ t H, cartBuild comp v = some (Machine.CartesianTree.enc t) ∧ BpVector.Inv0 t.bp (fin comp v) ∧ Machine.BpVector.Small t.bp (fin comp v) ∧
      BpVector.ConstTree t.bp (fin comp v) (toI32 (fin comp v).length) H := by
  have hlen := Cart.fin_length comp v
  obtain ⟨s, b, e1, e2, e3⟩ := cart_bits comp v (by omega)
  have hneg := toI32_neg (fin comp v).length (by omega) (by omega)
  have e4 := build_negative (l := fin comp v) (by omega) (by omega) hneg false true
  obtain ⟨w, H, e5, hi, hs, ht⟩ := bpBuild_const (cart_mild comp v h2) (by omega) (by omega) (by omega) false true
  have hb : (⟨b.size, b.bits⟩ : Machine.BitVector) = Machine.BitVector.enc (BitVector.ofRange (fin comp v)) := by
    unfold Machine.BitVector.ofBuilder at e3
    simp only [Option.bind_eq_bind, Option.bind_eq_some_iff] at e3
    obtain ⟨_, _, e3⟩ := e3
    exact Option.some.inj e3
  simp only [Option.bind_eq_bind, Option.bind_eq_some_iff] at e1
  obtain ⟨s0, k1, k2⟩ := e1
  refine ⟨?_, ⟨w⟩, H, ?_, hi, hs, ht⟩
  · unfold Machine.CartesianTree.build
    rw [k1, bind_pure_some, k2, bind_pure_some, e2, bind_pure_some, e3, bind_pure_some, e4]; rfl
  · unfold cartBuild
    rw [k1, bind_pure_some, k2, bind_pure_some, cartFinalize_below _ _ e2, bind_pure_some, hb, e5]; rfl

variable {t : CartesianTree} {v : List α}

theorem select0_z0 (hi : BpVector.Inv0 t.bp (fin comp v)) (i : Nat) (h : i ≤ v.length) :
    t.bp.rs.select0 (v.length - i) = some (z comp v i) := by
  have hc := fin_counts comp v
  have hl := fin_length comp v
  obtain ⟨p, e, p1, p2, p3⟩ := RSBitVector.select0_eq hi.rs (v.length - i) (by rw [← count_eq_cnt]; omega)
  rw [e]; congr 1
  apply sel_unique (f := fun p => !bitFn (fin comp v) p)
  · simp [p2]
  · simp [z_bit comp v i h]
  · rw [p3, z_cnt comp v i h]

/-- the answer in terms of the positions that are looked at -/
theorem cartRmq_const (h2 : v.length < 2^31 - 65) (hi : BpVector.Inv0 t.bp (fin comp v)) (hs : Machine.BpVector.Small t.bp (fin comp v))
    {S : Int} {H : Nat} (ht : BpVector.ConstTree t.bp (fin comp v) S H) (hS : S ≤ 0) (a b : Nat) (hab : a < b) (hb : b < v.length) :
    ∃ w k, a ≤ k ∧ k < b ∧ z comp v (k+1) < w ∧ w ≤ z comp v k ∧ ¬ BpVector.Skipped (z comp v b) (z comp v a) w ∧
      (∀ q, z comp v b ≤ q → q ≤ z comp v a → ¬ BpVector.Skipped (z comp v b) (z comp v a) q → exc (fin comp v) w ≤ exc (fin comp v) q) ∧
      (∀ q, z comp v b ≤ q → q < w → ¬ BpVector.Skipped (z comp v b) (z comp v a) q → exc (fin comp v) w < exc (fin comp v) q) ∧
      cartRmq (Machine.CartesianTree.enc t) (W a) (W b) =
        some (W (if exc (fin comp v) w ≥ (stk comp v (b+1)).length then b else k)) := by
  have hg := cart_mild comp v h2
  have hl := fin_length comp v
  have hsz : t.bp.rs.bv.size = (fin comp v).length := hi.rs.rep.size
  have hzab := z_mono comp v a b (by omega) (by omega)
  have hza := z_lt comp v a (by omega)
  have hzt := z_lt comp v (b+1) (by omega)
  obtain ⟨w, e, he, w1, w2, w3, w4, w5, w6⟩ := BpVector.excessRmq_const hi hg ht hS (z comp v b) (z comp v a) (by omega) (by omega)
  subst w4
  obtain ⟨zb1, zb2⟩ := z_exc comp v b (by omega)
  have hwb : z comp v b < w := by
    rcases Nat.lt_or_ge (z comp v b) w with g | g
    · exact g
    · have : w = z comp v b := by omega
      subst this
      have := w5 (z comp v b + 1) (by omega) (by omega) (by unfold BpVector.Skipped; omega)
      omega
  obtain ⟨k, k1, k2, k3, k4⟩ := z_between comp v a b (by omega) (by omega) w hwb w2
  refine ⟨w, k, k1, k2, k3, k4, w3, w5, w6, ?_⟩
  obtain ⟨zt1, zt2⟩ := z_exc comp v (b+1) (by omega)
  obtain ⟨zk1, zk2⟩ := z_exc comp v (k+1) (by omega)
  have hones := (z_succ comp v k (by omega)).2
  have hcz := z_cnt comp v (b+1) (by omega)
  have hcz2 := z_cnt comp v (k+1) (by omega)
  have hew : exc (fin comp v) w = (stk comp v (k+1)).length + (w - (z comp v (k+1) + 1) : Nat) := by
    have h4 := excF_true (f := bitFn (fin comp v)) (show z comp v (k+1) + 1 ≤ w by omega) (fun i i1 i2 => hones i (by omega) (by omega))
    simp only [exc] at *
    omega
  have hsl : ∀ i, i ≤ v.length → (stk comp v i).length ≤ i := fun i hi => by have := (counts comp v i hi).2; omega
  have hsb := hsl (b+1) (by omega)
  have hexc : ((z comp v (b+1) : Nat) : Int) - 2 * ((v.length - (b+1) : Nat) : Int) = exc (fin comp v) (z comp v (b+1)) := by
    rw [cnt_not] at hcz
    unfold exc excF
    have := cnt_le (bitFn (fin comp v)) (z comp v (b+1))
    omega
  have hexck : ((z comp v (k+1) : Nat) : Int) - 2 * ((v.length - (k+1) : Nat) : Int) = exc (fin comp v) (z comp v (k+1)) := by
    rw [cnt_not] at hcz2
    unfold exc excF
    have := cnt_le (bitFn (fin comp v)) (z comp v (k+1))
    omega
  have h32 : toI32 (exc (fin comp v) (z comp v (b+1))) = exc (fin comp v) (z comp v (b+1)) := toI32_eq _ (by omega) (by omega)
  have e1 : (Machine.CartesianTree.enc t).size = W v.length := by
    show W t.bp.rs.bv.size / 2 - 1 = _
    rw [hsz, hl]
    wn
  have e2 : W v.length - W b = W (v.length - b) := (Machine.W_sub _ _ (by omega)).symm
  have e3 : W (v.length - b) - 1 = W (v.length - (b + 1)) := by
    rw [show v.length - (b+1) = (v.length - b) - 1 by omega, Machine.W_sub (v.length - b) 1 (by omega)]; rfl
  have e4 : W v.length - W a = W (v.length - a) := (Machine.W_sub _ _ (by omega)).symm
  have e5 : Machine.s32 (W (z comp v (b+1)) - 2 * W (v.length - (b+1))) = exc (fin comp v) (z comp v (b+1)) := by
    rw [← h32, ← hexc]
    apply Machine.s32_of; simp only [bitvec_to_nat, Nat.reducePow, Nat.reduceMod]; omega
  have e6 : (W w - BitVec.ofInt 64 (exc (fin comp v) w)) / 2 = W (v.length - k) := by
    rw [Machine.CartesianTree.ofInt_sub _ _ (by omega), show ((w : Int) - exc (fin comp v) w).toNat = 2 * (v.length - k) by omega]
    wn
  have e7 : W v.length - W (v.length - k) = W k := by
    rw [← Machine.W_sub _ _ (by omega), show v.length - (v.length - k) = k by omega]
  have hne : W a ≠ W b := fun c => by
    have := (Machine.W_inj a b (by omega) (by omega)).1 c
    omega
  have hq : excessRmq (Machine.CartesianTree.enc t).bp (W (z comp v b)) (W (z comp v a)) = some (W w, exc (fin comp v) w) :=
    excessRmq_below _ _ _ _ (Machine.BpVector.excessRmq_sim hs (by omega) he)
  unfold cartRmq
  rw [if_neg hne]
  simp only [e1, e2, e3, e4]
  rw [rsSelect0_below _ _ _ (Machine.CartesianTree.select0_some hs (select0_z0 comp hi (b+1) (by omega)) (by omega)), bind_pure_some,
    rsSelect0_below _ _ _ (Machine.CartesianTree.select0_some hs (select0_z0 comp hi b (by omega)) (by omega)), bind_pure_some,
    rsSelect0_below _ _ _ (Machine.CartesianTree.select0_some hs (select0_z0 comp hi a (by omega)) (by omega)), bind_pure_some,
    hq, bind_pure_some]
  simp only [e5, e6, e7]
  rw [zt1, Int.add_sub_cancel, show i32 ((stk comp v (b+1)).length : Int) = some ((stk comp v (b+1)).length : Int) by
    unfold i32; rw [if_pos (by omega)], bind_pure_some]
  show some _ = some _
  congr 1
  split <;> rfl

end Release
end Succinct
