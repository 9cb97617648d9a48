import Verif.Lemmas.MachineBpBuild
import Verif.Lemmas.MachineBpRmq
import Verif.Lemmas.MachineBuilder
import Verif.Lemmas.CartesianRmq

/-! # `cartesian_tree` in 64-bit arithmetic follows the model -/
namespace Succinct
namespace Machine
open Broadword
open Succinct.RSBitVector (bind_pure_some nblocks)

namespace CartesianBuilder
variable {α : Type}

/-- the builder in memory -/
def enc (s : Succinct.CartesianBuilder α) : CartesianBuilder α := ⟨s.stack, Builder.enc s.bp⟩

theorem pushBack_some {b b' : Succinct.Builder} {x : Bool} (h : b.pushBack x = some b') : (Builder.enc b).pushBack x = some (Builder.enc b') := by
  rw [Builder.pushBack_eq, h]; rfl

theorem popLoop_sim {comp : α → α → Bool} {val : α} : ∀ (st : List α) (b : Succinct.Builder) (r : List α × Succinct.Builder),
    Succinct.CartesianBuilder.popLoop comp val st b = some r → popLoop comp val st (Builder.enc b) = some (r.1, Builder.enc r.2)
  | [], b, r, h => by
    simp only [Succinct.CartesianBuilder.popLoop, Option.some.injEq] at h
    subst h; rfl
  | top :: rest, b, r, h => by
    unfold Succinct.CartesianBuilder.popLoop at h
    unfold popLoop
    by_cases hc : comp val top = true
    · rw [if_pos hc] at h ⊢
      simp only [Option.bind_eq_bind, Option.bind_eq_some_iff] at h
      obtain ⟨b1, h1, h⟩ := h
      rw [pushBack_some h1, bind_pure_some]
      exact popLoop_sim rest b1 r h
    · rw [if_neg hc] at h ⊢
      rw [← Option.some.inj h]

theorem pushBack_sim {comp : α → α → Bool} {s r : Succinct.CartesianBuilder α} {val : α} (h : s.pushBack comp val = some r) :
    pushBack comp (enc s) val = some (enc r) := by
  unfold Succinct.CartesianBuilder.pushBack at h
  unfold pushBack
  simp only [Option.bind_eq_bind, Option.bind_eq_some_iff] at h
  obtain ⟨b, h1, st, h2, h⟩ := h
  rw [show (enc s).bp = Builder.enc s.bp from rfl, pushBack_some h1, bind_pure_some, show (enc s).stack = s.stack from rfl,
    popLoop_sim _ _ _ h2, bind_pure_some]
  simp only [pure, Option.some.injEq] at h ⊢
  rw [← h]; rfl

theorem pushAll_sim {comp : α → α → Bool} : ∀ (v : List α) (s r : Succinct.CartesianBuilder α),
    Succinct.CartesianBuilder.pushAll comp v s = some r → pushAll comp v (enc s) = some (enc r)
  | [], s, r, h => by
    simp only [Succinct.CartesianBuilder.pushAll, Option.some.injEq] at h
    subst h; rfl
  | x :: v, s, r, h => by
    unfold Succinct.CartesianBuilder.pushAll at h
    simp only [Option.bind_eq_bind, Option.bind_eq_some_iff] at h
    obtain ⟨s1, h1, h⟩ := h
    unfold pushAll
    rw [pushBack_sim h1, bind_pure_some]
    exact pushAll_sim v s1 r h

theorem drainLoop_sim : ∀ (st : List α) (b r : Succinct.Builder),
    Succinct.CartesianBuilder.drainLoop st b = some r → drainLoop st (Builder.enc b) = some (Builder.enc r)
  | [], b, r, h => by
    simp only [Succinct.CartesianBuilder.drainLoop, Option.some.injEq] at h
    subst h; rfl
  | _ :: st, b, r, h => by
    unfold Succinct.CartesianBuilder.drainLoop at h
    simp only [Option.bind_eq_bind, Option.bind_eq_some_iff] at h
    obtain ⟨b1, h1, h⟩ := h
    unfold drainLoop
    rw [pushBack_some h1, bind_pure_some]
    exact drainLoop_sim st b1 r h

theorem finalize_sim {s : Succinct.CartesianBuilder α} {r : Succinct.Builder} (h : s.finalize = some r) :
    (enc s).finalize = some (Builder.enc r) := by
  unfold Succinct.CartesianBuilder.finalize at h
  unfold finalize
  simp only [Option.bind_eq_bind, Option.bind_eq_some_iff] at h
  obtain ⟨b, h1, b2, h2, b3, h3, h⟩ := h
  rw [show (enc s).bp = Builder.enc s.bp from rfl, pushBack_some h1, bind_pure_some, show (enc s).stack = s.stack from rfl,
    drainLoop_sim _ _ _ h2, bind_pure_some, pushBack_some h3, bind_pure_some, Builder.reverse_eq, h]
  rfl

end CartesianBuilder

namespace CartesianTree

/-- the tree in memory -/
def enc (t : Succinct.CartesianTree) : CartesianTree := ⟨BpVector.enc t.bp⟩

theorem build_sim {α : Type} (comp : α → α → Bool) (v : List α) (hv : v.length < 2^30 - 1) :
    ∃ t, Succinct.CartesianTree.build comp v = some t ∧ build comp v = some (enc t) ∧
      t.bp.rs.bv = Succinct.BitVector.ofRange (Cart.fin comp v) ∧ Succinct.BpVector.Inv t.bp (Cart.fin comp v) ∧
      BpVector.Small t.bp (Cart.fin comp v) := by
  have hlen := Cart.fin_length comp v
  obtain ⟨s, e, h⟩ := Succinct.CartesianBuilder.new_ok (α := α) 0 false
  obtain ⟨s1, e1, h1⟩ := Succinct.CartesianBuilder.pushAll_ok comp v s _ h
  obtain ⟨b, e2, i⟩ := Succinct.CartesianBuilder.finalize_spec comp v s1 h1
  obtain ⟨bv, e3, r⟩ := Succinct.BitVector.ofBuilder_rep b _ i
  have hg := (Cart.fin_dyck comp v).good (by omega)
  obtain ⟨w, e4, hw, hi⟩ := Succinct.BpVector.build_inv (Cart.fin comp v) false true hg
  obtain ⟨m4, hs⟩ := BpVector.build_sim (by omega) false true e4
  have hbs : b.size = 2 * v.length + 2 := by rw [i.size, hlen]
  have hbl : b.bits.length < 2^64 := by rw [i.len]; omega
  have m0 : (CartesianBuilder.new : Option (CartesianBuilder α)) = some (CartesianBuilder.enc s) := by
    have h0 : Succinct.Builder.new 0 false = some s.bp ∧ s.stack = [] := by
      unfold Succinct.CartesianBuilder.new at e
      simp only [Option.bind_eq_bind, Option.bind_eq_some_iff] at e
      obtain ⟨b0, k1, k2⟩ := e
      rw [if_neg (by simp)] at k2
      rw [k1, ← Option.some.inj k2]
      exact ⟨rfl, rfl⟩
    unfold CartesianBuilder.new CartesianBuilder.enc
    rw [show (0 : Word) = W 0 from rfl, Builder.new_eq 0 false (by omega), h0.1, h0.2]; rfl
  have m3 : BitVector.ofBuilder (Builder.enc b) = some (BitVector.enc (Succinct.BitVector.ofRange (Cart.fin comp v))) := by
    rw [BitVector.ofBuilder_eq b (by omega) hbl, e3, ← BitVector.eq_ofRange r]; rfl
  refine ⟨⟨w⟩, ?_, ?_, hw, hi, hs⟩
  · unfold Succinct.CartesianTree.build Succinct.CartesianTree.ofBuilder
    rw [e, bind_pure_some, e1, bind_pure_some, e2, bind_pure_some, e3, bind_pure_some, BitVector.eq_ofRange r, e4]; rfl
  · unfold build
    rw [m0, bind_pure_some, CartesianBuilder.pushAll_sim _ _ _ e1, bind_pure_some, CartesianBuilder.finalize_sim e2, bind_pure_some,
      m3, bind_pure_some, m4]; rfl

variable {t : Succinct.CartesianTree} {l : List Bool}

theorem select0_some (h : BpVector.Small t.bp l) {n r : Nat} (hr : t.bp.rs.select0 n = some r) (hn : n < 2^64) :
    RSBitVector.select0 (enc t).bp.rs (W n) = some (W r) := by
  have := RSBitVector.select0_eq h.rs h.len (W n)
  rw [W_toNat _ hn, hr] at this
  exact this

theorem select0_le (h : BpVector.Small t.bp l) {n r : Nat} (hr : t.bp.rs.select0 n = some r) : r ≤ l.length := by
  have h0 := hr
  unfold Succinct.RSBitVector.select0 at h0
  rw [Succinct.RSBitVector.numZeros_eq h.rs, bind_pure_some] at h0
  simp only [Option.bind_eq_bind, Option.bind_eq_some_iff] at h0
  obtain ⟨_, h1, _⟩ := h0
  obtain ⟨p, e1, e2, _⟩ := Succinct.RSBitVector.select0_eq h.rs n (assert_of h1)
  rw [hr] at e1
  rw [Option.some.inj e1]; omega

theorem ofInt_sub (w : Nat) (e : Int) (h : 0 ≤ (w : Int) - e) : W w - BitVec.ofInt 64 e = W ((w : Int) - e).toNat := by
  apply BitVec.eq_of_toInt_eq
  have e1 : ∀ n : Nat, (W n).toInt = (n : Int).bmod (2^64) := fun n => BitVec.toInt_ofNat n
  rw [BitVec.toInt_sub, BitVec.toInt_ofInt, e1, e1, Int.toNat_of_nonneg h]
  simp

theorem rmq_sim (h : BpVector.Small t.bp l) (hl : l.length < 2^62) {a b r : Nat} (ha : a < 2^62) (hb : b < 2^62) (hr : t.rmq a b = some r)
    (hexc : ∀ x y w e, y ≤ l.length → t.bp.excessRmq x y = some (w, e) → w ≤ l.length ∧ -2^62 < e) :
    (enc t).rmq (W a) (W b) = some (W r) := by
  have hsz : t.bp.rs.bv.size = l.length := h.rs.rep.size
  unfold Succinct.CartesianTree.rmq at hr
  unfold rmq
  simp only [Option.bind_eq_bind, Option.bind_eq_some_iff] at hr
  obtain ⟨_, h1, hr⟩ := hr
  have hab := assert_of h1
  rw [assert_yes (show W a ≤ W b by wn), bind_pure_some]
  have c1 : (W a = W b) ↔ a = b := W_inj _ _ (by omega) (by omega)
  by_cases hc : a = b
  · rw [if_pos hc] at hr
    rw [if_pos (c1.2 hc)]
    simp only [pure, Option.some.injEq] at hr ⊢
    rw [hr]
  · rw [if_neg hc] at hr
    rw [if_neg (fun c => hc (c1.1 c))]
    unfold Succinct.CartesianTree.rmqDistinct Succinct.CartesianTree.size Succinct.CartesianTree.rank0At Succinct.CartesianTree.pick at hr
    simp only [Option.bind_eq_bind, Option.bind_eq_some_iff] at hr
    obtain ⟨n, k1, nb, k2, nb1, k3, tp, k4, excT1, k5, e, k6, _, k7, x, k8, na, k9, y, k10, ⟨w, excW⟩, k11, rank0, ⟨_, k12, k12'⟩, w1, k13,
      bit, k14, _, k15, ret, k16, _, k17, _, k18, hr⟩ := hr
    obtain ⟨n1, n2⟩ := subU_of k1
    obtain ⟨nb1', nb2⟩ := subU_of k2
    obtain ⟨nb3, nb4⟩ := subU_of k3
    obtain ⟨na1, na2⟩ := subU_of k9
    obtain ⟨w2, w3⟩ := subU_of k13
    have htp := BpVector.excess_le h k6
    have hy : y ≤ l.length := select0_le h k10
    simp only [] at k11 k12 k12' k13 k16 w2 w3
    obtain ⟨hw, he⟩ := hexc _ _ _ _ hy k11
    have hge := assert_of k12
    have e1 : (enc t).size = W n := by
      show W t.bp.rs.bv.size / 2 - 1 = _
      wn
    have e2 : W n - W b = W nb := by rw [nb2, W_sub _ _ nb1']
    have e3 : W nb - 1 = W nb1 := by rw [nb4, W_sub nb 1 nb3]; rfl
    have e4 : W n - W a = W na := by rw [na2, W_sub _ _ na1]
    have e5 : s32 (W tp - 2 * W nb1) = toI32 ((tp : Int) - 2 * nb1) := by
      apply s32_of; simp only [bitvec_to_nat, Nat.reducePow, Nat.reduceMod]; omega
    have e6 : W tp + 1 = W (tp + 1) := (W_add _ _).symm
    have e7 : W w - 1 = W w1 := by rw [w3, W_sub w 1 w2]; rfl
    simp only [pure, Option.some.injEq] at k12'
    have e8 : (W w - BitVec.ofInt 64 excW) / 2 = W rank0 := by
      rw [ofInt_sub _ _ hge, ← k12']
      generalize hz : ((w : Int) - excW).toNat = z
      wn
    have hra := assert_of k17
    have hrb := assert_of k18
    have e9 : (if excW ≥ excT1 then W b else W n - W rank0) = W ret := by
      by_cases hd : excW ≥ excT1
      · rw [if_pos hd] at k16 ⊢; rw [Option.some.inj k16]
      · rw [if_neg hd] at k16 ⊢
        obtain ⟨r1, r2⟩ := subU_of k16
        rw [r2, W_sub _ _ r1]
    simp only [e1, e2, e3, e4]
    rw [select0_some h k4 (by omega), bind_pure_some]
    simp only [e5, e6]
    rw [k5, bind_pure_some, show (enc t).bp.excess (W (tp + 1)) = some e from BpVector.excess_sim h k6, bind_pure_some, k7, bind_pure_some,
      select0_some h k8 (by omega), bind_pure_some, select0_some h k10 (by omega), bind_pure_some,
      show (enc t).bp.excessRmq (W x) (W y) = some (W w, excW) from BpVector.excessRmq_sim h hy k11, bind_pure_some]
    simp only [e7, e8, e9]
    rw [show BitVector.access (enc t).bp.rs.bv (W w1) = some bit from (BpVector.access_sim h k14).1, bind_pure_some, k15, bind_pure_some,
      assert_yes (show W ret ≥ W a by wn), bind_pure_some, assert_yes (show W ret ≤ W b by wn), bind_pure_some]
    simp only [pure, Option.some.injEq] at hr ⊢
    rw [hr]

end CartesianTree
end Machine
end Succinct
