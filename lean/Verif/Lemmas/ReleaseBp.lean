import Verif.Model.ReleaseBp
import Verif.Lemmas.BpConst
import Verif.Lemmas.MachineBpBuild
import Verif.Lemmas.ReleaseRmq
import Verif.Lemmas.ReleaseLoop

/-! Construction of a `bp_vector` with assertions compiled out. -/
namespace Succinct
namespace Release
open Broadword
open Machine (W W_add W_mul W_lt W_toNat at_ put s32 vlen)
open Machine.BpVector (Small enc put_mid)
open Succinct.RSBitVector (bind_pure_some)

/-! ## Where the assertions hold, the result is the same -/

theorem flushMin_of {mins r : List Int} {m : Int} (h : BpVector.flushMin mins m = some r) : flushMin mins m = r := by
  simp only [BpVector.flushMin, Option.bind_eq_bind, Option.bind_eq_some_iff] at h
  obtain ⟨_, h1, _, h2, h3⟩ := h
  have h1 := BpVector.assertP_some h1
  have h2 := BpVector.assertP_some h2
  rw [← Option.some.inj h3]
  unfold flushMin
  rw [Int.bmod_eq_of_le (by omega) (by omega)]

theorem blockStart_of {st r : BpVector.BlockState} {s : Word} (h : Machine.BpVector.blockStart st s = some r) : blockStart st s = r := by
  unfold Machine.BpVector.blockStart at h
  unfold blockStart
  split at h
  · rename_i h1
    rw [if_pos h1]
    dsimp only at h ⊢
    split at h
    · rename_i h2
      rw [if_pos h2]
      simp only [Option.bind_eq_bind, Option.bind_eq_some_iff] at h
      obtain ⟨m, h3, h4⟩ := h
      rw [flushMin_of h3]
      exact Option.some.inj h4
    · rename_i h2
      rw [if_neg h2]
      exact Option.some.inj h
  · rename_i h1
    rw [if_neg h1]
    exact Option.some.inj h

theorem blockLoop_below (bits : List Word) (size : Word) : ∀ (fuel : Nat) (s : Word) (st : BpVector.BlockState),
    Below (Machine.BpVector.blockLoop bits size fuel s st) (blockLoop bits size fuel s st) := by
  intro fuel
  induction fuel with
  | zero =>
    intro s st r h
    unfold Machine.BpVector.blockLoop at h
    unfold blockLoop
    exact h
  | succ fuel ih =>
    intro s st r h
    unfold Machine.BpVector.blockLoop at h
    unfold blockLoop
    split at h
    · rename_i h1
      rw [if_pos h1]
      simp only [Option.bind_eq_bind, Option.bind_eq_some_iff] at h
      obtain ⟨st', h2, w, h3, h4⟩ := h
      rw [blockStart_of h2]
      simp only []
      rw [h3, bind_pure_some]
      exact ih _ _ _ h4
    · rename_i h1
      rw [if_neg h1]
      exact h

theorem blockMins_below (bits : List Word) (size : Word) : Below (Machine.BpVector.blockMins bits size) (blockMins bits size) := by
  intro r h
  simp only [Machine.BpVector.blockMins, Option.bind_eq_bind, Option.bind_eq_some_iff] at h
  obtain ⟨st, h1, h2⟩ := h
  unfold blockMins
  rw [blockLoop_below _ _ _ _ _ _ h1, bind_pure_some, flushMin_of h2]
  rfl

theorem leafMin_below (rs : Machine.RSBitVector) (mins : List Int) (nBlocks s : Word) :
    Below (Machine.BpVector.leafMin rs mins nBlocks s) (leafMin rs mins nBlocks s) := by
  intro r h
  simp only [Machine.BpVector.leafMin, Option.bind_eq_bind, Option.bind_eq_some_iff] at h
  obtain ⟨e, h1, c, h2, _, _, h3⟩ := h
  unfold leafMin
  rw [blockExcess_of h1, bind_pure_some, h2]
  exact h3

theorem leavesLoop_below (rs : Machine.RSBitVector) (mins : List Int) (nBlocks nSuper internal : Word) : ∀ (fuel : Nat) (s : Word) (t : List Int),
    Below (Machine.BpVector.leavesLoop rs mins nBlocks nSuper internal fuel s t) (leavesLoop rs mins nBlocks nSuper internal fuel s t) := by
  intro fuel
  induction fuel with
  | zero =>
    intro s t r h
    unfold Machine.BpVector.leavesLoop at h
    unfold leavesLoop
    exact h
  | succ fuel ih =>
    intro s t r h
    unfold Machine.BpVector.leavesLoop at h
    unfold leavesLoop
    split at h
    · rename_i h1
      rw [if_pos h1]
      simp only [Option.bind_eq_bind, Option.bind_eq_some_iff] at h
      obtain ⟨x, h2, t', h3, h4⟩ := h
      simp only []
      rw [leafMin_below _ _ _ _ _ h2, bind_pure_some, h3, bind_pure_some]
      exact ih _ _ _ h4
    · rename_i h1
      rw [if_neg h1]
      exact h

theorem buildMinTree_below (rs : Machine.RSBitVector) : Below (Machine.BpVector.buildMinTree rs) (buildMinTree rs) := by
  intro r h
  unfold Machine.BpVector.buildMinTree at h
  unfold buildMinTree
  split at h
  · rename_i h1
    rw [if_pos h1]
    exact h
  · rename_i h1
    rw [if_neg h1]
    simp only [Option.bind_eq_bind, Option.bind_eq_some_iff] at h
    obtain ⟨mins, h2, _, _, int, h3, t1, h4, t2, h5, t3, h6, h7⟩ := h
    rw [blockMins_below _ _ _ h2, bind_pure_some]
    simp only []
    rw [h3, bind_pure_some, leavesLoop_below _ _ _ _ _ _ _ _ _ h4, bind_pure_some, h5, bind_pure_some, h6, bind_pure_some]
    exact h7

theorem bpBuild_below (bv : Machine.BitVector) (a b : Bool) : Below (Machine.BpVector.build bv a b) (bpBuild bv a b) := by
  intro r h
  simp only [Machine.BpVector.build, Option.bind_eq_bind, Option.bind_eq_some_iff] at h
  obtain ⟨rs, h1, h2⟩ := h
  unfold bpBuild
  rw [h1, bind_pure_some]
  exact buildMinTree_below _ _ h2

/-! ## A size that is negative as an `excess_t` -/

variable {l : List Bool}

theorem leafMin_const {rs : Succinct.RSBitVector} (hi : Succinct.RSBitVector.Inv rs l) (hl : l.length ≤ 2^63) (hg : BpVector.Mild l) {mins : List Int}
    (hb : BpVector.BMOK (BpVector.exc l) l.length mins) (s : Nat) (hs : 8192 * s < l.length) (hneg : toI32 l.length ≤ 0) :
    leafMin (Machine.RSBitVector.enc rs) mins (W ((l.length + 255) / 256)) (W s) = some (toI32 l.length) := by
  obtain ⟨r, er, hr⟩ := BpVector.leafMin_loop hg.nonneg hg.small mins hb s hs (toI32 l.length)
  have hrS : r = toI32 l.length := by
    have h1 := (hr (toI32 l.length)).2 (Or.inl (Int.le_refl _))
    rcases (hr r).1 (Int.le_refl _) with h2 | ⟨p, _, _, p3, p4⟩
    · omega
    · have := hg.nonneg p p3; omega
  have h1 := BpVector.blockExcess_eq hi hg.nonneg hg.small (s*32) (by omega)
  rw [show 256*(s*32) = 8192*s by omega] at h1
  unfold leafMin
  have e1 : W s * 32 = W (s * 32) := (W_mul _ _).symm
  have e2 : (W s + 1) * 32 = W ((s + 1) * 32) := by rw [W_mul, W_add]; rfl
  have e3 : s32 (Machine.RSBitVector.enc rs).bv.size = toI32 l.length := by rw [← hi.rep.size]; exact Machine.s32_W _
  rw [e1, blockExcess_of (Machine.BpVector.blockExcess_sim hi hl h1).1, bind_pure_some, e2,
    Machine.BpVector.minW_eq _ _ (by omega) (by omega), e3,
    Machine.BpVector.superMinLoop_sim (by omega) _ _ _ _ _ (by omega) (by omega) er, hrS]

theorem leavesLoop_const {rs : Succinct.RSBitVector} (hi : Succinct.RSBitVector.Inv rs l) (hl : l.length ≤ 2^63) (hg : BpVector.Mild l) {mins : List Int}
    (hb : BpVector.BMOK (BpVector.exc l) l.length mins) (hneg : toI32 l.length ≤ 0) {internal : Nat} (hint : internal ≤ 2^51) :
    ∀ (k s fuel : Nat), k ≤ fuel → s + k = (l.length + 8191) / 8192 →
      leavesLoop (Machine.RSBitVector.enc rs) mins (W ((l.length + 255) / 256)) (W ((l.length + 8191) / 8192)) (W internal) fuel (W s)
        ((List.replicate internal 0 ++ List.replicate s (toI32 l.length)) ++ List.replicate k 0) =
        some (List.replicate internal 0 ++ List.replicate ((l.length + 8191) / 8192) (toI32 l.length)) := by
  intro k
  induction k with
  | zero =>
    intro s fuel _ hs
    unfold leavesLoop
    rw [if_neg (fun c => by have := (W_lt s ((l.length + 8191) / 8192) (by omega) (by omega)).1 c; omega), show s = (l.length + 8191) / 8192 by omega]
    simp
  | succ k ih =>
    intro s fuel hf hs
    obtain ⟨fuel, rfl⟩ : ∃ f, fuel = f + 1 := ⟨fuel - 1, by omega⟩
    unfold leavesLoop
    have e1 : W s + 1 = W (s + 1) := (W_add _ _).symm
    have e2 : W internal + W s = W (internal + s) := (W_add _ _).symm
    rw [if_pos ((W_lt s ((l.length + 8191) / 8192) (by omega) (by omega)).2 (by omega))]
    simp only []
    rw [leafMin_const hi hl hg hb s (by omega) hneg, bind_pure_some, e2, List.replicate_succ,
      put_mid _ _ _ _ _ (by simp) (by omega), bind_pure_some, e1]
    have := ih (s + 1) fuel (by omega) (by omega)
    rw [List.replicate_succ'] at this
    simpa using this

theorem treeLoop_const (S : Int) (M : Nat) : ∀ k, k + 2 ≤ M → BpVector.treeLoop k (List.replicate M S) = some (List.replicate M S) := by
  intro k
  induction k with
  | zero => intro _; rfl
  | succ k ih =>
    intro hk
    have hr : ∀ j, j < M → rd (List.replicate M S) j = some S := fun j hj => by
      show (List.replicate M S)[j]? = some S
      rw [List.getElem?_replicate, if_pos hj]
    unfold BpVector.treeLoop
    simp only []
    rw [hr _ (by omega), bind_pure_some, hr _ (by omega), bind_pure_some, wr, if_pos (by rw [List.length_replicate]; omega), bind_pure_some, Int.min_self,
      List.set_replicate_self]
    exact ih (by omega)

/-- the object built from a sequence whose size is negative as an `excess_t` -/
theorem bpBuild_const (hg : BpVector.Mild l) (h0 : 0 < l.length) (hl : l.length ≤ 2^63) (hneg : toI32 l.length ≤ 0) (a b : Bool) :
    ∃ v H, bpBuild (Machine.BitVector.enc (BitVector.ofRange l)) a b = some (enc v) ∧ BpVector.Inv0 v l ∧ Small v l ∧
      BpVector.ConstTree v l (toI32 l.length) H := by
  obtain ⟨rs, h1, _, hi⟩ := Succinct.RSBitVector.build_inv l a b
  have hsz : rs.bv.size = l.length := hi.rep.size
  have hlen := hi.rep.len
  have hbits := Machine.BpVector.bits_len hi hl
  obtain ⟨mins, e1, hbm⟩ := BpVector.blockMins_spec rs.bv.bits l.length hlen rfl h0
  have hE : excF (wbit rs.bv.bits) = BpVector.exc l := by
    rw [show wbit rs.bv.bits = bitFn l from funext hi.rep.repr.bit]
  rw [hE] at hbm
  obtain ⟨H, e3, hH⟩ := BpVector.completeLeaves_spec ((l.length + 8191) / 8192) ((l.length + 8191) / 8192) 1 0 rfl (by omega)
  obtain ⟨k1, k2, k3⟩ := Machine.BpVector.completeLeaves_sim (by omega) 64 _ 1 _ (by omega) e3 (by omega)
  generalize hN : 2^H = N at *
  generalize hn : (l.length + 8191) / 8192 = n at *
  refine ⟨⟨rs, N, mins, List.replicate (N + n) (toI32 l.length)⟩, H, ?_, ⟨hi, fun _ => hbm⟩, ⟨hi, hl, ?_, ?_, ?_⟩, ⟨hN.symm, by rw [hn, hN]; exact hH, by rw [hn, hN]⟩⟩
  · unfold bpBuild
    rw [Machine.RSBitVector.build_eq l hl a b, h1, Option.map_some, bind_pure_some]
    unfold buildMinTree
    have c1 : ((Machine.RSBitVector.enc rs).bv.size = 0) ↔ rs.bv.size = 0 := by
      show W rs.bv.size = 0 ↔ _
      wn
    rw [if_neg (fun c => by have := c1.1 c; omega)]
    have b1 : Machine.ceilDiv (vlen rs.bv.bits) 4 = W ((l.length + 255) / 256) := by
      show (W rs.bv.bits.length + 4 - 1) / 4 = _
      rw [show (l.length + 255) / 256 = (rs.bv.bits.length + 4 - 1) / 4 by omega]
      wn
    have b2 : (W ((l.length + 255) / 256) + 32 - 1) / 32 = W n := by
      rw [show n = ((l.length + 255) / 256 + 32 - 1) / 32 by omega]
      wn
    have b4 : W N + W n = W (N + n) := (W_add _ _).symm
    have b5 : W (N + n) - 1 = W (N + n - 2 + 1) := by wn
    rw [show (Machine.RSBitVector.enc rs).bv.bits = rs.bv.bits from rfl, show (Machine.RSBitVector.enc rs).bv.size = W rs.bv.size from rfl, hsz,
      blockMins_below _ _ _ (Machine.BpVector.blockMins_sim hbits (by omega) e1), bind_pure_some]
    have m1 := leavesLoop_const hi hl hg hbm hneg (internal := N) (by omega) n 0 n (by omega) (by omega)
    rw [hn] at m1
    have m3 := Machine.BpVector.fillLoop_sim (x := toI32 l.length) (internal := N) (by omega) (List.replicate n (toI32 l.length)) N 0 N (by omega) (by omega)
    obtain ⟨t1, t2⟩ := Machine.BpVector.treeLoop_sim _ (N + n - 2 + 1) _ _ (by omega) (by omega)
      (treeLoop_const (toI32 l.length) (N + n) (N + n - 2) (by omega))
    simp only [b1, b2]
    rw [show (1 : Word) = W 1 from rfl, k1, bind_pure_some, b4, W_toNat (N + n) (by omega),
      W_toNat n (by omega), W_toNat N (by omega), ← List.replicate_append_replicate, show (0 : Word) = W 0 from rfl]
    rw [List.replicate_zero, List.append_nil] at m1
    rw [m1, bind_pure_some, Machine.s32_W]
    rw [show List.replicate 0 (toI32 l.length) ++ (List.replicate N 0 ++ List.replicate n (toI32 l.length)) =
      List.replicate N 0 ++ List.replicate n (toI32 l.length) from rfl] at m3
    rw [m3, bind_pure_some, show W 1 = (1 : Word) from rfl, b5, W_toNat _ (by omega), List.replicate_append_replicate, t1, bind_pure_some]
    rfl
  · show N ≤ _; omega
  · show mins.length ≤ _; rw [hbm.lenEq]; omega
  · show (List.replicate _ _).length ≤ _; rw [List.length_replicate]; omega

theorem superMinLoop_le (mins : List Int) (e : Int) (stop : Word) : ∀ (fuel : Nat) (b : Word) (c r : Int),
    Machine.BpVector.superMinLoop mins e stop fuel b c = some r → r ≤ c := by
  intro fuel
  induction fuel with
  | zero =>
    intro b c r h
    unfold Machine.BpVector.superMinLoop at h
    split at h
    · cases h
    · rw [← Option.some.inj h]
  | succ fuel ih =>
    intro b c r h
    unfold Machine.BpVector.superMinLoop at h
    split at h
    · simp only [Option.bind_eq_bind, Option.bind_eq_some_iff] at h
      obtain ⟨_, _, _, _, h3⟩ := h
      have := ih _ _ _ h3
      omega
    · rw [← Option.some.inj h]

/-- the assertion about the minimum of a superblock fails -/
theorem build_negative (h0 : 0 < l.length) (hl : l.length ≤ 2^63) (hneg : toI32 l.length < 0) (a b : Bool) :
    Machine.BpVector.build (Machine.BitVector.enc (BitVector.ofRange l)) a b = none := by
  obtain ⟨rs, h1, _, hi⟩ := Succinct.RSBitVector.build_inv l a b
  have hsz : rs.bv.size = l.length := hi.rep.size
  have hlen := hi.rep.len
  have hbits := Machine.BpVector.bits_len hi hl
  rw [Option.eq_none_iff_forall_not_mem]
  intro v hv
  have hv : Machine.BpVector.build (Machine.BitVector.enc (BitVector.ofRange l)) a b = some v := hv
  unfold Machine.BpVector.build at hv
  rw [Machine.RSBitVector.build_eq l hl a b, h1, Option.map_some, bind_pure_some] at hv
  unfold Machine.BpVector.buildMinTree at hv
  have c1 : ((Machine.RSBitVector.enc rs).bv.size = 0) ↔ rs.bv.size = 0 := by
    show W rs.bv.size = 0 ↔ _
    wn
  have e3 : s32 (Machine.RSBitVector.enc rs).bv.size = toI32 l.length := by rw [← hi.rep.size]; exact Machine.s32_W _
  have b1 : Machine.ceilDiv (vlen rs.bv.bits) 4 = W ((l.length + 255) / 256) := by
    show (W rs.bv.bits.length + 4 - 1) / 4 = _
    rw [show (l.length + 255) / 256 = (rs.bv.bits.length + 4 - 1) / 4 by omega]
    wn
  have b2 : (W ((l.length + 255) / 256) + 32 - 1) / 32 = W ((l.length + 8191) / 8192) := by
    rw [show (l.length + 8191) / 8192 = ((l.length + 255) / 256 + 32 - 1) / 32 by omega]
    wn
  rw [if_neg (fun c => by have := c1.1 c; omega)] at hv
  simp only [show (Machine.RSBitVector.enc rs).bv.bits = rs.bv.bits from rfl, b1, b2, Option.bind_eq_bind, Option.bind_eq_some_iff] at hv
  obtain ⟨mins, _, _, _, N, _, t, ht, _⟩ := hv
  rw [W_toNat _ (by omega)] at ht
  obtain ⟨n, hn⟩ : ∃ n, (l.length + 8191) / 8192 = n + 1 := ⟨(l.length + 8191) / 8192 - 1, by omega⟩
  rw [hn] at ht
  unfold Machine.BpVector.leavesLoop at ht
  rw [if_pos (by rw [show (0 : Word) = W 0 from rfl]; exact (W_lt _ _ (by omega) (by omega)).2 (by omega))] at ht
  simp only [Option.bind_eq_bind, Option.bind_eq_some_iff] at ht
  obtain ⟨x, hx, _⟩ := ht
  simp only [Machine.BpVector.leafMin, Option.bind_eq_bind, Option.bind_eq_some_iff] at hx
  obtain ⟨_, _, c, h2, _, h3, _⟩ := hx
  have h2 := superMinLoop_le _ _ _ _ _ _ _ h2
  have h3 := (BpVector.assertP_some h3).1
  rw [e3] at h2
  omega

end Release
end Succinct
