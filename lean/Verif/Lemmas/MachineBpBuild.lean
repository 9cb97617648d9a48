import Verif.Lemmas.MachineBp

/-! # `build_min_tree` in 64-bit arithmetic follows the model -/
namespace Succinct
namespace Machine
open Broadword
open Succinct.Machine.Bp
open Succinct.RSBitVector (bind_pure_some nblocks)

namespace BpVector

theorem blockStart_eq (st : Succinct.BpVector.BlockState) (s : Nat) (h : s < 2^63) :
    blockStart st (W s) = Succinct.BpVector.blockStart st s := by
  unfold blockStart Succinct.BpVector.blockStart
  have e1 : (W s % 4 = 0) ↔ s % 4 = 0 := by wn
  have e2 : (W s % (4 * 32) = 0) ↔ s % (4 * 32) = 0 := by rw [show (4 * 32 : Word) = 128 from rfl]; wn
  have e3 : (W s ≠ 0) ↔ s ≠ 0 := by wn
  simp only [e1, e2, e3]

theorem nBits_eq (n size s : Nat) (hn : n < 2^63) (h0 : 0 < n) (hz : size < 2^64) (hs : s < 2^63) :
    (nBits (W n) (W size) (W s)).toNat = Succinct.BpVector.nBits n size s := by
  unfold nBits Succinct.BpVector.nBits
  have e1 : (W s = W n - 1) ↔ s = n - 1 := by wn
  have e2 : W size % 64 = W (size % 64) := by wn
  have e3 : (W (size % 64) ≠ 0) ↔ size % 64 ≠ 0 := by wn
  rw [e2]
  by_cases hc : s = n - 1 ∧ size % 64 ≠ 0
  · rw [if_pos hc, if_pos ⟨e1.2 hc.1, e3.2 hc.2⟩, W_toNat _ (by omega)]
  · rw [if_neg hc, if_neg (fun c => hc ⟨e1.1 c.1, e3.1 c.2⟩)]; rfl

theorem blockLoop_sim {bits : List Word} {size : Nat} (hb : bits.length ≤ 2^57) (hz : size < 2^64) :
    ∀ (ws : List Word) (s fuel : Nat) (st r : Succinct.BpVector.BlockState), ws.length ≤ fuel → bits.drop s = ws → s ≤ bits.length →
      Succinct.BpVector.blockLoop bits.length size ws s st = some r → blockLoop bits (W size) fuel (W s) st = some r := by
  intro ws
  induction ws with
  | nil =>
    intro s fuel st r _ hd hs hr
    have hl := congrArg List.length hd
    simp only [List.length_drop, List.length_nil] at hl
    unfold blockLoop
    rw [if_neg (fun c => by have := (W_lt s bits.length (by omega) (by omega)).1 c; omega)]
    exact hr
  | cons w ws ih =>
    intro s fuel st r hf hd hs hr
    have hl := congrArg List.length hd
    simp only [List.length_drop, List.length_cons] at hl hf
    obtain ⟨fuel, rfl⟩ : ∃ f, fuel = f + 1 := ⟨fuel - 1, by omega⟩
    unfold Succinct.BpVector.blockLoop at hr
    simp only [Option.bind_eq_bind, Option.bind_eq_some_iff] at hr
    obtain ⟨st1, h1, hr⟩ := hr
    have hw : rd bits s = some w := by
      have := congrArg (·[0]?) hd
      simp only [List.getElem?_drop, List.getElem?_cons_zero, Nat.add_zero] at this
      exact this
    have hd' : bits.drop (s + 1) = ws := by
      have := congrArg List.tail hd
      simpa [List.tail_drop] using this
    have e1 : W s + 1 = W (s + 1) := (W_add _ _).symm
    unfold blockLoop
    rw [if_pos (show W s < vlen bits from (W_lt s bits.length (by omega) (by omega)).2 (by omega))]
    simp only []
    rw [blockStart_eq _ _ (by omega), h1, bind_pure_some, at_W (by omega) hw, bind_pure_some,
      show vlen bits = W bits.length from rfl, nBits_eq _ _ _ (by omega) (by omega) hz (by omega), e1]
    exact ih (s + 1) fuel _ _ (by omega) hd' (by omega) hr

theorem blockMins_sim {bits : List Word} {size : Nat} (hb : bits.length ≤ 2^57) (hz : size < 2^64) {r : List Int}
    (hr : Succinct.BpVector.blockMins bits size = some r) : blockMins bits (W size) = some r := by
  unfold Succinct.BpVector.blockMins at hr
  unfold blockMins
  simp only [Option.bind_eq_bind, Option.bind_eq_some_iff] at hr
  obtain ⟨st, h1, hr⟩ := hr
  rw [show (0 : Word) = W 0 from rfl, blockLoop_sim hb hz bits 0 _ _ _ (by omega) (by simp) (by omega) h1, bind_pure_some]
  exact hr

theorem superMinLoop_sim {mins : List Int} {superExc : Int} {stop : Nat} (hs : stop < 2^63) :
    ∀ (k block fuel : Nat) (cur r : Int), k ≤ fuel → block + k = stop →
      Succinct.BpVector.superMinLoop mins superExc k block cur = some r →
      superMinLoop mins superExc (W stop) fuel (W block) cur = some r := by
  intro k
  induction k with
  | zero =>
    intro block fuel cur r _ hb hr
    unfold superMinLoop
    rw [if_neg (fun c => by have := (W_lt block stop (by omega) (by omega)).1 c; omega)]
    exact hr
  | succ k ih =>
    intro block fuel cur r hf hb hr
    obtain ⟨fuel, rfl⟩ : ∃ f, fuel = f + 1 := ⟨fuel - 1, by omega⟩
    unfold Succinct.BpVector.superMinLoop at hr
    simp only [Option.bind_eq_bind, Option.bind_eq_some_iff] at hr
    obtain ⟨m, h1, e, h2, hr⟩ := hr
    unfold superMinLoop
    have e1 : W block + 1 = W (block + 1) := (W_add _ _).symm
    rw [if_pos ((W_lt block stop (by omega) (by omega)).2 (by omega))]
    simp only []
    rw [at_W (by omega) h1, bind_pure_some, h2, bind_pure_some, e1]
    exact ih _ _ _ _ (by omega) (by omega) hr

theorem leafMin_sim {rs : Succinct.RSBitVector} {l : List Bool} (hi : Succinct.RSBitVector.Inv rs l) (hl : l.length ≤ 2^63) {mins : List Int}
    {nBlocks s : Nat} (hn : nBlocks ≤ 2^55) (hs : s * 32 ≤ nBlocks) {r : Int}
    (hr : Succinct.BpVector.leafMin rs mins nBlocks s = some r) : leafMin (RSBitVector.enc rs) mins (W nBlocks) (W s) = some r := by
  unfold Succinct.BpVector.leafMin at hr
  unfold leafMin
  simp only [Option.bind_eq_bind, Option.bind_eq_some_iff] at hr
  obtain ⟨e, h1, cur, h2, _, h3, hr⟩ := hr
  have e1 : W s * 32 = W (s * 32) := (W_mul _ _).symm
  have e2 : (W s + 1) * 32 = W ((s + 1) * 32) := by rw [W_mul, W_add]; rfl
  have e3 : s32 (RSBitVector.enc rs).bv.size = toI32 rs.bv.size := s32_W _
  rw [e1, (blockExcess_sim hi hl h1).1, bind_pure_some, e2, minW_eq _ _ (by omega) (by omega), e3,
    superMinLoop_sim (by omega) _ _ _ _ _ (by omega) (by omega) h2, bind_pure_some, h3, bind_pure_some]
  exact hr

theorem put_mid {α} (A B : List α) (y x : α) (n : Nat) (hn : n = A.length) (h : n < 2^64) : put (A ++ y :: B) (W n) x = some (A ++ x :: B) := by
  unfold put wr
  rw [W_toNat _ h, if_pos (by rw [List.length_append, List.length_cons]; omega), hn]
  simp

theorem leavesLoop_sim {rs : Succinct.RSBitVector} {l : List Bool} (hi : Succinct.RSBitVector.Inv rs l) (hl : l.length ≤ 2^63) {mins : List Int}
    {nBlocks nSuper internal : Nat} (hn : nBlocks ≤ 2^55) (hns : nSuper = (nBlocks + 32 - 1) / 32) (hint : internal ≤ 2^51) :
    ∀ (k s fuel : Nat) (acc r : List Int), k ≤ fuel → s + k = nSuper → acc.length = s →
      Succinct.BpVector.leavesLoop rs mins nBlocks k s acc = some r →
      leavesLoop (RSBitVector.enc rs) mins (W nBlocks) (W nSuper) (W internal) fuel (W s)
        ((List.replicate internal 0 ++ acc) ++ List.replicate k 0) = some (List.replicate internal 0 ++ r) ∧ r.length = nSuper := by
  intro k
  induction k with
  | zero =>
    intro s fuel acc r _ hs ha hr
    unfold leavesLoop
    rw [if_neg (fun c => by have := (W_lt s nSuper (by omega) (by omega)).1 c; omega)]
    rw [← Option.some.inj hr]
    exact ⟨by simp, by omega⟩
  | succ k ih =>
    intro s fuel acc r hf hs ha hr
    obtain ⟨fuel, rfl⟩ : ∃ f, fuel = f + 1 := ⟨fuel - 1, by omega⟩
    unfold Succinct.BpVector.leavesLoop at hr
    simp only [Option.bind_eq_bind, Option.bind_eq_some_iff] at hr
    obtain ⟨x, h1, hr⟩ := hr
    unfold leavesLoop
    have e1 : W s + 1 = W (s + 1) := (W_add _ _).symm
    have e2 : W internal + W s = W (internal + s) := (W_add _ _).symm
    rw [if_pos ((W_lt s nSuper (by omega) (by omega)).2 (by omega))]
    simp only []
    rw [leafMin_sim hi hl hn (by omega) h1, bind_pure_some, e2, List.replicate_succ,
      put_mid _ _ _ _ _ (by simp [ha]) (by omega), bind_pure_some, e1]
    have := ih (s + 1) fuel (acc ++ [x]) r (by omega) (by omega) (by simp [ha]) hr
    simpa using this

theorem completeLeaves_sim {n : Nat} (hn : n ≤ 2^62) : ∀ (f fn c r : Nat), n ≤ c * 2^f → Succinct.BpVector.completeLeaves n fn c = some r →
    c ≤ 2 * n → completeLeaves (W n) f (W c) = some (W r) ∧ r ≤ 2 * n ∧ c ≤ r := by
  intro f
  induction f with
  | zero =>
    intro fn c r hle hr hc
    unfold Succinct.BpVector.completeLeaves at hr
    rw [if_neg (by omega)] at hr
    unfold completeLeaves
    rw [if_neg (fun h => by have := (W_lt c n (by omega) (by omega)).1 h; omega), ← Option.some.inj hr]
    exact ⟨rfl, hc, Nat.le_refl _⟩
  | succ f ih =>
    intro fn c r hle hr hc
    unfold Succinct.BpVector.completeLeaves at hr
    unfold completeLeaves
    by_cases h : c < n
    · rw [if_pos h] at hr
      rw [if_pos ((W_lt c n (by omega) (by omega)).2 h)]
      obtain _ | fn := fn
      · exact absurd hr (by simp)
      have e : W c <<< 1 = W (c * 2) := by wn
      simp only [] at hr ⊢
      rw [e]
      obtain ⟨a, b, d⟩ := ih fn (c * 2) r (by rw [Nat.mul_assoc, Nat.mul_comm 2, ← Nat.pow_succ]; exact hle) hr (by omega)
      exact ⟨a, b, by omega⟩
    · rw [if_neg h] at hr
      rw [if_neg (fun c' => h ((W_lt c n (by omega) (by omega)).1 c')), ← Option.some.inj hr]
      exact ⟨rfl, hc, Nat.le_refl _⟩

theorem fillLoop_sim {x : Int} {internal : Nat} (hi : internal ≤ 2^51) (L : List Int) : ∀ (k j fuel : Nat), k ≤ fuel → j + k = internal →
    fillLoop x (W internal) fuel (W j) (List.replicate j x ++ (List.replicate k 0 ++ L)) = some (List.replicate internal x ++ L) := by
  intro k
  induction k with
  | zero =>
    intro j fuel _ hj
    unfold fillLoop
    rw [if_neg (fun c => by have := (W_lt j internal (by omega) (by omega)).1 c; omega), show j = internal by omega]
    simp
  | succ k ih =>
    intro j fuel hf hj
    obtain ⟨fuel, rfl⟩ : ∃ f, fuel = f + 1 := ⟨fuel - 1, by omega⟩
    unfold fillLoop
    have e1 : W j + 1 = W (j + 1) := (W_add _ _).symm
    rw [if_pos ((W_lt j internal (by omega) (by omega)).2 (by omega))]
    simp only []
    rw [List.replicate_succ, List.cons_append, put_mid _ _ _ _ _ (by simp) (by omega), bind_pure_some, e1]
    have := ih (j + 1) fuel (by omega) (by omega)
    rw [List.replicate_succ'] at this
    simpa using this

theorem put_W {α} {t t' : List α} {n : Nat} {x : α} (h : n < 2^64) (hr : wr t n x = some t') : put t (W n) x = some t' := by
  unfold put
  rw [W_toNat _ h, hr]

theorem wr_length {α} {t t' : List α} {n : Nat} {x : α} (hr : wr t n x = some t') : t'.length = t.length := by
  unfold wr at hr
  split at hr
  · rw [← Option.some.inj hr, List.length_set]
  · exact absurd hr (by simp)

theorem treeLoop_sim : ∀ (k fuel : Nat) (t r : List Int), k ≤ fuel → k < 2^62 → Succinct.BpVector.treeLoop k t = some r →
    treeLoop fuel (W (k + 1)) t = some r ∧ r.length = t.length := by
  intro k
  induction k with
  | zero =>
    intro fuel t r _ _ hr
    unfold treeLoop
    rw [if_neg (show ¬ (W 1 > 1) by decide), ← Option.some.inj hr]
    exact ⟨rfl, rfl⟩
  | succ k ih =>
    intro fuel t r hf hk hr
    obtain ⟨fuel, rfl⟩ : ∃ f, fuel = f + 1 := ⟨fuel - 1, by omega⟩
    unfold Succinct.BpVector.treeLoop at hr
    simp only [Option.bind_eq_bind, Option.bind_eq_some_iff] at hr
    obtain ⟨a, h1, b, h2, t', h3, hr⟩ := hr
    unfold treeLoop
    have e0 : W (k + 1 + 1) > 1 := by wn
    have e1 : W (k + 1 + 1) / 2 = W ((k + 2) / 2) := by wn
    have e2 : W (k + 1 + 1) - 1 = W (k + 1) := by wn
    rw [if_pos e0]
    simp only []
    rw [e1, at_W (by omega) h1, bind_pure_some, at_W (by omega) h2, bind_pure_some, put_W (by omega) h3, bind_pure_some, e2]
    obtain ⟨p, q⟩ := ih fuel t' r (by omega) (by omega) hr
    exact ⟨p, by rw [q, wr_length h3]⟩

theorem buildMinTree_sim {rs : Succinct.RSBitVector} {l : List Bool} (hi : Succinct.RSBitVector.Inv rs l) (hl : l.length ≤ 2^63)
    {v : Succinct.BpVector} (hr : Succinct.BpVector.buildMinTree rs = some v) :
    buildMinTree (RSBitVector.enc rs) = some (enc v) ∧ Small v l := by
  have hsz : rs.bv.size = l.length := hi.rep.size
  have hbits := bits_len hi hl
  unfold Succinct.BpVector.buildMinTree at hr
  unfold buildMinTree
  have c1 : ((RSBitVector.enc rs).bv.size = 0) ↔ rs.bv.size = 0 := by
    show W rs.bv.size = 0 ↔ _
    wn
  by_cases hc : rs.bv.size = 0
  · rw [if_pos hc] at hr
    rw [if_pos (c1.2 hc)]
    simp only [pure, Option.some.injEq] at hr ⊢
    subst hr
    exact ⟨rfl, hi, hl, by simp, by simp, by simp⟩
  · rw [if_neg hc] at hr
    rw [if_neg (fun c => hc (c1.1 c))]
    simp only [Option.bind_eq_bind, Option.bind_eq_some_iff] at hr
    obtain ⟨mins, h1, _, h2, internal, h3, leaves, h4, tree, h5, hr⟩ := hr
    have hmins := assert_of h2
    simp only [pure, Option.some.injEq] at hr
    have hb0 : 0 < rs.bv.bits.length := by
      have := hi.rep.len
      omega
    generalize hnb : (rs.bv.bits.length + 4 - 1) / 4 = nBlocks at *
    generalize hns : (nBlocks + 32 - 1) / 32 = nSuper at *
    have e1 : ceilDiv (vlen (RSBitVector.enc rs).bv.bits) 4 = W nBlocks := by
      show (W rs.bv.bits.length + 4 - 1) / 4 = _
      wn
    have e2 : vlen mins = W nBlocks := by rw [hmins]; rfl
    have e3 : (W nBlocks + 32 - 1) / 32 = W nSuper := by wn
    obtain ⟨k1, k2, k3⟩ := completeLeaves_sim (by omega) 64 _ 1 _ (by omega) h3 (by omega)
    have e4 : W internal + W nSuper = W (internal + nSuper) := (W_add _ _).symm
    have e5 : W (internal + nSuper) - 1 = W (internal + nSuper - 2 + 1) := by wn
    obtain ⟨m1, m2⟩ := leavesLoop_sim (internal := internal) hi hl (by omega) hns.symm (by omega) nSuper 0 nSuper [] leaves (by omega) (by omega) rfl h4
    have m3 := fillLoop_sim (x := toI32 rs.bv.size) (internal := internal) (by omega) leaves internal 0 internal (by omega) (by omega)
    obtain ⟨t1, t2⟩ := treeLoop_sim _ (internal + nSuper - 2 + 1) _ _ (by omega) (by omega) h5
    rw [show (RSBitVector.enc rs).bv.bits = rs.bv.bits from rfl, show (RSBitVector.enc rs).bv.size = W rs.bv.size from rfl,
      blockMins_sim hbits (by omega) h1, bind_pure_some]
    simp only [show ceilDiv (vlen rs.bv.bits) 4 = W nBlocks from e1, e2, e3]
    rw [assert_yes trivial, bind_pure_some, show (1 : Word) = W 1 from rfl, k1, bind_pure_some, e4, W_toNat (internal + nSuper) (by omega),
      W_toNat nSuper (by omega), W_toNat internal (by omega), ← List.replicate_append_replicate, show (0 : Word) = W 0 from rfl]
    rw [List.append_nil] at m1
    rw [m1, bind_pure_some, s32_W]
    rw [show List.replicate 0 (toI32 rs.bv.size) ++ (List.replicate internal 0 ++ leaves) = List.replicate internal 0 ++ leaves from rfl] at m3
    rw [m3, bind_pure_some, show W 1 = (1 : Word) from rfl, e5, W_toNat _ (by omega), t1, bind_pure_some]
    rw [← hr]
    refine ⟨rfl, hi, hl, by show internal ≤ _; omega, by show mins.length ≤ _; omega, ?_⟩
    show tree.length ≤ _
    rw [t2, List.length_append, List.length_replicate, m2]
    omega

theorem build_sim {l : List Bool} (hl : l.length ≤ 2^63) (a b : Bool) {v : Succinct.BpVector}
    (hr : Succinct.BpVector.build (Succinct.BitVector.ofRange l) a b = some v) :
    build (BitVector.enc (Succinct.BitVector.ofRange l)) a b = some (enc v) ∧ Small v l := by
  unfold Succinct.BpVector.build at hr
  unfold build
  simp only [Option.bind_eq_bind, Option.bind_eq_some_iff] at hr
  obtain ⟨rs, h1, hr⟩ := hr
  obtain ⟨rs', h2, hi⟩ := Succinct.RSBitVector.build_inv l a b
  rw [h1] at h2
  obtain rfl := Option.some.inj h2
  rw [RSBitVector.build_eq l hl a b, h1, Option.map_some, bind_pure_some]
  exact buildMinTree_sim hi.2 hl hr

end BpVector
end Machine
end Succinct
