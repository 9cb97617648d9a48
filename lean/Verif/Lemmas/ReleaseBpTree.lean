import Verif.Lemmas.ReleaseBp

/-! `search_min_tree` on a tree that is constant, with assertions compiled out. -/
namespace Succinct
namespace Release
open Broadword
open Machine (W W_add W_mul W_sub W_lt W_toNat at_ at_W s32 vlen)
open Machine.BpVector (Small enc dir)
open Outcome (of_some done_bind)
open Succinct.RSBitVector (bind_pure_some)

theorem treeUp_congr {v v' : Machine.BpVector} {fwd : Bool} {x : Int} (h : ∀ k, inNodeRange v k x = inNodeRange v' k x) :
    ∀ (fuel : Nat) (n : Word), treeUp v fwd x fuel n = treeUp v' fwd x fuel n := by
  intro fuel
  induction fuel with
  | zero => intro n; rfl
  | succ fuel ih =>
    intro n
    have hs : siblingHit v fwd n x = siblingHit v' fwd n x := by unfold siblingHit; simp only [h]
    unfold treeUp
    rw [hs]
    simp only [ih]

theorem treeDown_congr {v v' : Machine.BpVector} {fwd : Bool} {x : Int} (hi : v.internalNodes = v'.internalNodes)
    (h : ∀ k, inNodeRange v k x = inNodeRange v' k x) :
    ∀ (fuel : Nat) (n : Word), treeDown v fwd x fuel n = treeDown v' fwd x fuel n := by
  intro fuel
  induction fuel with
  | zero => intro n; unfold treeDown; rw [hi]
  | succ fuel ih =>
    intro n
    unfold treeDown
    rw [hi]
    simp only [h, ih]

variable {v : BpVector} {l : List Bool}

/-- the same object with another constant in the tree -/
def zeroTree (v : BpVector) : BpVector := ⟨v.rs, v.internalNodes, v.blockMin, List.replicate v.superMin.length 0⟩

theorem zeroTree_small (h : Small v l) : Small (zeroTree v) l :=
  ⟨h.rs, h.len, h.internal, h.blocks, by show (List.replicate _ _).length ≤ _; rw [List.length_replicate]; exact h.super⟩

theorem zeroTree_range {S : Int} {H : Nat} (ht : BpVector.ConstTree v l S H) (hsz : v.rs.bv.size = l.length) (h32 : toI32 l.length < 0)
    (x : Int) (hx : 0 ≤ x) : BpVector.RangeOK (zeroTree v) H ((l.length+8191)/8192) x (fun _ => True) := by
  refine ⟨ht.le, fun d h k hd h1 h2 t hU => ⟨true, ?_, by simp only [true_iff]; exact ⟨t, hU, trivial⟩⟩⟩
  obtain ⟨u1, u2, u3⟩ := hU
  unfold BpVector.inNodeRange zeroTree
  dsimp only
  have hk : k < 2^H + (l.length+8191)/8192 := by
    have : k*1 ≤ k*2^h := Nat.mul_le_mul_left _ (Nat.two_pow_pos h)
    omega
  have : rd (List.replicate v.superMin.length (0:Int)) k = some 0 := by
    show (List.replicate v.superMin.length (0:Int))[k]? = _
    rw [List.getElem?_replicate, if_pos (by rw [ht.tree, List.length_replicate]; exact hk)]
  rw [this, bind_pure_some, hsz, assertP_eq _ (by omega), bind_pure_some, decide_eq_true hx]
  rfl

theorem zeroTree_congr {S : Int} {H : Nat} (ht : BpVector.ConstTree v l S H) (hS : S ≤ 0) (x : Int) (hx : 0 ≤ x) (k : Word) :
    inNodeRange (enc v) k x = inNodeRange (enc (zeroTree v)) k x := by
  unfold inNodeRange
  show (at_ v.superMin k >>= _) = (at_ (zeroTree v).superMin k >>= _)
  unfold at_ zeroTree rd
  dsimp only
  rw [ht.tree, List.length_replicate, List.getElem?_replicate, List.getElem?_replicate]
  by_cases h : k.toNat < 2^H + (l.length+8191)/8192
  · rw [if_pos h, if_pos h, bind_pure_some, bind_pure_some, decide_eq_true (show x ≥ S by omega), decide_eq_true hx]
  · rw [if_neg h, if_neg h]

/-- going forward, the search in the tree arrives at the next superblock -/
theorem tree_next {S : Int} {H : Nat} (ht : BpVector.ConstTree v l S H) (hs : Small v l) (h32 : toI32 l.length < 0) (hS : S ≤ 0) (x : Int)
    (hx : 0 ≤ x) (s fuel : Nat) (hsn : s + 1 < (l.length+8191)/8192) (hf : 2^52 < fuel) :
    ∃ k, treeUp (enc v) true x fuel (W (v.internalNodes + s)) = .done k ∧ treeDown (enc v) true x fuel k = .done (W (v.internalNodes + (s + 1))) := by
  have hsz := hs.rs.rep.size
  have hint := hs.internal
  have hR := zeroTree_range ht hsz h32 x hx
  have hN := ht.int
  have hle := ht.le
  obtain ⟨k, d, h, ek, hd, hk1, hk2, hk3, ⟨t, htU, htS⟩, hk4⟩ := BpVector.treeUp_fwd hR s (s+1) (by omega) (by omega) trivial
      (v.internalNodes + s + 1) H 0 (v.internalNodes + s) (by omega) (by omega) (by rw [Nat.pow_succ]; omega) (by rw [Nat.pow_zero]; omega)
      (by intro t h1 h2; rw [Nat.pow_zero] at h2; omega) (by omega)
  obtain ⟨s', es, ⟨s1, s2, s3⟩, _, s4⟩ := BpVector.treeDown_fwd (v := zeroTree v) hN hR h v.internalNodes d k t
      (by rw [hN]; have := @Nat.lt_two_pow_self H; omega) hd hk1 hk2 htU trivial
  have hs' : s' = s + 1 := by
    by_contra hne
    have h1 : ¬ 2^H + (s+1) < k*2^h := fun c => hk4 (s+1) (by omega) c hsn trivial
    exact s4 (s+1) (by omega) (by omega) trivial
  obtain ⟨m1, m2⟩ := Machine.BpVector.treeUp_sim (zeroTree_small hs) _ _ _ (by omega) ek
  obtain ⟨m3, _⟩ := Machine.BpVector.treeDown_sim (zeroTree_small hs) _ _ _ m2 es
  refine ⟨W k, ?_, ?_⟩
  · rw [treeUp_congr (zeroTree_congr ht hS x hx)]
    exact treeUp_of (by omega) m1
  · rw [treeDown_congr (v := enc v) (v' := enc (zeroTree v)) rfl (zeroTree_congr ht hS x hx), hN, ← hs']
    exact treeDown_of (by omega) m3

/-- going backward, the search in the tree arrives at the previous superblock -/
theorem tree_prev {S : Int} {H : Nat} (ht : BpVector.ConstTree v l S H) (hs : Small v l) (h32 : toI32 l.length < 0) (hS : S ≤ 0) (x : Int)
    (hx : 0 ≤ x) (s fuel : Nat) (hsn : s + 1 < (l.length+8191)/8192) (hf : 2^52 < fuel) :
    ∃ k, treeUp (enc v) false x fuel (W (v.internalNodes + (s + 1))) = .done k ∧ treeDown (enc v) false x fuel k = .done (W (v.internalNodes + s)) := by
  have hsz := hs.rs.rep.size
  have hint := hs.internal
  have hR := zeroTree_range ht hsz h32 x hx
  have hN := ht.int
  have hle := ht.le
  obtain ⟨k, d, h, ek, hd, hk1, hk2, hk3, ⟨t, htU, htS⟩, hk4⟩ := BpVector.treeUp_bwd hR (s+1) s (by omega) (by omega) trivial
      (v.internalNodes + (s+1) + 1) H 0 (v.internalNodes + (s+1)) (by omega) (by omega) (by rw [Nat.pow_succ]; omega) (by rw [Nat.pow_zero]; omega)
      (by intro t h1 h2; rw [Nat.pow_zero] at h2; omega) (by omega)
  obtain ⟨s', es, ⟨s1, s2, s3⟩, _, s4⟩ := BpVector.treeDown_bwd (v := zeroTree v) hN hR h v.internalNodes d k t
      (by rw [hN]; have := @Nat.lt_two_pow_self H; omega) hd hk1 hk2 (by omega) htU trivial
  have hs' : s' = s := by
    by_contra hne
    have h1 : ¬ (k+1)*2^h ≤ 2^H + s := fun c => hk4 s (by omega) c trivial
    exact s4 s (by omega) (by omega) trivial
  obtain ⟨m1, m2⟩ := Machine.BpVector.treeUp_sim (zeroTree_small hs) _ _ _ (by omega) ek
  obtain ⟨m3, _⟩ := Machine.BpVector.treeDown_sim (zeroTree_small hs) _ _ _ m2 es
  refine ⟨W k, ?_, ?_⟩
  · rw [treeUp_congr (zeroTree_congr ht hS x hx)]
    exact treeUp_of (by omega) m1
  · rw [treeDown_congr (v := enc v) (v' := enc (zeroTree v)) rfl (zeroTree_congr ht hS x hx), hN, ← hs']
    exact treeDown_of (by omega) m3

/-- forward search: `c0` is the first block, from `b` on, with an excess of at most `x` -/
theorem searchMinTree_next {S : Int} {H : Nat} (hi : BpVector.Inv0 v l) (hg : BpVector.Mild l) (ht : BpVector.ConstTree v l S H) (hs : Small v l)
    (h32 : toI32 l.length < 0) (hS : S ≤ 0) (x : Int) (hx : 0 ≤ x) (b c0 fuel : Nat) (hf : 2^52 < fuel) (hbc : b ≤ c0)
    (hc0 : c0 < (l.length+255)/256) (hX : BpVector.BX l c0 x) (hn : ∀ c, b ≤ c → c < c0 → ¬ BpVector.BX l c x) :
    searchMinTree (enc v) true fuel (W b) x = .done (if c0 / 32 ≤ b / 32 + 1 then W c0 else notFound) := by
  have hl := hs.len
  have hint := hs.internal
  have h0 : 0 < l.length := by omega
  unfold searchMinTree
  rcases BpVector.searchBlock_fwd hi hg h0 x b (by omega) with ⟨a1, a2⟩ | ⟨c, c1, c2, c3, a1, c4, c5⟩
  · have hlt : b/32 < c0/32 := by
      by_contra hh; exact a2 c0 hbc (by omega) hc0 hX
    rw [searchBlock_of (Machine.BpVector.searchBlock_sim hs (by omega) a1), of_some, done_bind]
    simp only [Option.map_none]
    have e1 : (enc v).internalNodes + W b / 32 = W (v.internalNodes + b / 32) := by
      show W v.internalNodes + W b / 32 = _
      have : W b / 32 = W (b / 32) := by wn
      rw [this, W_add]
    obtain ⟨k, k1, k2⟩ := tree_next ht hs h32 hS x hx (b/32) fuel (by omega) hf
    have e2 : W (v.internalNodes + (b/32+1)) - (enc v).internalNodes = W (b/32+1) := by
      show W (v.internalNodes + (b/32+1)) - W v.internalNodes = _
      rw [← W_sub _ _ (by omega), Nat.add_sub_cancel_left]
    have e3 : W (b/32+1) * 32 + (1 - dir true) * (32 - 1) = W ((b/32+1)*32) := by
      rw [show (1 - dir true) * (32 - 1) = (0 : Word) from by decide, W_mul]
      show W _ * 32 + 0 = W _ * 32
      exact BitVec.add_zero _
    rw [e1, k1, done_bind, k2, done_bind, e2, e3]
    rcases BpVector.searchBlock_fwd hi hg h0 x ((b/32+1)*32) (by omega) with ⟨a1', a2'⟩ | ⟨c, c1, c2, c3, a1', c4, c5⟩
    · rw [searchBlock_of (Machine.BpVector.searchBlock_sim hs (by omega) a1'), of_some, done_bind]
      rw [if_neg (fun hh => a2' c0 (by omega) (by omega) hc0 hX)]
      rfl
    · rw [searchBlock_of (Machine.BpVector.searchBlock_sim hs (by omega) a1'), of_some, done_bind]
      have h1 : ¬ c < c0 := fun hh => hn c (by omega) hh c4
      have h2 : ¬ c0 < c := fun hh => c5 c0 (by omega) hh hX
      obtain rfl : c = c0 := by omega
      rw [if_pos (by omega)]
      rfl
  · rw [searchBlock_of (Machine.BpVector.searchBlock_sim hs (by omega) a1), of_some, done_bind]
    have h1 : ¬ c < c0 := fun hh => hn c (by omega) hh c4
    have h2 : ¬ c0 < c := fun hh => c5 c0 (by omega) hh hX
    obtain rfl : c = c0 := by omega
    rw [if_pos (by omega)]
    rfl

/-- backward search: `c0` is the last block, up to `b`, with an excess of at most `x` -/
theorem searchMinTree_prev {S : Int} {H : Nat} (hi : BpVector.Inv0 v l) (hg : BpVector.Mild l) (ht : BpVector.ConstTree v l S H) (hs : Small v l)
    (h32 : toI32 l.length < 0) (hS : S ≤ 0) (x : Int) (hx : 0 ≤ x) (b c0 fuel : Nat) (hf : 2^52 < fuel) (hbc : c0 ≤ b)
    (hb : b < (l.length+255)/256) (hX : BpVector.BX l c0 x) (hn : ∀ c, c0 < c → c ≤ b → ¬ BpVector.BX l c x) :
    searchMinTree (enc v) false fuel (W b) x = .done (if b / 32 ≤ c0 / 32 + 1 then W c0 else notFound) := by
  have hl := hs.len
  have hint := hs.internal
  have h0 : 0 < l.length := by omega
  unfold searchMinTree
  rcases BpVector.searchBlock_bwd hi hg h0 x b hb with ⟨a1, a2⟩ | ⟨c, c1, c2, a1, c4, c5⟩
  · have hlt : c0/32 < b/32 := by
      by_contra hh; exact a2 c0 hbc (by omega) hX
    rw [searchBlock_of (Machine.BpVector.searchBlock_sim hs (by omega) a1), of_some, done_bind]
    simp only [Option.map_none]
    have e1 : (enc v).internalNodes + W b / 32 = W (v.internalNodes + (b / 32 - 1 + 1)) := by
      show W v.internalNodes + W b / 32 = _
      have : W b / 32 = W (b / 32) := by wn
      rw [this, ← W_add, show b/32-1+1 = b/32 by omega]
    obtain ⟨k, k1, k2⟩ := tree_prev ht hs h32 hS x hx (b/32-1) fuel (by omega) hf
    have e2 : W (v.internalNodes + (b/32-1)) - (enc v).internalNodes = W (b/32-1) := by
      show W (v.internalNodes + (b/32-1)) - W v.internalNodes = _
      rw [← W_sub _ _ (by omega), Nat.add_sub_cancel_left]
    have e3 : W (b/32-1) * 32 + (1 - dir false) * (32 - 1) = W ((b/32-1)*32+31) := by
      rw [show (1 - dir false) * (32 - 1) = W 31 from by decide, W_add, W_mul]
      rfl
    rw [e1, k1, done_bind, k2, done_bind, e2, e3]
    rcases BpVector.searchBlock_bwd hi hg h0 x ((b/32-1)*32+31) (by omega) with ⟨a1', a2'⟩ | ⟨c, c1, c2, a1', c4, c5⟩
    · rw [searchBlock_of (Machine.BpVector.searchBlock_sim hs (by omega) a1'), of_some, done_bind]
      rw [if_neg (fun hh => a2' c0 (by omega) (by omega) hX)]
      rfl
    · rw [searchBlock_of (Machine.BpVector.searchBlock_sim hs (by omega) a1'), of_some, done_bind]
      have h1 : ¬ c0 < c := fun hh => hn c hh (by omega) c4
      have h2 : ¬ c < c0 := fun hh => c5 c0 hh (by omega) hX
      obtain rfl : c = c0 := by omega
      rw [if_pos (by omega)]
      rfl
  · rw [searchBlock_of (Machine.BpVector.searchBlock_sim hs (by omega) a1), of_some, done_bind]
    have h1 : ¬ c0 < c := fun hh => hn c hh (by omega) c4
    have h2 : ¬ c < c0 := fun hh => c5 c0 hh (by omega) hX
    obtain rfl : c = c0 := by omega
    rw [if_pos (by omega)]
    rfl

end Release
end Succinct
