import Verif.Model.Work
import Verif.Lemmas.RSBitVector

/-! How many iterations the loops of the queries take, whatever the contents of the structure. -/
namespace Succinct
open RSBitVector (bind_pure_some)

namespace RSBitVector

/-- binary search on `2^k` elements takes `k` steps -/
theorem bsearch_fuel (rank : Nat → Option Nat) (n : Nat) : ∀ (k k' a b : Nat), b - a ≤ 2^k → k ≤ k' →
    bsearch rank n k' a b = bsearch rank n k a b
  | 0, k', a, b, h, _ => by
    unfold bsearch
    cases e : subU b a with
    | none => rfl
    | some d =>
      have : d = b - a := by
        unfold subU at e; split at e
        · cases e; rfl
        · cases e
      simp only []
      rw [if_neg (by simp at h; omega), if_neg (by simp at h; omega)]
  | k + 1, 0, _, _, _, hk => by omega
  | k + 1, k' + 1, a, b, h, hk => by
    unfold bsearch
    cases e : subU b a with
    | none => rfl
    | some d =>
      have hd : d = b - a := by
        unfold subU at e; split at e
        · cases e; rfl
        · cases e
      simp only []
      split
      · congr 1; funext x
        have hp : 2^(k+1) = 2 * 2^k := by rw [Nat.pow_succ]; omega
        rw [bsearch_fuel rank n k k' (a + d/2) b (by omega) (by omega), bsearch_fuel rank n k k' a (a + d/2) (by omega) (by omega)]
      · rfl

end RSBitVector

namespace BpVector

theorem treeUp_zero (v : BpVector) (fwd : Bool) (x : Int) (k : Nat) : treeUp v fwd x k 0 = none := by
  cases k with
  | zero => rfl
  | succ k => simp [treeUp, assertP]

/-- from a node below `2^k` the walk to the root has at most `k` nodes -/
theorem treeUp_fuel (v : BpVector) (fwd : Bool) (x : Int) : ∀ (k k' node : Nat), node < 2^k → k ≤ k' →
    treeUp v fwd x k' node = treeUp v fwd x k node
  | 0, k', node, h, _ => by
    rw [show node = 0 by simp at h; exact h, treeUp_zero, treeUp_zero]
  | k + 1, 0, _, _, hk => by omega
  | k + 1, k' + 1, node, h, hk => by
    unfold treeUp
    have hp : 2^(k+1) = 2 * 2^k := by rw [Nat.pow_succ]; omega
    rw [treeUp_fuel v fwd x k k' (node/2) (by omega) (by omega)]

/-- each step down doubles the node -/
theorem treeDown_fuel (v : BpVector) (fwd : Bool) (x : Int) : ∀ (k k' node : Nat), v.internalNodes ≤ node * 2^k → k ≤ k' → node ≠ 0 →
    treeDown v fwd x k' node = treeDown v fwd x k node
  | 0, k', node, h, _, _ => by
    unfold treeDown
    simp at h
    rw [if_neg (by omega), if_neg (by omega)]
  | k + 1, 0, _, _, hk, _ => by omega
  | k + 1, k' + 1, node, h, hk, h0 => by
    unfold treeDown
    have hp : node * 2^(k+1) = (node * 2) * 2^k := by rw [Nat.pow_succ, Nat.mul_assoc, Nat.mul_comm (2^k) 2]
    have hm : ∀ m, node * 2 ≤ m → treeDown v fwd x k' m = treeDown v fwd x k m := fun m hm =>
      treeDown_fuel v fwd x k k' m (by
        have := Nat.mul_le_mul_right (2^k) hm
        omega) (by omega) (by omega)
    split
    · simp only []
      congr 1; funext b
      split
      · exact hm _ (by omega)
      · have ho : ∀ o, otherNode fwd (node * 2 + if fwd = true then 0 else 1) = some o → node * 2 ≤ o := by
          intro o e
          cases fwd with
          | true => simp [otherNode] at e; omega
          | false => simp [otherNode, subU] at e; omega
        cases e : otherNode fwd (node * 2 + if fwd = true then 0 else 1) with
        | none => rfl
        | some o =>
          rw [bind_pure_some, bind_pure_some, hm o (ho o e)]
    · rfl

theorem searchMinTreeWithin_eq (v : BpVector) (fwd : Bool) (block : Nat) (x : Int) (k : Nat) (h : v.internalNodes + block/32 < 2^k) :
    searchMinTreeWithin k v fwd block x = searchMinTree v fwd block x := by
  unfold searchMinTreeWithin searchMinTree
  congr 1; funext r
  cases r with
  | some b => rfl
  | none =>
    simp only []
    have h1 : treeUp v fwd x (v.internalNodes + block/32 + 1) (v.internalNodes + block/32) = treeUp v fwd x k (v.internalNodes + block/32) := by
      rcases Nat.le_total k (v.internalNodes + block/32 + 1) with hk | hk
      · exact treeUp_fuel v fwd x _ _ _ h hk
      · exact (treeUp_fuel v fwd x _ _ _ (Nat.lt_of_lt_of_le Nat.lt_two_pow_self (Nat.pow_le_pow_right (by omega) (by omega))) hk).symm
    rw [h1]
    congr 1; funext top
    by_cases ht : top = 0
    · simp [assertP, ht]
    · have h2 : treeDown v fwd x v.internalNodes top = treeDown v fwd x k top := by
        have hb : ∀ j, 2^j ≤ top * 2^j := fun j => by
          have := Nat.mul_le_mul_right (2^j) (show 1 ≤ top by omega); omega
        rcases Nat.le_total k v.internalNodes with hk | hk
        · exact treeDown_fuel v fwd x k _ top (by have := hb k; omega) hk ht
        · refine (treeDown_fuel v fwd x _ k top ?_ hk ht).symm
          have := hb v.internalNodes
          have := @Nat.lt_two_pow_self v.internalNodes
          omega
      rw [h2]

theorem walkUp_fuel (tree : List Int) (stop : Nat) : ∀ (k k' : Nat) (s : Walk), s.node < 2^k → k ≤ k' →
    walkUp tree stop k' s = walkUp tree stop k s
  | 0, k', s, h, _ => by
    have : s.node = 0 := by simpa using h
    cases k' with
    | zero => rfl
    | succ k' => simp [walkUp, assertP, this]
  | k + 1, 0, _, _, hk => by omega
  | k + 1, k' + 1, s, h, hk => by
    unfold walkUp
    have hp : 2^(k+1) = 2 * 2^k := by rw [Nat.pow_succ]; omega
    have hm : ∀ a b c, walkUp tree stop k' ⟨s.node/2, a, b, c⟩ = walkUp tree stop k ⟨s.node/2, a, b, c⟩ := fun a b c =>
      walkUp_fuel tree stop k k' ⟨s.node/2, a, b, c⟩ (by simp only []; omega) (by omega)
    simp only [hm]

theorem betterNode_idx {tree : List Int} {c : Bool} {node : Nat} {s t : Int × Nat} (h : betterNode tree c node s = some t) :
    t.2 = node ∨ t.2 = s.2 := by
  unfold betterNode at h
  split at h
  · obtain ⟨x, _, h⟩ := Option.bind_eq_some_iff.1 h
    cases h
    split
    · exact .inl rfl
    · exact .inr rfl
  · cases h; exact .inr rfl

/-- the height of the walk is at most the number of its steps, and its candidate is a node -/
theorem walkUp_post (tree : List Int) (stop : Nat) : ∀ (k : Nat) (s u : Walk), walkUp tree stop k s = some u → s.best.2 ≠ 0 →
    u.h ≤ s.h + k ∧ u.best.2 ≠ 0
  | 0, _, _, h, _ => by cases h
  | k + 1, s, u, h, hb => by
    unfold walkUp at h
    obtain ⟨_, _, h⟩ := Option.bind_eq_some_iff.1 h
    split at h
    · obtain ⟨_, _, h⟩ := Option.bind_eq_some_iff.1 h
      simp only [] at h
      obtain ⟨b, e, h⟩ := Option.bind_eq_some_iff.1 h
      have hb' : b.2 ≠ 0 := by rcases betterNode_idx e with h | h <;> omega
      split at h
      · cases h
        exact ⟨by simp only []; omega, hb'⟩
      · have := walkUp_post tree stop k _ u h hb'
        simp only [] at this; omega
    · have := walkUp_post tree stop k _ u h hb
      simp only [] at this; omega

theorem walkDown_post (tree : List Int) (stop : Nat) : ∀ (h node span : Nat) (best : Int × Nat) (u : Walk),
    walkDown tree stop h node span best = some u → best.2 ≠ 0 → node ≠ 0 → u.best.2 ≠ 0 ∧ u.node ≠ 0 := by
  intro h
  induction h with
  | zero =>
    intro node span best u e hb hn
    unfold walkDown at e
    split at e
    · obtain ⟨_, _, e⟩ := Option.bind_eq_some_iff.1 e
      cases e
    · cases e; exact ⟨hb, hn⟩
  | succ h ih =>
    intro node span best u e hb hn
    unfold walkDown at e
    split at e
    · obtain ⟨_, _, e⟩ := Option.bind_eq_some_iff.1 e
      simp only [] at e
      obtain ⟨d, _, e⟩ := Option.bind_eq_some_iff.1 e
      split at e
      · exact ih _ _ _ _ e hb (by omega)
      · obtain ⟨b, eb, e⟩ := Option.bind_eq_some_iff.1 e
        refine ih _ _ _ _ e ?_ (by omega)
        rcases betterNode_idx eb with h | h <;> omega
    · cases e; exact ⟨hb, hn⟩

theorem minLeaf_fuel (tree : List Int) (internal : Nat) : ∀ (k k' node : Nat), internal ≤ node * 2^k → k ≤ k' → node ≠ 0 →
    minLeaf tree internal k' node = minLeaf tree internal k node
  | 0, k', node, h, _, _ => by
    unfold minLeaf
    simp at h
    rw [if_neg (by omega), if_neg (by omega)]
  | k + 1, 0, _, _, hk, _ => by omega
  | k + 1, k' + 1, node, h, hk, h0 => by
    unfold minLeaf
    have hp : node * 2^(k+1) = (node * 2) * 2^k := by rw [Nat.pow_succ, Nat.mul_assoc, Nat.mul_comm (2^k) 2]
    have hm : ∀ m, node * 2 ≤ m → minLeaf tree internal k' m = minLeaf tree internal k m := fun m hm =>
      minLeaf_fuel tree internal k k' m (by
        have := Nat.mul_le_mul_right (2^k) hm
        omega) (by omega) (by omega)
    split
    · simp only []
      congr 1; funext a
      congr 1; funext b
      exact hm _ (by split <;> omega)
    · rfl

theorem findMinSuperblockWithin_eq (v : BpVector) (start stop : Nat) (s : Int × Nat) (k : Nat) (h : v.internalNodes + v.superMin.length ≤ 2^k) :
    findMinSuperblockWithin k v start stop s = findMinSuperblock v start stop s := by
  unfold findMinSuperblockWithin findMinSuperblock
  split
  · rfl
  · simp only []
    cases em : rd v.superMin (v.internalNodes + start) with
    | none => rfl
    | some m =>
      rw [bind_pure_some, bind_pure_some]
      have hlt : v.internalNodes + start < v.superMin.length := (List.getElem?_eq_some_iff.1 em).1
      congr 1; funext d
      split
      · rfl
      · have h1 : walkUp v.superMin stop (v.internalNodes + start + 1) ⟨v.internalNodes + start, start, 0, (m, v.internalNodes + start)⟩ =
            walkUp v.superMin stop k ⟨v.internalNodes + start, start, 0, (m, v.internalNodes + start)⟩ := by
          rcases Nat.le_total k (v.internalNodes + start + 1) with hk | hk
          · exact walkUp_fuel _ _ _ _ _ (by simp only []; omega) hk
          · exact (walkUp_fuel _ _ _ _ _ (Nat.lt_of_lt_of_le Nat.lt_two_pow_self (Nat.pow_le_pow_right (by omega) (by simp only []; omega))) hk).symm
        rw [h1]
        cases eu : walkUp v.superMin stop k ⟨v.internalNodes + start, start, 0, (m, v.internalNodes + start)⟩ with
        | none => rfl
        | some u =>
          rw [bind_pure_some, bind_pure_some]
          by_cases hz : v.internalNodes + start = 0
          · -- the root is not a leaf
            exfalso
            rw [hz] at eu
            cases k with
            | zero => cases eu
            | succ k => simp [walkUp, assertP] at eu
          · obtain ⟨p1, p2⟩ := walkUp_post _ _ _ _ _ eu hz
            by_cases hu : u.node = 0
            · simp [assertP, hu]
            · simp only [] at p1
              rw [assertP_eq _ hu, bind_pure_some, bind_pure_some, assertP_eq (u.h ≤ k) (by omega), bind_pure_some]
              cases ew : walkDown v.superMin stop u.h u.node u.span u.best with
              | none => rfl
              | some w =>
                rw [bind_pure_some, bind_pure_some]
                obtain ⟨q1, q2⟩ := walkDown_post _ _ _ _ _ _ _ ew p2 hu
                cases eb : betterNode v.superMin (w.span < stop) w.node w.best with
                | none => rfl
                | some b =>
                  rw [bind_pure_some, bind_pure_some]
                  have hb : b.2 ≠ 0 := by rcases betterNode_idx eb with h | h <;> omega
                  have h2 : minLeaf v.superMin v.internalNodes v.internalNodes b.2 = minLeaf v.superMin v.internalNodes k b.2 := by
                    have hb' : ∀ j, 2^j ≤ b.2 * 2^j := fun j => by
                      have := Nat.mul_le_mul_right (2^j) (show 1 ≤ b.2 by omega); omega
                    rcases Nat.le_total k v.internalNodes with hk | hk
                    · exact minLeaf_fuel _ _ k _ _ (by have := hb' k; omega) hk hb
                    · refine (minLeaf_fuel _ _ _ k _ ?_ hk hb).symm
                      have := hb' v.internalNodes
                      have := @Nat.lt_two_pow_self v.internalNodes
                      omega
                  rw [h2]

theorem findCloseWithin_eq (ov : Word → Nat → Word) (v : BpVector) (pos k : Nat) (h : v.internalNodes + v.rs.bv.bits.length/128 + 1 < 2^k) :
    findCloseWithin k ov v pos = findClose ov v pos := by
  unfold findCloseWithin findClose
  congr 1; funext b
  congr 1; funext _
  simp only []
  cases e : rd v.rs.bv.bits ((pos + 1)/64) with
  | none => rw [Option.bind_eq_bind, Option.bind_none, Option.bind_eq_bind, Option.bind_none]
  | some w =>
    have hlt : (pos+1)/64 < v.rs.bv.bits.length := (List.getElem?_eq_some_iff.1 e).1
    have hs : ∀ x, searchMinTreeWithin k v true ((pos+1)/64/4 + 1) x = searchMinTree v true ((pos+1)/64/4 + 1) x := fun x =>
      searchMinTreeWithin_eq v true _ x k (by omega)
    simp only [hs]
    rfl

theorem findOpenWithin_eq (ov : Word → Nat → Word) (v : BpVector) (pos k : Nat) (h : v.internalNodes + v.rs.bv.bits.length/128 + 1 < 2^k) :
    findOpenWithin k ov v pos = findOpen ov v pos := by
  unfold findOpenWithin findOpen
  congr 1; funext b
  simp only []
  cases e : rd v.rs.bv.bits (pos/64) with
  | none => rw [Option.bind_eq_bind, Option.bind_none, Option.bind_eq_bind, Option.bind_none]
  | some w =>
    have hlt : pos/64 < v.rs.bv.bits.length := (List.getElem?_eq_some_iff.1 e).1
    have hs : ∀ x, (subU (pos/64/4) 1 >>= fun prev => searchMinTreeWithin k v false prev x >>= fun found => blockExcess v.rs (found + 1) >>= fun foundExcess =>
        i32 (foundExcess - x) >>= fun e2 => findOpenInBlock v.rs.bv.bits (found * 4) e2 4 >>= fun r => r) =
        (subU (pos/64/4) 1 >>= fun prev => searchMinTree v false prev x >>= fun found => blockExcess v.rs (found + 1) >>= fun foundExcess =>
        i32 (foundExcess - x) >>= fun e2 => findOpenInBlock v.rs.bv.bits (found * 4) e2 4 >>= fun r => r) := by
      intro x
      cases eu : subU (pos/64/4) 1 with
      | none => rw [Option.bind_eq_bind, Option.bind_none, Option.bind_eq_bind, Option.bind_none]
      | some d =>
        have hd : d = pos/64/4 - 1 := by
          unfold subU at eu; split at eu
          · cases eu; rfl
          · cases eu
        rw [bind_pure_some, bind_pure_some, searchMinTreeWithin_eq v false d x k (by omega)]
    simp only [hs]
    rfl

theorem encloseWithin_eq (ov : Word → Nat → Word) (v : BpVector) (pos k : Nat) (h : v.internalNodes + v.rs.bv.bits.length/128 + 1 < 2^k) :
    encloseWithin k ov v pos = enclose ov v pos := by
  unfold encloseWithin enclose
  rw [findOpenWithin_eq ov v pos k h]

end BpVector
end Succinct
